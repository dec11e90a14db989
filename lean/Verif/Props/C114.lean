import Verif.Props.C91
import Verif.Lemmas.Walk
/-! # C114: walking over an array shows all of it

An array that was read back (a view) can be taken into ownership, written again, measured and traversed. -/
namespace Vx.Own
open Vx

theorem built_visits {C : Compute} (hC : C.Lawful) {e : Enc} {d : DType} {l : Nat} {b : List Nat} {cs : List Arr} (h : Built C (.mk e d l b cs)) :
    visits (viewOffs C (eraseAll cs)) cs.length e d l = .ok (slotsOf 0 (shown e cs)) ∧
    visits (memOffs C (.mk e d l b cs)) cs.length e d l = .ok (slotsOf 0 (shown e cs)) ∧ (hidesValidity e = true → cs ≠ []) := by
  obtain ⟨c, _, _, ho, hr⟩ := h
  have h1 := run_slots C c _ hr ho _ (viewOffs_ok hC (.mk e d l b cs))
  have h2 := run_slots C c _ hr ho _ (memOffs_ok hC (.mk e d l b cs))
  simp only [enc_mk, dtype_mk, len_mk, children_mk] at h1 h2
  exact ⟨(visits_shown h1).1, (visits_shown h2).1, (visits_shown h1).2⟩

/-- Every request of the walk over a view of a built array is met by the child it is for. -/
theorem childViews (e : Enc) (cs : List Arr) :
    Res.mapM (childView (eraseAll cs)) (slotsOf 0 (shown e cs)) = .ok ((shown e cs).map (fun c => ⟨c.dtype, c.len, erase c⟩)) := by
  obtain ⟨rest, h, _, _⟩ := shown_append e cs
  have := mapM_childView [] (shown e cs) rest
  rw [List.nil_append, ← h] at this
  exact this

theorem find_at (hide : Bool) (pre : List Arr) (c : Arr) (cs : List Arr) :
    (slotsOf 0 (if hide then (pre ++ c :: cs).dropLast else pre ++ c :: cs)).find? (·.idx == pre.length) =
      if hide && cs.isEmpty then none else some ⟨pre.length, c.dtype, c.len⟩ := by
  rw [find_shown, shown_at]
  split <;> rfl

mutual
theorem rewrite_built {C : Compute} (hC : C.Lawful) : ∀ a : Arr, Built C a → rewrite C a.dtype a.len (erase a) = .ok (erase (strip a))
  | .mk e d l b cs, h => by
    have hb := built_children h
    have hv := (built_visits hC h).1
    simp only [dtype_mk, len_mk, children_mk] at hb ⊢
    have hr := rewriteAll_built hC (hidesValidity e) cs [] hb
    rw [List.nil_append, List.length_nil] at hr
    rw [strip_mk]
    simp only [erase, rewrite, eraseAll_length, hv, Res.ok_bind, childViews]
    unfold shown
    rw [hr, Res.ok_bind]
theorem rewriteAll_built {C : Compute} (hC : C.Lawful) (hide : Bool) : ∀ (cs pre : List Arr), (∀ x ∈ cs, Built C x) →
    rewriteAll C (slotsOf 0 (if hide then (pre ++ cs).dropLast else pre ++ cs)) pre.length (eraseAll cs) = .ok (eraseAll (stripAll hide cs))
  | [], _, _ => rfl
  | c :: cs, pre, h => by
    have h1 := rewrite_built hC c (h c (List.mem_cons_self ..))
    have h2 := rewriteAll_built hC hide cs (pre ++ [c]) (fun x hx => h x (List.mem_cons_of_mem _ hx))
    rw [List.length_append, List.length_singleton, List.append_assoc, List.singleton_append] at h2
    have hf := find_at hide pre c cs
    rw [eraseAll, rewriteAll, h2, Res.ok_bind, hf, stripAll_cons]
    by_cases he : (hide && cs.isEmpty) = true
    · rw [if_pos he, if_pos he]
      simp only [Bool.and_eq_true, List.isEmpty_iff] at he
      rw [he.2]; rfl
    · rw [if_neg he, if_neg he]
      simp only [h1, Res.ok_bind, eraseAll]
end

mutual
theorem nbytes_built {C : Compute} (hC : C.Lawful) (size : Enc → List Nat → Nat) : ∀ a : Arr, Built C a →
    nbytes C size a = .ok ((nodes (trim a)).map (valueBytes size)).sum
  | .mk e d l b cs, h => by
    have hb := built_children h
    have hv := (built_visits hC h).2.1
    simp only [children_mk] at hb
    have hr := nbytesAll_built hC size (uncountedValidity e) cs [] hb
    rw [List.nil_append, List.length_nil] at hr
    have hm : Res.mapM (fun s => expect ((Arr.mk e d l b cs).child s.idx s.dtype s.len))
        (slotsOf 0 (if uncountedValidity e then cs.dropLast else cs)) = .ok (if uncountedValidity e then cs.dropLast else cs) := by
      obtain ⟨rest, h1⟩ := counted_append (uncountedValidity e) cs
      exact mapM_child_shown [] _ rest _ h1
    rw [trim]
    simp only [nbytes, hv, Res.ok_bind, sizeSlots_eq hv, hm]
    rw [hr, Res.ok_bind, nodes, List.map_cons, List.sum_cons, ← ownBytes_value]
theorem nbytesAll_built {C : Compute} (hC : C.Lawful) (size : Enc → List Nat → Nat) (hide : Bool) : ∀ (cs pre : List Arr), (∀ x ∈ cs, Built C x) →
    nbytesAll C size (slotsOf 0 (if hide then (pre ++ cs).dropLast else pre ++ cs)) pre.length cs =
      .ok ((nodesAll (trimAll hide cs)).map (valueBytes size)).sum
  | [], _, _ => rfl
  | c :: cs, pre, h => by
    have h1 := nbytes_built hC size c (h c (List.mem_cons_self ..))
    have h2 := nbytesAll_built hC size hide cs (pre ++ [c]) (fun x hx => h x (List.mem_cons_of_mem _ hx))
    rw [List.length_append, List.length_singleton, List.append_assoc, List.singleton_append] at h2
    have hf := find_at hide pre c cs
    rw [nbytesAll, h2, Res.ok_bind, hf, trimAll]
    by_cases he : (hide && cs.isEmpty) = true
    · rw [if_pos he, if_pos he]
      simp only [Bool.and_eq_true, List.isEmpty_iff] at he
      rw [he.2]; rfl
    · rw [if_neg he, if_neg he]
      simp only [h1, Res.ok_bind, nodesAll, List.map_append, List.sum_append]
end

/-- An array as it is read back. -/
def asView (a : Arr) : View := ⟨a.dtype, a.len, erase a⟩

mutual
theorem walk_built {C : Compute} (hC : C.Lawful) : ∀ a : Arr, Built C a → Whole a → walk C a.dtype a.len (erase a) = .ok ((nodes a).map asView)
  | .mk e d l b cs, h, hw => by
    have hb := built_children h
    have hv := (built_visits hC h).1
    have he : hidesValidity e = false := hw (.mk e d l b cs) (by rw [nodes]; exact List.mem_cons_self ..)
    have hs : shown e cs = cs := by simp [shown, he]
    simp only [dtype_mk, len_mk, children_mk] at hb ⊢
    have hr := walkAll_built hC cs [] hb (fun x hx => hw x (by rw [nodes]; exact List.mem_cons_of_mem _ hx))
    rw [List.nil_append, List.length_nil] at hr
    have hm := childViews e cs
    rw [hs] at hv hm
    simp only [erase, walk, eraseAll_length, hv, Res.ok_bind, hm, hr, nodes, List.map_cons, asView, dtype_mk, len_mk]
theorem walkAll_built {C : Compute} (hC : C.Lawful) : ∀ (cs pre : List Arr), (∀ x ∈ cs, Built C x) →
    (∀ x ∈ nodesAll cs, hidesValidity x.enc = false) →
    walkAll C (slotsOf 0 (pre ++ cs)) pre.length (eraseAll cs) = .ok ((nodesAll cs).map asView)
  | [], _, _, _ => rfl
  | c :: cs, pre, h, hw => by
    have h1 := walk_built hC c (h c (List.mem_cons_self ..)) (fun x hx => hw x (by rw [nodesAll]; exact List.mem_append_left _ hx))
    have h2 := walkAll_built hC cs (pre ++ [c]) (fun x hx => h x (List.mem_cons_of_mem _ hx))
      (fun x hx => hw x (by rw [nodesAll]; exact List.mem_append_right _ hx))
    rw [List.length_append, List.length_singleton, List.append_assoc, List.singleton_append] at h2
    have hf := find_at false pre c cs
    simp only [Bool.false_eq_true, if_false, Bool.false_and] at hf
    rw [eraseAll, walkAll, h2, Res.ok_bind, hf]
    simp only [h1, Res.ok_bind, nodesAll, List.map_append]
end

theorem built_hides {C : Compute} (hC : C.Lawful) {e : Enc} {d : DType} {l : Nat} {b : List Nat} {cs : List Arr} (h : Built C (.mk e d l b cs)) :
    hidesValidity e = true → cs ≠ [] := (built_visits hC h).2.2

mutual
theorem whole_of_strip {C : Compute} (hC : C.Lawful) : ∀ a : Arr, Built C a → erase (strip a) = erase a → Whole a
  | .mk e d l b cs, h, hs => by
    rw [strip_mk] at hs
    simp only [erase, Node.mk.injEq, true_and] at hs
    have he : hidesValidity e = false := by
      cases hx : hidesValidity e with
      | false => rfl
      | true =>
        exfalso
        rw [hx] at hs
        have := congrArg List.length hs
        rw [eraseAll_length, eraseAll_length] at this
        exact absurd this (Nat.ne_of_lt (stripAll_hide_length cs (built_hides hC h hx)))
    rw [he] at hs
    intro x hx
    rw [nodes] at hx
    rcases List.mem_cons.mp hx with rfl | hx
    · exact he
    · exact wholeAll_of_strip hC cs (built_children h) hs x hx
theorem wholeAll_of_strip {C : Compute} (hC : C.Lawful) : ∀ cs : List Arr, (∀ x ∈ cs, Built C x) → eraseAll (stripAll false cs) = eraseAll cs →
    ∀ x ∈ nodesAll cs, hidesValidity x.enc = false
  | [], _, _, x, hx => by rw [nodesAll] at hx; cases hx
  | c :: cs, h, hs, x, hx => by
    rw [stripAll_cons] at hs
    simp only [Bool.false_and, Bool.false_eq_true, if_false, eraseAll, List.cons.injEq] at hs
    rw [nodesAll] at hx
    rcases List.mem_append.mp hx with hx | hx
    · exact whole_of_strip hC c (h c (List.mem_cons_self ..)) hs.1 x hx
    · exact wholeAll_of_strip hC cs (fun y hy => h y (List.mem_cons_of_mem _ hy)) hs.2 x hx
end

mutual
theorem erase_readBack {C : Compute} : ∀ (n : Node) (d : DType) (l : Nat) (a : Arr), readBack C d l n = .ok a → erase a = n
  | .mk e b cs, d, l, a, h => by
    rw [readBack] at h
    simp only [Res.bind_eq_ok] at h
    obtain ⟨slots, _, cs', h2, h3⟩ := h
    cases h3
    rw [erase, eraseAll_readAll cs slots 0 cs' h2]
theorem eraseAll_readAll {C : Compute} : ∀ (cs : List Node) (slots : List Slot) (i : Nat) (as : List Arr), readAll C slots i cs = .ok as → eraseAll as = cs
  | [], _, _, as, h => by rw [readAll] at h; cases h; rfl
  | c :: cs, slots, i, as, h => by
    rw [readAll] at h
    simp only [Res.bind_eq_ok] at h
    obtain ⟨s, _, c', h2, cs', h3, h4⟩ := h
    cases h4
    rw [eraseAll, erase_readBack c s.dtype s.len c' h2, eraseAll_readAll cs slots (i + 1) cs' h3]
end

theorem accessors_hides {e : Enc} (he : hidesValidity e = true) (offs offs' : Nat → Nat → Res Nat) (n n' : Nat) (d : DType) (l : Nat) :
    accessors offs n e d l = accessors offs' n' e d l := by
  cases e <;> first | rfl | cases he

theorem mapM_panic {f : α → Res β} (as : List α) (bs : List β) (x : α) (h : Res.mapM f as = .ok bs) (hx : f x = .panic) :
    Res.mapM f (as ++ [x]) = .panic := by
  induction as generalizing bs with
  | nil => simp [Res.mapM_cons, hx]
  | cons a as ih =>
    simp only [Res.mapM_cons, Res.bind_eq_ok] at h
    obtain ⟨y, h1, ys, h2, _⟩ := h
    rw [List.cons_append, Res.mapM_cons, h1, Res.ok_bind, ih ys h2]; rfl

/-- Requests for the children an owned copy was given succeed. -/
theorem mapM_owned (o : Owned) (pre cs rest : List Arr) (h : o.children = (pre ++ cs ++ rest).map asView) :
    Res.mapM (fun s => expect (o.child s.idx s.dtype s.len)) (slotsOf pre.length cs) = .ok (cs.map asView) := by
  induction cs generalizing pre with
  | nil => rfl
  | cons c cs ih =>
    simp only [slotsOf, Res.mapM_cons]
    have hc : o.child pre.length c.dtype c.len = .ok (asView c) := by
      unfold Owned.child; rw [h]; simp [Res.assert, asView]
    rw [hc]
    have := ih (pre ++ [c]) (by rw [h]; simp)
    rw [List.length_append, List.length_singleton] at this
    rw [this]; rfl

theorem view_children {C : Compute} (hC : C.Lawful) {e : Enc} {d : DType} {l : Nat} {b : List Nat} {cs : List Arr} (h : Built C (.mk e d l b cs)) :
    View.children C (asView (.mk e d l b cs)) = .ok ((shown e cs).map asView) := by
  simp only [asView, dtype_mk, len_mk, erase, View.children, eraseAll_length, (built_visits hC h).1, Res.ok_bind]
  exact childViews e cs

/-! ## The theorems -/

/-- **C114, writing again.** An array that was read back is written as it was, if no nullable struct and no nullable delta array with a validity
bitmap is in it ... -/
theorem C114_rewrite_partial {C : Compute} (hC : C.Lawful) (a : Arr) (h : Built C a) (hw : Whole a) :
    rewrite C a.dtype a.len (erase a) = .ok (erase a) := by
  rw [rewrite_built hC a h, strip_whole a hw]

/-- ... and reads back as the same array. -/
theorem C114_roundtrip_partial {C : Compute} (hC : C.Lawful) (a : Arr) (h : Built C a) (hw : Whole a) :
    (rewrite C a.dtype a.len (erase a) >>= readBack C a.dtype a.len) = .ok a := by
  rw [C114_rewrite_partial hC a h hw, Res.ok_bind, readBack_built hC a h]

/-- Writing never fails, whatever is in the array: what is wrong is not noticed. -/
theorem C114_rewrite_never_fails {C : Compute} (hC : C.Lawful) (a : Arr) (h : Built C a) : ∃ n, rewrite C a.dtype a.len (erase a) = .ok n :=
  ⟨_, rewrite_built hC a h⟩

/-- The condition is exact: every array with such a bitmap anywhere in it is written as another one. -/
theorem C114_rewrite_exact {C : Compute} (hC : C.Lawful) (a : Arr) (h : Built C a) :
    rewrite C a.dtype a.len (erase a) = .ok (erase a) ↔ Whole a := by
  refine ⟨fun hr => ?_, C114_rewrite_partial hC a h⟩
  rw [rewrite_built hC a h] at hr
  exact whole_of_strip hC a h (Res.ok.inj hr)

/-- Whatever is read from it then is not the array. -/
theorem C114_lost {C : Compute} (hC : C.Lawful) (a : Arr) (h : Built C a) (hw : ¬ Whole a) :
    (rewrite C a.dtype a.len (erase a) >>= readBack C a.dtype a.len) ≠ .ok a := by
  intro hr
  rw [rewrite_built hC a h, Res.ok_bind] at hr
  exact hw (whole_of_strip hC a h (erase_readBack _ _ _ _ hr).symm)

/-- **C114, ownership.** Taking ownership of what was read back succeeds; the accessors of the copy return all the children, unless it is a
nullable struct or delta array with a validity bitmap: then they panic. -/
theorem C114_own_partial {C : Compute} (hC : C.Lawful) (a : Arr) (h : Built C a) :
    ∃ o, View.own C (asView a) = .ok o ∧ o.enc = a.enc ∧ o.dtype = a.dtype ∧ o.len = a.len ∧ o.data = a.data ∧
      o.openAll C = if hidesValidity a.enc then .panic else .ok (a.children.map asView) := by
  obtain ⟨e, d, l, b, cs⟩ := a
  have hk := view_children hC h
  simp only [asView, dtype_mk, len_mk, erase] at hk
  refine ⟨⟨e, d, l, b, (shown e cs).map asView⟩, ?_, rfl, rfl, rfl, rfl, ?_⟩
  · simp only [asView, dtype_mk, len_mk, erase, View.own, hk, Res.ok_bind]
  · have hb := h
    obtain ⟨c, _, _, ho, hr⟩ := hb
    show _ = if hidesValidity e = true then Res.panic else Res.ok (cs.map asView)
    rcases Bool.eq_false_or_eq_true (hidesValidity e) with he | he
    rotate_left
    · rw [if_neg (by rw [he]; exact Bool.false_ne_true)]
      have hs : shown e cs = cs := by simp [shown, he]
      rw [hs]
      have hoffs : OffsOk (.mk e d l b cs) (Owned.offs C ⟨e, d, l, b, cs.map asView⟩) := by
        intro xs rest hc i hi
        simp only [children_mk] at hc
        unfold Owned.offs Owned.child
        rw [hc]
        simp only [List.map_cons, List.getElem?_cons_zero, asView, dtype_mk, len_mk, Res.assert, decide_true, if_true, Res.ok_bind, expect, erase, eraseAll]
        exact hC.view xs i hi
      have ha := run_slots C c _ hr ho _ hoffs
      simp only [enc_mk, dtype_mk, len_mk, children_mk] at ha
      have hm := mapM_owned ⟨e, d, l, b, cs.map asView⟩ [] cs [] (by simp)
      unfold Owned.openAll
      simp only [List.length_map, ha, Res.ok_bind]
      exact hm
    · rw [if_pos he]
      have ha := run_slots C c _ hr ho _ (memOffs_ok hC (.mk e d l b cs))
      simp only [enc_mk, dtype_mk, len_mk, children_mk] at ha
      obtain ⟨rest, h1, _, h3⟩ := shown_append e cs
      obtain ⟨v, rfl⟩ := h3 he (built_hides hC h he)
      have hm := mapM_owned ⟨e, d, l, b, (shown e cs).map asView⟩ [] (shown e cs) [] (by simp)
      unfold Owned.openAll
      dsimp only
      rw [accessors_hides he _ (memOffs C (.mk e d l b cs)) _ cs.length, ha, Res.ok_bind]
      have hs : slotsOf 0 cs = slotsOf 0 (shown e cs) ++ slotsOf (0 + (shown e cs).length) [v] := by
        rw [← slotsOf_append]; exact congrArg _ h1
      rw [hs]
      refine mapM_panic _ _ _ hm ?_
      simp [Owned.child, expect]

/-- **C114, size.** The size in bytes is that of all buffers in the tree, if no bitmap is hidden and nothing is bit-packed ... -/
theorem C114_nbytes_partial {C : Compute} (hC : C.Lawful) (size : Enc → List Nat → Nat) (a : Arr) (h : Built C a) (hw : Whole a) (hu : Unpacked a) :
    nbytes C size a = .ok (totalBytes size a) := by
  rw [nbytes_built hC size a h, trim_counted a (counted_of_unpacked hw hu), totalBytes]
  congr 2
  exact List.map_congr_left (fun x hx => valueBytes_unpacked size x (hu x hx))

/-- ... and if something is, that of the bits of the packed values, without the padding of the last block, and of all other buffers ... -/
theorem C114_nbytes_packed_partial {C : Compute} (hC : C.Lawful) (size : Enc → List Nat → Nat) (a : Arr) (h : Built C a) (hc : Counted a) :
    nbytes C size a = .ok ((nodes a).map (valueBytes size)).sum := by
  rw [nbytes_built hC size a h, trim_counted a hc]

theorem run_packed {C : Compute} {c : Call} {v : VMeta} {w o : Nat} {hp : Bool} {d : DType} {l : Nat} {b : List Nat} {cs : List Arr}
    (h : c.run C = .ok (.mk (.bitPacked v w o hp) d l b cs)) : b.length = (l + o + 1023) / 1024 * (128 * w) := by
  cases c with
  | bitPacked packed p v' patches width len off =>
    simp only [Call.run, Res.bind_eq_ok] at h
    obtain ⟨_, _, _, _, _, _, _, h4, _, _, m, _, h⟩ := h
    cases h
    simpa using guard_ok h4
  | sparse ind val len off fill fillOk =>
    simp only [Call.run, Res.bind_eq_ok] at h
    obtain ⟨_, h1, _, h2, _, h3, h⟩ := h
    split at h
    · simp [Res.bind_eq_ok] at h
    · simp at h
  | null | constant => cases h
  | _ => simp [Call.run, Res.bind_eq_ok] at h

/-- The buffer of a bit-packed array has room for its values. -/
theorem packed_room {C : Compute} {v : VMeta} {w o : Nat} {hp : Bool} {d : DType} {l : Nat} {b : List Nat} {cs : List Arr}
    (h : Built C (.mk (.bitPacked v w o hp) d l b cs)) : (w * l + 7) / 8 ≤ b.length := by
  obtain ⟨c, _, _, _, hr⟩ := h
  rw [run_packed hr]
  have h1 : l ≤ (l + o + 1023) / 1024 * 1024 := by omega
  generalize (l + o + 1023) / 1024 = k at h1
  have h2 : w * l ≤ w * (k * 1024) := Nat.mul_le_mul_left _ h1
  have h3 : w * (k * 1024) = 8 * (k * (128 * w)) := by
    rw [Nat.mul_left_comm w, Nat.mul_left_comm 8, show (8 * (128 * w)) = w * 1024 by omega]
  omega

mutual
theorem values_le {C : Compute} (size : Enc → List Nat → Nat) (hs : ∀ v w o hp b, size (.bitPacked v w o hp) b = b.length) : ∀ a : Arr, Built C a →
    ((nodes a).map (valueBytes size)).sum ≤ totalBytes size a
  | .mk e d l b cs, h => by
    have hb := built_children h
    simp only [children_mk] at hb
    have h1 := valuesAll_le size hs cs hb
    have h2 : valueBytes size (.mk e d l b cs) ≤ size e b := by
      cases e with
      | bitPacked v w o hp => rw [hs]; exact packed_room h
      | _ => exact Nat.le_refl _
    simp only [totalBytes, nodes, List.map_cons, List.sum_cons]
    exact Nat.add_le_add h2 h1
theorem valuesAll_le {C : Compute} (size : Enc → List Nat → Nat) (hs : ∀ v w o hp b, size (.bitPacked v w o hp) b = b.length) : ∀ cs : List Arr,
    (∀ x ∈ cs, Built C x) → ((nodesAll cs).map (valueBytes size)).sum ≤ ((nodesAll cs).map (fun x => size x.enc x.data)).sum
  | [], _ => Nat.le_refl _
  | c :: cs, h => by
    have h1 := values_le size hs c (h c (List.mem_cons_self ..))
    have h2 := valuesAll_le size hs cs (fun x hx => h x (List.mem_cons_of_mem _ hx))
    simp only [nodesAll, List.map_append, List.sum_append]
    unfold totalBytes at h1
    omega
end

/-- ... and it is never more than is there, whatever is hidden or packed. -/
theorem C114_nbytes_le {C : Compute} (hC : C.Lawful) (size : Enc → List Nat → Nat) (hs : ∀ v w o hp b, size (.bitPacked v w o hp) b = b.length)
    (a : Arr) (h : Built C a) : ∃ n, nbytes C size a = .ok n ∧ n ≤ totalBytes size a :=
  ⟨_, nbytes_built hC size a h, Nat.le_trans (trim_le (valueBytes size) (fun e d l b cs cs' => by cases e <;> rfl) a) (values_le size hs a h)⟩

/-- **C114, traversal.** The traversal of what was read back meets every array in the tree once, parents first and children in order, each
with its type, its length and its serialised form. -/
theorem C114_traversal_partial {C : Compute} (hC : C.Lawful) (a : Arr) (h : Built C a) (hw : Whole a) :
    walk C a.dtype a.len (erase a) = .ok ((nodes a).map (fun x => ⟨x.dtype, x.len, erase x⟩)) :=
  walk_built hC a h hw

/-! ## Cases -/

/-- Two nullable runs over five rows, with a validity array: everything is shown. -/
theorem built_exRunEnd : Built plain exRunEnd := by
  have hv : Built plain exValues := .mk (.prim .i32 [7, 9] .allValid) _ (by simp [Call.args, Valid.intoArray]) trivial rfl
  have hb : Built plain exValidity := .mk (.bool [21] 0 5 .nonNullable) _ (by simp [Call.args, Valid.intoArray]) trivial rfl
  exact .mk (.runEnd (primArr .u16 [2, 5]) exValues (.array exValidity) 0 5) _
    (by simp only [Call.args, Valid.intoArray, List.cons_append, List.nil_append, List.mem_cons, List.not_mem_nil, or_false]
        rintro x (rfl | rfl | rfl)
        · exact built_prim _ _
        · exact hv
        · exact hb) ⟨rfl, rfl⟩ rfl

theorem whole_exRunEnd : Whole exRunEnd := by
  intro x hx
  simp only [exRunEnd, exValues, exValidity, primArr, nodes, nodesAll, List.append_nil, List.cons_append, List.nil_append, List.mem_cons, List.not_mem_nil, or_false] at hx
  rcases hx with rfl | rfl | rfl | rfl <;> rfl

theorem unpacked_exRunEnd : Unpacked exRunEnd := by
  intro x hx
  simp only [exRunEnd, exValues, exValidity, primArr, nodes, nodesAll, List.append_nil, List.cons_append, List.nil_append, List.mem_cons, List.not_mem_nil, or_false] at hx
  rcases hx with rfl | rfl | rfl | rfl <;> trivial

example : rewrite plain exRunEnd.dtype exRunEnd.len (erase exRunEnd) = .ok (erase exRunEnd) := C114_rewrite_partial plain_lawful _ built_exRunEnd whole_exRunEnd
example : walk plain exRunEnd.dtype exRunEnd.len (erase exRunEnd) = .ok ([exRunEnd, primArr .u16 [2, 5], exValues, exValidity].map asView) :=
  C114_traversal_partial plain_lawful _ built_exRunEnd whole_exRunEnd
example : nbytes plain (fun _ b => 4 * b.length) exRunEnd = .ok 20 := C114_nbytes_partial plain_lawful _ _ built_exRunEnd whole_exRunEnd unpacked_exRunEnd

/-- A struct of two rows, the second of which is null. -/
def exNullMask : Arr := .mk (.bool .nonNullable 0) (.bool false) 2 [1] []
def exStruct : Arr := .mk (.struct .array) (.struct ["a".toList] [.prim .i32 false] true) 2 [] [primArr .i32 [7, 9], exNullMask]

theorem built_exStruct : Built plain exStruct := by
  have hb : Built plain exNullMask := .mk (.bool [1] 0 2 .nonNullable) _ (by simp [Call.args, Valid.intoArray]) trivial rfl
  exact .mk (.struct ["a".toList] [primArr .i32 [7, 9]] 2 (.array exNullMask)) _
    (by simp only [Call.args, Valid.intoArray, List.cons_append, List.nil_append, List.mem_cons, List.not_mem_nil, or_false]
        rintro x (rfl | rfl)
        · exact built_prim _ _
        · exact hb) rfl rfl

/-- The full claim is false: a struct with a null row that is read back and written again loses its bitmap; nothing fails, and the array that is
read from it then panics when its validity is asked for. -/
theorem C114_struct_validity_lost : Built plain exStruct ∧
    rewrite plain exStruct.dtype exStruct.len (erase exStruct) = .ok (.mk (.struct .array) [] [erase (primArr .i32 [7, 9])]) ∧
    openAll plain exStruct = .ok [primArr .i32 [7, 9], exNullMask] ∧
    ∃ b, readBack plain exStruct.dtype exStruct.len (.mk (.struct .array) [] [erase (primArr .i32 [7, 9])]) = .ok b ∧
      b.dtype = exStruct.dtype ∧ openAll plain b = .panic :=
  ⟨built_exStruct, rfl, rfl, _, rfl, rfl, rfl⟩

/-- Nor can it be taken into ownership ... -/
theorem C114_struct_own : ∃ o, View.own plain (asView exStruct) = .ok o ∧ o.openAll plain = .panic := by
  obtain ⟨o, h, _, _, _, _, h2⟩ := C114_own_partial plain_lawful _ built_exStruct
  exact ⟨o, h, h2⟩

/-- ... and its size leaves the bitmap out. -/
theorem C114_struct_nbytes : nbytes plain (fun _ b => b.length) exStruct = .ok 2 ∧ totalBytes (fun _ b => b.length) exStruct = 3 := ⟨rfl, rfl⟩

/-- Five values of one bit, the second and fourth missing: one block of 128 bytes and a bitmap. -/
def exPackedMask : Arr := .mk (.bool .nonNullable 0) (.bool false) 5 [21] []
def exPacked : Arr := .mk (.bitPacked .array 1 0 false) (.prim .u8 true) 5 (List.replicate 128 0) [exPackedMask]

set_option maxRecDepth 4000 in
theorem built_exPacked : Built plain exPacked := by
  have hb : Built plain exPackedMask := .mk (.bool [21] 0 5 .nonNullable) _ (by simp [Call.args, Valid.intoArray]) trivial rfl
  exact .mk (.bitPacked (List.replicate 128 0) .u8 (.array exPackedMask) none 1 5 0) _
    (by simp only [Call.args, Valid.intoArray, optList, List.nil_append, List.mem_cons, List.not_mem_nil, or_false]
        rintro x rfl; exact hb) ⟨nofun, rfl⟩ rfl

set_option maxRecDepth 4000 in
/-- Its size leaves the padding and the bitmap out: one byte of 129. -/
theorem C114_packed_nbytes : nbytes plain (fun _ b => b.length) exPacked = .ok 1 ∧ totalBytes (fun _ b => b.length) exPacked = 129 := ⟨rfl, rfl⟩

set_option maxRecDepth 4000 in
example : ∃ n, nbytes plain (fun _ b => b.length) exPacked = .ok n ∧ n ≤ 129 := C114_nbytes_le plain_lawful _ (fun _ _ _ _ _ => rfl) _ built_exPacked

end Vx.Own
