import Verif.Lemmas.SelfDescribe
import Verif.Model.Walk
import Verif.Spec.Walk
namespace Vx.Own
open Vx

theorem fieldSlots_length (len : Nat) : ∀ (i : Nat) (ds : List DType), (fieldSlots len i ds).length = ds.length
  | _, [] => rfl
  | i, d :: ds => by simp [fieldSlots, fieldSlots_length len (i + 1) ds]

/-- What is shown is what the accessors ask for, but for the two hidden bitmaps, which come last. -/
theorem visits_eq {offs : Nat → Nat → Res Nat} {nch : Nat} {e : Enc} {d : DType} {len : Nat} {ss : List Slot}
    (h : accessors offs nch e d len = .ok ss) :
    visits offs nch e d len = .ok (if hidesValidity e then ss.dropLast else ss) ∧ (hidesValidity e = true → ss ≠ []) := by
  cases e with
  | struct v =>
    cases d with
    | struct ns ds n =>
      simp only [accessors, Res.ok.injEq] at h
      subst h
      cases v <;> simp [visits, hidesValidity, vslot]
    | _ => simp [accessors] at h
  | delta v dl off =>
    simp only [accessors, Res.bind_eq_ok] at h
    obtain ⟨bl, hb, h⟩ := h
    cases h
    cases v <;> simp [visits, hidesValidity, vslot, hb]
  | _ => exact ⟨h, fun hx => by cases hx⟩

theorem slotsOf_dropLast (i : Nat) (cs : List Arr) : (slotsOf i cs).dropLast = slotsOf i cs.dropLast := by
  rcases List.eq_nil_or_concat cs with rfl | ⟨xs, x, rfl⟩
  · rfl
  · rw [List.concat_eq_append, slotsOf_append, List.dropLast_concat]
    simp [slotsOf]

theorem slotsOf_eq_nil {i : Nat} {cs : List Arr} (h : slotsOf i cs = []) : cs = [] := by
  cases cs with
  | nil => rfl
  | cons c cs => simp [slotsOf] at h

/-- The children a walk reaches. -/
def shown (e : Enc) (cs : List Arr) : List Arr := if hidesValidity e then cs.dropLast else cs

theorem visits_shown {offs : Nat → Nat → Res Nat} {nch : Nat} {e : Enc} {d : DType} {len : Nat} {cs : List Arr}
    (h : accessors offs nch e d len = .ok (slotsOf 0 cs)) :
    visits offs nch e d len = .ok (slotsOf 0 (shown e cs)) ∧ (hidesValidity e = true → cs ≠ []) := by
  obtain ⟨h1, h2⟩ := visits_eq h
  refine ⟨?_, fun hx hc => h2 hx (by rw [hc]; rfl)⟩
  rw [h1, shown]
  split
  · rw [slotsOf_dropLast]
  · rfl

/-- The children reached are the first ones. -/
theorem shown_append (e : Enc) (cs : List Arr) : ∃ rest, cs = shown e cs ++ rest ∧
    (hidesValidity e = false → rest = []) ∧ (hidesValidity e = true → cs ≠ [] → ∃ v, rest = [v]) := by
  unfold shown
  cases hx : hidesValidity e with
  | false => exact ⟨[], by simp⟩
  | true =>
    rcases List.eq_nil_or_concat cs with rfl | ⟨xs, x, rfl⟩
    · exact ⟨[], by simp⟩
    · exact ⟨[x], by simp [List.concat_eq_append]⟩

theorem eraseAll_append (xs ys : List Arr) : eraseAll (xs ++ ys) = eraseAll xs ++ eraseAll ys := by
  induction xs with
  | nil => rfl
  | cons x xs ih => simp [eraseAll, ih]

theorem eraseAll_eq_map (xs : List Arr) : eraseAll xs = xs.map erase := by
  induction xs with
  | nil => rfl
  | cons x xs ih => simp [eraseAll, ih]

/-- Every request of a walk over a view is met. -/
theorem mapM_childView (pre cs rest : List Arr) :
    Res.mapM (childView (eraseAll (pre ++ cs ++ rest))) (slotsOf pre.length cs) = .ok (cs.map (fun c => ⟨c.dtype, c.len, erase c⟩)) := by
  induction cs generalizing pre with
  | nil => rfl
  | cons c cs ih =>
    have := ih (pre ++ [c])
    rw [List.length_append, List.length_singleton] at this
    have e1 : pre ++ [c] ++ cs ++ rest = pre ++ (c :: cs) ++ rest := by simp
    rw [e1] at this
    simp only [slotsOf, Res.mapM_cons, this, Res.ok_bind, List.map_cons]
    have hc : childView (eraseAll (pre ++ (c :: cs) ++ rest)) ⟨pre.length, c.dtype, c.len⟩ = .ok ⟨c.dtype, c.len, erase c⟩ := by
      simp [childView, eraseAll_eq_map]
    rw [hc]
    rfl

/-- The same in memory. -/
theorem mapM_child_shown (pre cs rest : List Arr) (a : Arr) (h : a.children = pre ++ cs ++ rest) :
    Res.mapM (fun s => expect (a.child s.idx s.dtype s.len)) (slotsOf pre.length cs) = .ok cs := by
  induction cs generalizing pre with
  | nil => rfl
  | cons c cs ih =>
    simp only [slotsOf, Res.mapM_cons]
    have hc : a.child pre.length c.dtype c.len = .ok c := by
      unfold Arr.child; rw [h]; simp [Res.assert]
    rw [hc]
    have := ih (pre ++ [c]) (by rw [h]; simp)
    rw [List.length_append, List.length_singleton] at this
    rw [this]; rfl

/-- The requests find the children they are for, and the hidden child is asked for by none. -/
theorem find_shown (cs : List Arr) (j : Nat) : (slotsOf 0 cs).find? (·.idx == j) = cs[j]?.map (fun c => ⟨j, c.dtype, c.len⟩) := by
  have := slotsOf_find cs 0 j
  simpa using this

mutual
/-- The array without the hidden bitmaps. -/
def strip : Arr → Arr
  | .mk e d l b cs => .mk e d l b (stripAll (hidesValidity e) cs)
def stripAll (hide : Bool) : List Arr → List Arr
  | [] => []
  | c :: cs => if hide && cs.isEmpty then [] else strip c :: stripAll hide cs
end

/-- Which child is at a position of the shown ones. -/
theorem shown_at (hide : Bool) (pre : List Arr) (c : Arr) (cs : List Arr) :
    (if hide then (pre ++ c :: cs).dropLast else pre ++ c :: cs)[pre.length]? = if hide && cs.isEmpty then none else some c := by
  cases hide with
  | false => simp
  | true =>
    cases cs with
    | nil => simp
    | cons x xs =>
      have : (pre ++ c :: x :: xs).dropLast = pre ++ c :: (x :: xs).dropLast := by
        rw [List.dropLast_append_of_ne_nil (by simp)]; rfl
      simp [this]

theorem strip_mk (e : Enc) (d : DType) (l : Nat) (b : List Nat) (cs : List Arr) :
    strip (.mk e d l b cs) = .mk e d l b (stripAll (hidesValidity e) cs) := by rw [strip]

theorem stripAll_cons (hide : Bool) (c : Arr) (cs : List Arr) :
    stripAll hide (c :: cs) = if hide && cs.isEmpty then [] else strip c :: stripAll hide cs := by rw [stripAll]

mutual
/-- An array that hides nothing loses nothing. -/
theorem strip_whole : ∀ a : Arr, Whole a → strip a = a
  | .mk e d l b cs, h => by
    have he : hidesValidity e = false := h (.mk e d l b cs) (by rw [nodes]; exact List.mem_cons_self ..)
    rw [strip_mk, he, stripAll_whole cs (fun x hx => h x (by rw [nodes]; exact List.mem_cons_of_mem _ hx))]
theorem stripAll_whole : ∀ cs : List Arr, (∀ x ∈ nodesAll cs, hidesValidity x.enc = false) → stripAll false cs = cs
  | [], _ => rfl
  | c :: cs, h => by
    rw [stripAll_cons]
    simp only [Bool.false_and, Bool.false_eq_true, if_false]
    rw [strip_whole c (fun x hx => h x (by rw [nodesAll]; exact List.mem_append_left _ hx)),
      stripAll_whole cs (fun x hx => h x (by rw [nodesAll]; exact List.mem_append_right _ hx))]
end

theorem stripAll_hide_length : ∀ cs : List Arr, cs ≠ [] → (stripAll true cs).length < cs.length
  | [], h => absurd rfl h
  | [c], _ => by simp [stripAll_cons]
  | c :: x :: xs, _ => by
    have := stripAll_hide_length (x :: xs) (by simp)
    rw [stripAll_cons]
    simp only [List.isEmpty_cons, Bool.and_false, Bool.false_eq_true, if_false, List.length_cons] at this ⊢
    omega

/-! ### What is counted -/

theorem slotsOf_take (i k : Nat) (cs : List Arr) : (slotsOf i cs).take k = slotsOf i (cs.take k) := by
  induction cs generalizing i k with
  | nil => simp [slotsOf]
  | cons c cs ih =>
    cases k with
    | zero => simp [slotsOf]
    | succ k => simp [slotsOf, ih]

theorem slotsOf_length (i : Nat) (cs : List Arr) : (slotsOf i cs).length = cs.length := by
  induction cs generalizing i with
  | nil => rfl
  | cons c cs ih => simp [slotsOf, ih]

/-- The children `nbytes` counts are all but the bitmap that is left out. -/
theorem sizeSlots_eq {offs : Nat → Nat → Res Nat} {nch : Nat} {e : Enc} {d : DType} {len : Nat} {cs : List Arr}
    (h : visits offs nch e d len = .ok (slotsOf 0 (shown e cs))) :
    sizeSlots e (slotsOf 0 (shown e cs)) = slotsOf 0 (if uncountedValidity e then cs.dropLast else cs) := by
  cases e with
  | bitPacked v w o hp =>
    have hs : shown (.bitPacked v w o hp) cs = cs := rfl
    rw [hs] at h ⊢
    simp only [visits, Res.ok.injEq] at h
    have hl := congrArg List.length h
    rw [slotsOf_length] at hl
    simp only [sizeSlots, slotsOf_take]
    congr 1
    cases v with
    | array =>
      cases hp <;> simp [vslot] at hl <;> simp [uncountedValidity, List.dropLast_eq_take, ← hl]
    | _ =>
      cases hp <;> simp [vslot] at hl <;> simp [uncountedValidity, ← hl] <;> (try (rw [List.take_of_length_le (by omega)])) <;>
        (try (exact List.eq_nil_of_length_eq_zero hl.symm))
  | struct v => cases v <;> rfl
  | delta v dl off => cases v <;> rfl
  | _ => rfl

theorem counted_append (u : Bool) (cs : List Arr) : ∃ rest, cs = (if u then cs.dropLast else cs) ++ rest := by
  cases u with
  | false => exact ⟨[], by simp⟩
  | true =>
    rcases List.eq_nil_or_concat cs with rfl | ⟨xs, x, rfl⟩
    · exact ⟨[], by simp⟩
    · exact ⟨[x], by simp [List.concat_eq_append]⟩

mutual
/-- The array without the bitmaps that are not counted. -/
def trim : Arr → Arr
  | .mk e d l b cs => .mk e d l b (trimAll (uncountedValidity e) cs)
def trimAll (hide : Bool) : List Arr → List Arr
  | [] => []
  | c :: cs => if hide && cs.isEmpty then [] else trim c :: trimAll hide cs
end

mutual
theorem trim_counted : ∀ a : Arr, Counted a → trim a = a
  | .mk e d l b cs, h => by
    have he : uncountedValidity e = false := h (.mk e d l b cs) (by rw [nodes]; exact List.mem_cons_self ..)
    rw [trim, he, trimAll_counted cs (fun x hx => h x (by rw [nodes]; exact List.mem_cons_of_mem _ hx))]
theorem trimAll_counted : ∀ cs : List Arr, (∀ x ∈ nodesAll cs, uncountedValidity x.enc = false) → trimAll false cs = cs
  | [], _ => rfl
  | c :: cs, h => by
    rw [trimAll]
    simp only [Bool.false_and, Bool.false_eq_true, if_false]
    rw [trim_counted c (fun x hx => h x (by rw [nodesAll]; exact List.mem_append_left _ hx)),
      trimAll_counted cs (fun x hx => h x (by rw [nodesAll]; exact List.mem_append_right _ hx))]
end

mutual
theorem trim_le (f : Arr → Nat) (hf : ∀ e d l b cs cs', f (.mk e d l b cs) = f (.mk e d l b cs')) : ∀ a : Arr,
    ((nodes (trim a)).map f).sum ≤ ((nodes a).map f).sum
  | .mk e d l b cs => by
    have := trimAll_le f hf (uncountedValidity e) cs
    rw [trim, nodes, nodes, List.map_cons, List.map_cons, List.sum_cons, List.sum_cons, hf e d l b _ cs]
    omega
theorem trimAll_le (f : Arr → Nat) (hf : ∀ e d l b cs cs', f (.mk e d l b cs) = f (.mk e d l b cs')) (hide : Bool) : ∀ cs : List Arr,
    ((nodesAll (trimAll hide cs)).map f).sum ≤ ((nodesAll cs).map f).sum
  | [] => by simp [trimAll]
  | c :: cs => by
    have h1 := trim_le f hf c
    have h2 := trimAll_le f hf hide cs
    rw [trimAll]
    split
    · simp [nodesAll]
    · simp only [nodesAll, List.map_append, List.sum_append]
      omega
end

theorem counted_of_unpacked {a : Arr} (hw : Whole a) (hu : Unpacked a) : Counted a := by
  intro x hx
  have h1 := hw x hx
  have h2 := hu x hx
  cases he : x.enc with
  | struct v => cases v <;> simp_all [hidesValidity, uncountedValidity]
  | delta v dl off => cases v <;> simp_all [hidesValidity, uncountedValidity]
  | bitPacked v w o hp => rw [he] at h2; exact h2.elim
  | _ => rfl

theorem whole_of_counted {a : Arr} (h : Counted a) : Whole a := by
  intro x hx
  have h1 := h x hx
  cases he : x.enc with
  | struct v => rw [he] at h1; cases v <;> simp_all [hidesValidity, uncountedValidity]
  | delta v dl off => rw [he] at h1; cases v <;> simp_all [hidesValidity, uncountedValidity]
  | _ => rfl

theorem ownBytes_value (size : Enc → List Nat → Nat) (e : Enc) (d : DType) (l : Nat) (b : List Nat) (cs : List Arr) :
    ownBytes size e l b = valueBytes size (.mk e d l b cs) := by cases e <;> rfl

theorem valueBytes_unpacked (size : Enc → List Nat → Nat) (x : Arr) (h : NotPacked x.enc) : valueBytes size x = size x.enc x.data := by
  unfold valueBytes
  split
  · rename_i he; rw [he] at h; exact h.elim
  · rfl

end Vx.Own
