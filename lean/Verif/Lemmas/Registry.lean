import Verif.Props.C114
import Verif.Spec.Registry
namespace Vx.Registry
open Vx Vx.Own

theorem lookup_insert (c : Context) (k k' : Nat) (e : Encoding) : (c.insert k e).lookup k' = if k = k' then some e else c.lookup k' := by
  unfold Context.insert Context.lookup
  by_cases h : k = k'
  · simp [h]
  · have : (k == k') = false := by simp [h]
    rw [if_neg h]
    simp only [List.find?_cons, this]
    congr 1
    induction c.entries with
    | nil => rfl
    | cons x xs ih =>
      by_cases hx : x.1 = k
      · have h1 : (x.1 != k) = false := by simp [hx]
        have h2 : (x.1 == k') = false := by simp [hx, h]
        rw [List.filter_cons, if_neg (by simp [h1]), ih, List.find?_cons, h2]
      · have h1 : (x.1 != k) = true := by simp [hx]
        rw [List.filter_cons, if_pos h1, List.find?_cons, List.find?_cons, ih]

theorem lookup_withEncodings (es : List Encoding) (c : Context) (k : Nat) : (c.withEncodings es).lookup k = (lastWith k es).or (c.lookup k) := by
  unfold Context.withEncodings lastWith
  induction es generalizing c with
  | nil => rfl
  | cons e es ih =>
    rw [List.foldl_cons, ih, lookup_insert, List.filter_cons]
    by_cases h : e.id.code = k
    · have : (e.id.code == k) = true := by simp [h]
      rw [if_pos h, if_pos this, List.getLast?_cons]
      cases (es.filter (fun e => e.id.code == k)).getLast? <;> rfl
    · have : ¬ (e.id.code == k) = true := by simp [h]
      rw [if_neg h, if_neg this]

theorem lookup_mem {c : Context} {k : Nat} {e : Encoding} (h : c.lookup k = some e) : e ∈ c.encodings := by
  unfold Context.lookup at h
  obtain ⟨x, hx, rfl⟩ := Option.map_eq_some_iff.mp h
  exact List.mem_map_of_mem (List.mem_of_find?_eq_some hx)

theorem lastWith_code {k : Nat} {es : List Encoding} {e : Encoding} (h : lastWith k es = some e) : e.id.code = k := by
  have := List.mem_of_getLast? h
  simpa using (List.mem_filter.mp this).2

theorem code_inj : ∀ k k' : Std, k.code = k'.code → k = k' := by
  intro k k' h
  cases k <;> cases k' <;> first | rfl | (simp [Std.code] at h)

theorem name_inj : ∀ k k' : Std, k.name = k'.name → k = k' := by
  intro k k' h
  cases k <;> cases k' <;> first | rfl | (simp [Std.name] at h)

theorem name_not_opaque : ∀ k : Std, k.name ≠ "vortex.opaque" := by
  intro k
  cases k <;> simp [Std.name]

theorem id_inj {k k' : Std} (h : k.id = k'.id) : k = k' := code_inj k k' (congrArg EncodingId.code h)

theorem unknown_id (c : Nat) (k : Std) : (Encoding.unknown c).id ≠ k.id := fun h => name_not_opaque k (congrArg EncodingId.name h).symm

mutual
/-- `Knows` of a serialised array. -/
def KnowsN (ctx : Context) : Node → Prop
  | .mk e _ cs => ctx.lookup (std e).code = some (.std (std e)) ∧ KnowsAllN ctx cs
def KnowsAllN (ctx : Context) : List Node → Prop
  | [] => True
  | c :: cs => KnowsN ctx c ∧ KnowsAllN ctx cs
end

mutual
theorem knowsN_erase (ctx : Context) : ∀ a : Arr, KnowsN ctx (erase a) ↔ Knows ctx a
  | .mk e d l b cs => by
    have := knowsAllN_erase ctx cs
    simp only [erase, KnowsN, this, Knows, nodes, List.mem_cons, forall_eq_or_imp, Arr.enc]
theorem knowsAllN_erase (ctx : Context) : ∀ cs : List Arr,
    KnowsAllN ctx (eraseAll cs) ↔ ∀ x ∈ nodesAll cs, ctx.lookup (std x.enc).code = some (.std (std x.enc))
  | [] => by simp [eraseAll, KnowsAllN, nodesAll]
  | c :: cs => by
    have h1 := knowsN_erase ctx c
    have h2 := knowsAllN_erase ctx cs
    simp only [eraseAll, KnowsAllN, h1, h2, Knows, nodesAll, List.mem_append, or_imp, forall_and]
end

theorem resolve_some {ctx : Context} {k : Nat} {e : Encoding} (h : ctx.lookup k = some e) : ctx.resolve k = e := by
  simp [Context.resolve, h]

theorem resolve_none {ctx : Context} {k : Nat} (h : ctx.lookup k = none) : ctx.resolve k = .unknown k := by
  simp [Context.resolve, h]

theorem offsIn_known (u : User) (ctx : Context) (C : Compute) {cs : List Node} (h : KnowsAllN ctx cs) : offsIn u ctx C cs = viewOffs C cs := by
  funext n i
  unfold offsIn viewOffs
  cases cs with
  | nil => rfl
  | cons c cs =>
    obtain ⟨e, b, cc⟩ := c
    simp only [KnowsAllN, KnowsN] at h
    simp only [List.getElem?_cons_zero, Res.unwrap, Res.ok_bind, nodeCode, resolve_some h.1.1]

mutual
theorem readIn_known (u : User) (ctx : Context) (C : Compute) : ∀ (n : Node) (d : DType) (l : Nat), KnowsN ctx n →
    readIn u ctx C d l n = readBack C d l n
  | .mk e b cs, d, l, h => by
    simp only [KnowsN] at h
    rw [readIn, readBack, resolve_some h.1, offsIn_known u ctx C h.2]
    simp only [Encoding.id, Res.guard, decide_true, if_true, Res.ok_bind]
    congr 1
    funext slots
    rw [readAllIn_known u ctx C cs slots 0 h.2]
theorem readAllIn_known (u : User) (ctx : Context) (C : Compute) : ∀ (cs : List Node) (slots : List Slot) (i : Nat), KnowsAllN ctx cs →
    readAllIn u ctx C slots i cs = readAll C slots i cs
  | [], _, _, _ => rfl
  | c :: cs, slots, i, h => by
    simp only [KnowsAllN] at h
    rw [readAllIn, readAll]
    congr 1
    funext s
    rw [readIn_known u ctx C c _ _ h.1]
    congr 1
    funext c'
    rw [readAllIn_known u ctx C cs slots (i + 1) h.2]
end

theorem id_known {ctx : Context} (hi : NoImpostor ctx) {k : Std} (h : (ctx.resolve k.code).id = k.id) : ctx.lookup k.code = some (.std k) := by
  cases hl : ctx.lookup k.code with
  | none => rw [resolve_none hl] at h; exact absurd h (unknown_id _ _)
  | some enc =>
    rw [resolve_some hl] at h
    cases enc with
    | std k' => rw [id_inj h]
    | unknown c => exact absurd h (unknown_id _ _)
    | custom i => exact absurd h (hi i (lookup_mem hl) k)

theorem guard_ok {b : Bool} {x : Unit} (h : Res.guard b = .ok x) : b = true := by
  cases b with
  | true => rfl
  | false => cases h

mutual
theorem readIn_knows {u : User} {ctx : Context} {C : Compute} (hi : NoImpostor ctx) : ∀ (n : Node) (d : DType) (l : Nat) (a : Arr),
    readIn u ctx C d l n = .ok a → KnowsN ctx n
  | .mk e b cs, d, l, a, h => by
    rw [readIn] at h
    simp only [Res.bind_eq_ok] at h
    obtain ⟨_, h1, slots, _, cs', h3, _⟩ := h
    exact ⟨id_known hi (of_decide_eq_true (guard_ok h1)), readAllIn_knows hi cs slots 0 cs' h3⟩
theorem readAllIn_knows {u : User} {ctx : Context} {C : Compute} (hi : NoImpostor ctx) : ∀ (cs : List Node) (slots : List Slot) (i : Nat)
    (as : List Arr), readAllIn u ctx C slots i cs = .ok as → KnowsAllN ctx cs
  | [], _, _, _, _ => trivial
  | c :: cs, slots, i, as, h => by
    rw [readAllIn] at h
    simp only [Res.bind_eq_ok] at h
    obtain ⟨s, _, c', h2, cs', h3, _⟩ := h
    exact ⟨readIn_knows hi c s.dtype s.len c' h2, readAllIn_knows hi cs slots (i + 1) cs' h3⟩
end

mutual
/-- What a walk computes. -/
def foldA (f : RView → List β → β) : Arr → β
  | .mk e d l b cs => f ⟨.std (std e), d, l, .mk e b (eraseAll cs)⟩ (foldAllA f cs)
def foldAllA (f : RView → List β → β) : List Arr → List β
  | [] => []
  | c :: cs => foldA f c :: foldAllA f cs
end

theorem mapM_head_panic {f : α → Res γ} {x : α} {xs : List α} (h : f x = .panic) : Res.mapM f (x :: xs) = .panic := by
  rw [Res.mapM_cons, h]; rfl

/-- If the chunk offsets cannot be read the walk aborts or does not need them. -/
theorem visits_panic {offs offs' : Nat → Nat → Res Nat} (hp : ∀ n i, offs n i = .panic) (nch : Nat) (e : Enc) (d : DType) (l : Nat) :
    visits offs nch e d l = visits offs' nch e d l ∨ visits offs nch e d l = .panic := by
  cases e with
  | chunked n =>
    cases n with
    | zero => exact .inl rfl
    | succ n =>
      right
      have : List.range (n + 1) = 0 :: (List.range n).map (· + 1) := by
        rw [List.range_succ_eq_map]
      show (Res.mapM (chunkSlot d (offs (n + 1 + 1))) (List.range (n + 1)) >>= fun cs => Res.ok (⟨0, u64, n + 1 + 1⟩ :: cs)) = .panic
      rw [this, mapM_head_panic]
      · rfl
      · unfold chunkSlot; rw [hp]; rfl
  | _ => exact .inl rfl

theorem visitsIn_known {u : User} {ctx : Context} {C : Compute} (hC : C.Lawful) {e : Enc} {d : DType} {l : Nat} {b : List Nat} {cs : List Arr}
    (h : Built C (.mk e d l b cs)) (hw : hidesValidity e = false) (ho : ∀ x ∈ nodesAll cs, ctx.lookup (std x.enc).code = some (.std (std x.enc)) ∨
      ctx.lookup (std x.enc).code = none) :
    visitsIn u ctx C (.std (std e)) d l (.mk e b (eraseAll cs)) = .ok (slotsOf 0 cs) ∨
    (visitsIn u ctx C (.std (std e)) d l (.mk e b (eraseAll cs)) = .panic ∧ ∃ x ∈ nodesAll cs, ctx.lookup (std x.enc).code = none) := by
  have hv := (built_visits hC h).1
  have hs : shown e cs = cs := by simp [shown, hw]
  rw [hs] at hv
  have hd : visitsIn u ctx C (.std (std e)) d l (.mk e b (eraseAll cs)) = visits (offsIn u ctx C (eraseAll cs)) cs.length e d l := by
    simp [visitsIn, Res.assert, eraseAll_length]
  rw [hd]
  cases cs with
  | nil => exact .inl hv
  | cons c cs =>
    obtain ⟨e0, d0, l0, b0, cc⟩ := c
    have hm : Arr.mk e0 d0 l0 b0 cc ∈ nodesAll (.mk e0 d0 l0 b0 cc :: cs) := by simp [nodesAll, nodes]
    rcases ho _ hm with hk | hk
    · left
      rw [← hv]
      congr 1
      funext n i
      simp only [offsIn, viewOffs, eraseAll, erase, List.getElem?_cons_zero, Res.unwrap, Res.ok_bind, nodeCode]
      simp only [Arr.enc] at hk
      rw [resolve_some hk]
    · have hp : ∀ n i, offsIn u ctx C (eraseAll (.mk e0 d0 l0 b0 cc :: cs)) n i = .panic := by
        intro n i
        simp only [offsIn, eraseAll, erase, List.getElem?_cons_zero, Res.unwrap, Res.ok_bind, nodeCode]
        simp only [Arr.enc] at hk
        rw [resolve_none hk]
      rcases visits_panic hp (offs' := viewOffs C (eraseAll (.mk e0 d0 l0 b0 cc :: cs))) (Arr.mk e0 d0 l0 b0 cc :: cs).length e d l with h1 | h1
      · left; rw [h1, hv]
      · right; exact ⟨h1, _, hm, hk⟩

mutual
theorem foldIn_built {u : User} {ctx : Context} {C : Compute} (hC : C.Lawful) (sel : Enc → List Slot → List Slot) (f : RView → List β → β) : ∀ a : Arr, Built C a → Whole a → NoOther ctx a →
    (∀ x ∈ nodes a, sel x.enc (slotsOf 0 x.children) = slotsOf 0 x.children) →
    (Knows ctx a ∧ foldIn u ctx C sel f a.dtype a.len (erase a) = .ok (foldA f a)) ∨
    (¬ Knows ctx a ∧ foldIn u ctx C sel f a.dtype a.len (erase a) = .panic)
  | .mk e d l b cs, h, hw, ho, hsel => by
    have hse : sel e (slotsOf 0 cs) = slotsOf 0 cs := hsel (.mk e d l b cs) (by rw [nodes]; exact List.mem_cons_self ..)
    have hb := built_children h
    have he : hidesValidity e = false := hw (.mk e d l b cs) (by rw [nodes]; exact List.mem_cons_self ..)
    have hs : shown e cs = cs := by simp [shown, he]
    have hroot := ho (.mk e d l b cs) (by rw [nodes]; exact List.mem_cons_self ..)
    have hoc : ∀ x ∈ nodesAll cs, ctx.lookup (std x.enc).code = some (.std (std x.enc)) ∨ ctx.lookup (std x.enc).code = none :=
      fun x hx => ho x (by rw [nodes]; exact List.mem_cons_of_mem _ hx)
    have hK : Knows ctx (.mk e d l b cs) ↔ ctx.lookup (std e).code = some (.std (std e)) ∧
        ∀ x ∈ nodesAll cs, ctx.lookup (std x.enc).code = some (.std (std x.enc)) := by
      simp only [Knows, nodes, List.mem_cons, forall_eq_or_imp, Arr.enc]
    simp only [children_mk] at hb
    simp only [dtype_mk, len_mk]
    simp only [Arr.enc] at hroot
    rcases hroot with hr | hr
    rotate_left
    · right
      refine ⟨fun hk => ?_, ?_⟩
      · rw [(hK.mp hk).1] at hr; cases hr
      · rw [erase, foldIn, resolve_none hr]; rfl
    · have hm := childViews e cs
      rw [hs] at hm
      rcases visitsIn_known (u := u) hC h he hoc with hv | ⟨hv, x, hx, hn⟩
      · have ha := foldAllIn_built (u := u) (ctx := ctx) hC sel f cs [] hb (fun x hx => hw x (by rw [nodes]; exact List.mem_cons_of_mem _ hx)) hoc
          (fun x hx => hsel x (by rw [nodes]; exact List.mem_cons_of_mem _ hx))
        rw [List.nil_append, List.length_nil] at ha
        rw [erase, foldIn, resolve_some hr]
        simp only [hv, Res.ok_bind, hse, hm]
        rcases ha with ⟨h1, h2⟩ | ⟨h1, h2⟩
        · left; rw [h2]; exact ⟨hK.mpr ⟨hr, h1⟩, rfl⟩
        · right; rw [h2]; exact ⟨fun hk => h1 (hK.mp hk).2, rfl⟩
      · right
        refine ⟨fun hk => ?_, ?_⟩
        · rw [(hK.mp hk).2 x hx] at hn; cases hn
        · rw [erase, foldIn, resolve_some hr]
          simp only [hv]; rfl
theorem foldAllIn_built {u : User} {ctx : Context} {C : Compute} (hC : C.Lawful) (sel : Enc → List Slot → List Slot) (f : RView → List β → β) : ∀ (cs pre : List Arr),
    (∀ x ∈ cs, Built C x) → (∀ x ∈ nodesAll cs, hidesValidity x.enc = false) →
    (∀ x ∈ nodesAll cs, ctx.lookup (std x.enc).code = some (.std (std x.enc)) ∨ ctx.lookup (std x.enc).code = none) →
    (∀ x ∈ nodesAll cs, sel x.enc (slotsOf 0 x.children) = slotsOf 0 x.children) →
    ((∀ x ∈ nodesAll cs, ctx.lookup (std x.enc).code = some (.std (std x.enc))) ∧
      foldAllIn u ctx C sel f (slotsOf 0 (pre ++ cs)) pre.length (eraseAll cs) = .ok (foldAllA f cs)) ∨
    ((¬ ∀ x ∈ nodesAll cs, ctx.lookup (std x.enc).code = some (.std (std x.enc))) ∧
      foldAllIn u ctx C sel f (slotsOf 0 (pre ++ cs)) pre.length (eraseAll cs) = .panic)
  | [], _, _, _, _, _ => .inl ⟨fun x hx => by simp [nodesAll] at hx, rfl⟩
  | c :: cs, pre, h, hw, ho, hsel => by
    have h1 := foldIn_built (u := u) (ctx := ctx) hC sel f c (h c (List.mem_cons_self ..)) (fun x hx => hw x (by rw [nodesAll]; exact List.mem_append_left _ hx))
      (fun x hx => ho x (by rw [nodesAll]; exact List.mem_append_left _ hx)) (fun x hx => hsel x (by rw [nodesAll]; exact List.mem_append_left _ hx))
    have h2 := foldAllIn_built (u := u) (ctx := ctx) hC sel f cs (pre ++ [c]) (fun x hx => h x (List.mem_cons_of_mem _ hx))
      (fun x hx => hw x (by rw [nodesAll]; exact List.mem_append_right _ hx))
      (fun x hx => ho x (by rw [nodesAll]; exact List.mem_append_right _ hx)) (fun x hx => hsel x (by rw [nodesAll]; exact List.mem_append_right _ hx))
    rw [List.length_append, List.length_singleton, List.append_assoc, List.singleton_append] at h2
    have hf := find_at false pre c cs
    simp only [Bool.false_eq_true, if_false, Bool.false_and] at hf
    have hA : (∀ x ∈ nodesAll (c :: cs), ctx.lookup (std x.enc).code = some (.std (std x.enc))) ↔ Knows ctx c ∧
        ∀ x ∈ nodesAll cs, ctx.lookup (std x.enc).code = some (.std (std x.enc)) := by
      simp only [Knows, nodesAll, List.mem_append, or_imp, forall_and]
    rw [hA, eraseAll, foldAllIn]
    rcases h2 with ⟨k2, h2⟩ | ⟨k2, h2⟩
    · rw [h2, Res.ok_bind, hf]
      rcases h1 with ⟨k1, h1⟩ | ⟨k1, h1⟩
      · left; simp only [h1, Res.ok_bind, foldAllA]; exact ⟨⟨k1, k2⟩, trivial⟩
      · right; simp only [h1]; exact ⟨fun hk => k1 hk.1, by rfl⟩
    · right; rw [h2]; exact ⟨fun hk => k2 hk.2, rfl⟩
end

mutual
theorem foldA_rewrite : ∀ a : Arr, foldA (fun v kids => Node.mk v.payload.1 v.payload.2 kids) a = erase a
  | .mk e d l b cs => by rw [foldA, foldAllA_rewrite cs]; rfl
theorem foldAllA_rewrite : ∀ cs : List Arr, foldAllA (fun v kids => Node.mk v.payload.1 v.payload.2 kids) cs = eraseAll cs
  | [] => rfl
  | c :: cs => by rw [foldAllA, foldA_rewrite c, foldAllA_rewrite cs]; rfl
end

mutual
theorem foldA_walk : ∀ a : Arr, foldA (fun v kids => v :: kids.flatten) a = (nodes a).map (fun x => RView.mk (.std (std x.enc)) x.dtype x.len (erase x))
  | .mk e d l b cs => by rw [foldA, foldAllA_walk cs, nodes]; rfl
theorem foldAllA_walk : ∀ cs : List Arr, (foldAllA (fun v kids => v :: kids.flatten) cs).flatten =
    (nodesAll cs).map (fun x => RView.mk (.std (std x.enc)) x.dtype x.len (erase x))
  | [] => rfl
  | c :: cs => by rw [foldAllA, List.flatten_cons, foldA_walk c, foldAllA_walk cs, nodesAll, List.map_append]
end

mutual
theorem foldA_nbytes (size : Enc → List Nat → Nat) : ∀ a : Arr,
    foldA (fun v kids => ownBytes size v.payload.1 v.len v.payload.2 + kids.sum) a = ((nodes a).map (valueBytes size)).sum
  | .mk e d l b cs => by
    rw [foldA, foldAllA_nbytes size cs, nodes, List.map_cons, List.sum_cons, ← ownBytes_value]
    rfl
theorem foldAllA_nbytes (size : Enc → List Nat → Nat) : ∀ cs : List Arr,
    (foldAllA (fun v kids => ownBytes size v.payload.1 v.len v.payload.2 + kids.sum) cs).sum = ((nodesAll cs).map (valueBytes size)).sum
  | [] => rfl
  | c :: cs => by rw [foldAllA, List.sum_cons, foldA_nbytes size c, foldAllA_nbytes size cs, nodesAll, List.map_append, List.sum_append]
end

mutual
/-- Where no bitmap is left out, `nbytes` looks at all children. -/
theorem sizeSlots_counted {C : Compute} (hC : C.Lawful) : ∀ a : Arr, Built C a → Counted a →
    ∀ x ∈ nodes a, sizeSlots x.enc (slotsOf 0 x.children) = slotsOf 0 x.children
  | .mk e d l b cs, h, hc, x, hx => by
    have hb := built_children h
    simp only [children_mk] at hb
    rw [nodes] at hx
    rcases List.mem_cons.mp hx with rfl | hx
    · have hu : uncountedValidity e = false := hc (.mk e d l b cs) (by rw [nodes]; exact List.mem_cons_self ..)
      have he : hidesValidity e = false := whole_of_counted hc (.mk e d l b cs) (by rw [nodes]; exact List.mem_cons_self ..)
      have hs : shown e cs = cs := by simp [shown, he]
      have := sizeSlots_eq (built_visits hC h).2.1
      rw [hs, hu] at this
      simp only [Bool.false_eq_true, if_false] at this
      exact this
    · exact sizeSlotsAll_counted hC cs hb (fun y hy => hc y (by rw [nodes]; exact List.mem_cons_of_mem _ hy)) x hx
theorem sizeSlotsAll_counted {C : Compute} (hC : C.Lawful) : ∀ cs : List Arr, (∀ x ∈ cs, Built C x) → (∀ x ∈ nodesAll cs, uncountedValidity x.enc = false) →
    ∀ x ∈ nodesAll cs, sizeSlots x.enc (slotsOf 0 x.children) = slotsOf 0 x.children
  | [], _, _, x, hx => by rw [nodesAll] at hx; cases hx
  | c :: cs, h, hc, x, hx => by
    rw [nodesAll, List.mem_append] at hx
    rcases hx with hx | hx
    · exact sizeSlots_counted hC c (h c (List.mem_cons_self ..)) (fun y hy => hc y (by rw [nodesAll]; exact List.mem_append_left _ hy)) x hx
    · exact sizeSlotsAll_counted hC cs (fun y hy => h y (List.mem_cons_of_mem _ hy)) (fun y hy => hc y (by rw [nodesAll]; exact List.mem_append_right _ hy)) x hx
end

end Vx.Registry
