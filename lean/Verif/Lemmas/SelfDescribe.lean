import Verif.Spec.SelfDescribe
/-! # Lemmas for C91 -/
namespace Vx.Own
open Vx

theorem enc_mk {e d l b cs} : (Arr.mk e d l b cs).enc = e := rfl
theorem dtype_mk {e d l b cs} : (Arr.mk e d l b cs).dtype = d := rfl
theorem len_mk {e d l b cs} : (Arr.mk e d l b cs).len = l := rfl
theorem children_mk {e d l b cs} : (Arr.mk e d l b cs).children = cs := rfl

/-- The slots that describe a list of children exactly, numbered from `i`. -/
def slotsOf : Nat → List Arr → List Slot
  | _, [] => []
  | i, c :: cs => ⟨i, c.dtype, c.len⟩ :: slotsOf (i + 1) cs

theorem slotsOf_append (i : Nat) (xs ys : List Arr) : slotsOf i (xs ++ ys) = slotsOf i xs ++ slotsOf (i + xs.length) ys := by
  induction xs generalizing i with
  | nil => simp [slotsOf]
  | cons x xs ih => simp [slotsOf, ih, Nat.add_comm, Nat.add_left_comm]

theorem slotsOf_find (cs : List Arr) (i j : Nat) : (slotsOf i cs).find? (·.idx == i + j) = cs[j]?.map (fun c => ⟨i + j, c.dtype, c.len⟩) := by
  induction cs generalizing i j with
  | nil => simp [slotsOf]
  | cons c cs ih =>
    cases j with
    | zero => simp [slotsOf]
    | succ j =>
      have := ih (i + 1) j
      simp only [slotsOf, List.find?_cons, List.getElem?_cons_succ]
      have h : (i == i + (j + 1)) = false := by simp
      simp only [h]
      rw [show i + (j + 1) = i + 1 + j by omega]
      exact this

theorem mem_slotsOf {cs : List Arr} {i : Nat} {s : Slot} (h : s ∈ slotsOf i cs) :
    ∃ j c, cs[j]? = some c ∧ s = ⟨i + j, c.dtype, c.len⟩ := by
  induction cs generalizing i with
  | nil => simp [slotsOf] at h
  | cons c cs ih =>
    simp only [slotsOf, List.mem_cons] at h
    rcases h with rfl | h
    · exact ⟨0, c, rfl, rfl⟩
    · obtain ⟨j, c', h1, h2⟩ := ih h
      exact ⟨j + 1, c', by simpa using h1, by rw [h2]; congr 1; omega⟩

/-- Requests that describe the children exactly succeed and give the children. -/
theorem mapM_child (pre cs : List Arr) (a : Arr) (h : a.children = pre ++ cs) :
    Res.mapM (fun s => expect (a.child s.idx s.dtype s.len)) (slotsOf pre.length cs) = .ok cs := by
  induction cs generalizing pre with
  | nil => rfl
  | cons c cs ih =>
    simp only [slotsOf, Res.mapM_cons]
    have hc : a.child pre.length c.dtype c.len = .ok c := by
      unfold Arr.child; rw [h]; simp [Res.assert]
    rw [hc]
    have := ih (pre ++ [c]) (by rw [h]; simp)
    rw [List.length_append, List.length_singleton] at this
    rw [this]; rfl

theorem toMetadata_ok {v : Valid} {n : Nat} {m : VMeta} (h : v.toMetadata n = .ok m) (i : Nat) (ho : VOwes v) :
    vslot m i n = slotsOf i v.intoArray := by
  cases v with
  | array a =>
    simp only [Valid.toMetadata] at h
    split at h
    · rename_i hl; cases h; simp only [VOwes] at ho; simp [vslot, Valid.intoArray, slotsOf, ho, hl]
    · cases h
  | _ => cases h; rfl

theorem fieldSlots_eq (len i : Nat) (fs : List Arr) (h : ∀ f ∈ fs, f.len = len) : fieldSlots len i (fs.map Arr.dtype) = slotsOf i fs := by
  induction fs generalizing i with
  | nil => rfl
  | cons f fs ih =>
    simp only [List.map_cons, fieldSlots, slotsOf]
    rw [ih _ (fun g hg => h g (List.mem_cons_of_mem _ hg)), h f (List.mem_cons_self ..)]

theorem bufferSlots_eq (i : Nat) (bs : List Arr) (h : ∀ b ∈ bs, b.dtype = bytesD) : bufferSlots i (bs.map Arr.len) = slotsOf i bs := by
  induction bs generalizing i with
  | nil => rfl
  | cons f fs ih =>
    simp only [List.map_cons, bufferSlots, slotsOf]
    rw [ih _ (fun g hg => h g (List.mem_cons_of_mem _ hg)), h f (List.mem_cons_self ..)]

theorem offsetsFrom_spec {ls : List Nat} {acc : Nat} {os : List Nat} (h : offsetsFrom acc ls = .ok os) :
    os.length = ls.length + 1 ∧ os[0]? = some acc ∧ os.getLast? = some (acc + ls.sum) ∧
    ∀ i l, ls[i]? = some l → ∃ s, os[i]? = some s ∧ os[i + 1]? = some (s + l) := by
  induction ls generalizing acc os with
  | nil => cases h; simp
  | cons l ls ih =>
    simp only [offsetsFrom, Res.bind_eq_ok] at h
    obtain ⟨_, _, rest, hr, h⟩ := h
    cases h
    obtain ⟨h1, h2, h3, h4⟩ := ih hr
    refine ⟨by simp [h1], rfl, ?_, ?_⟩
    · cases rest with
      | nil => simp at h1
      | cons r rs => rw [List.getLast?_cons_cons, h3, List.sum_cons, Nat.add_assoc]
    · intro i k hk
      cases i with
      | zero =>
        simp only [List.getElem?_cons_zero, Option.some.injEq] at hk
        subst hk
        exact ⟨acc, rfl, by simpa using h2⟩
      | succ i =>
        obtain ⟨s, e1, e2⟩ := h4 i k (by simpa using hk)
        exact ⟨s, by simpa using e1, by simpa using e2⟩

theorem range_map_slots (cs : List Arr) (d : DType) (h : ∀ c ∈ cs, c.dtype = d) (i : Nat) (g : Nat → Slot)
    (hg : ∀ j c, cs[j]? = some c → g j = ⟨i + j, d, c.len⟩) : (List.range cs.length).map g = slotsOf i cs := by
  induction cs generalizing i g with
  | nil => rfl
  | cons c cs ih =>
    rw [List.length_cons, List.range_succ_eq_map, List.map_cons, List.map_map]
    simp only [slotsOf]
    rw [hg 0 c rfl, h c (List.mem_cons_self ..)]
    congr 1
    refine ih (fun x hx => h x (List.mem_cons_of_mem _ hx)) (i + 1) _ (fun j x hj => ?_)
    rw [Function.comp, hg (j + 1) x (by simpa using hj)]
    congr 1; omega

theorem chunk_slots (chunks : List Arr) (d : DType) (hd : ∀ c ∈ chunks, c.dtype = d) {os : List Nat}
    (ho : offsetsFrom 0 (chunks.map Arr.len) = .ok os) (at_ : Nat → Res Nat) (hat : ∀ i (h : i < os.length), at_ i = .ok os[i]) :
    Res.mapM (chunkSlot d at_) (List.range chunks.length) = .ok (slotsOf 1 chunks) := by
  obtain ⟨h1, _, _, h4⟩ := offsetsFrom_spec ho
  rw [List.length_map] at h1
  have key : ∀ j c, chunks[j]? = some c → chunkSlot d at_ j = .ok ⟨1 + j, d, c.len⟩ := by
    intro j c hj
    obtain ⟨s, e1, e2⟩ := h4 j c.len (by simp [hj])
    obtain ⟨l1, e1⟩ := List.getElem?_eq_some_iff.mp e1
    obtain ⟨l2, e2⟩ := List.getElem?_eq_some_iff.mp e2
    unfold chunkSlot
    rw [hat _ l1, Res.ok_bind, hat _ l2, Res.ok_bind, e1, e2]
    simp [Res.sub, Nat.add_comm j 1]
  rw [Res.mapM_ok (g := fun j => match chunks[j]? with | some c => ⟨1 + j, d, c.len⟩ | none => ⟨0, d, 0⟩)]
  · rw [range_map_slots chunks d hd 1]
    intro j c hj; simp [hj]
  · intro j hj
    have hj : j < chunks.length := by simpa using hj
    rw [key j chunks[j] (by simp [hj])]
    simp [hj]

theorem eqIgnore_withNull {d e : DType} (h : d.eqIgnoreNullability e = true) (hn : d.isNullable = true) : d = e.withNullability true := by
  unfold DType.eqIgnoreNullability at h
  rw [DType.beq_eq] at h
  rw [← h]
  cases d <;> simp only [DType.isNullable] at hn <;> simp only [DType.withNullability, hn]


/-- `offs` reads the chunk offsets stored in child 0. -/
def OffsOk (a : Arr) (offs : Nat → Nat → Res Nat) : Prop :=
  ∀ xs rest, a.children = .mk (.prim .nonNullable) u64 xs.length xs [] :: rest → ∀ i (h : i < xs.length), offs xs.length i = .ok xs[i]

theorem guard_ok {b : Bool} {u : Unit} (h : Res.guard b = .ok u) : b = true := by cases b <;> simp_all [Res.guard]
theorem assert_ok {b : Bool} {u : Unit} (h : Res.assert b = .ok u) : b = true := by cases b <;> simp_all [Res.assert]

theorem run_slots (C : Compute) (c : Call) (a : Arr) (h : c.run C = .ok a) (ho : c.Owes) (offs : Nat → Nat → Res Nat) (hoffs : OffsOk a offs) :
    accessors offs a.children.length a.enc a.dtype a.len = .ok (slotsOf 0 a.children) := by
  cases c with
  | null | constant => cases h; rfl
  | bool bytes off len v =>
    simp only [Call.run, Res.bind_eq_ok] at h
    obtain ⟨m, hm, h⟩ := h; cases h
    exact congrArg Res.ok (toMetadata_ok hm 0 ho)
  | byteBool bytes v =>
    simp only [Call.run, Res.bind_eq_ok] at h
    obtain ⟨m, hm, h⟩ := h; cases h
    exact congrArg Res.ok (toMetadata_ok hm 0 ho)
  | prim p xs v =>
    simp only [Call.run, Res.bind_eq_ok] at h
    obtain ⟨m, hm, h⟩ := h; cases h
    have hm : v.toMetadata xs.length = .ok m := by
      revert hm; cases v.toMetadata xs.length <;> simp [expect]
    exact congrArg Res.ok (toMetadata_ok hm 0 ho)
  | struct names fields len v =>
    simp only [Call.run, Res.bind_eq_ok] at h
    obtain ⟨_, h1, _, h2, m, hm, h⟩ := h; cases h
    have h2 := guard_ok h2
    simp only [List.all_eq_true, beq_iff_eq] at h2
    simp only [accessors, enc_mk, dtype_mk, len_mk, children_mk]
    rw [fieldSlots_eq _ _ _ h2, List.length_map, toMetadata_ok hm _ ho, slotsOf_append, Nat.zero_add]
  | ext i md s => cases h; rfl
  | chunked chunks d =>
    simp only [Call.run, Res.bind_eq_ok] at h
    obtain ⟨_, h1, os, h2, n, hn, l, hl, h⟩ := h; cases h
    have h1 := guard_ok h1
    simp only [List.all_eq_true, decide_eq_true_eq] at h1
    have hs := offsetsFrom_spec h2
    rw [List.length_map] at hs
    have hn : n = chunks.length := by
      rw [hs.1] at hn; simp [Res.sub] at hn; exact hn.symm
    subst hn
    have hof := hoffs os chunks rfl
    simp only [accessors, enc_mk, dtype_mk, len_mk, children_mk]
    rw [chunk_slots chunks d h1 h2 (offs (chunks.length + 1)) (fun i hi => by rw [← hs.1]; exact hof i hi), Res.ok_bind]
    simp only [slotsOf, dtype_mk, len_mk, hs.1]
  | sparse ind val len off fill fillOk =>
    simp only [Call.run, Res.bind_eq_ok] at h
    obtain ⟨_, h1, _, h2, _, h3, h⟩ := h
    have h1 := guard_ok h1
    have h3 := guard_ok h3
    simp only [decide_eq_true_eq, beq_iff_eq] at h1 h3
    have : a = .mk (.sparse off ind.len fill) val.dtype len [] [ind, val] := by
      split at h
      · simp only [Res.bind_eq_ok] at h
        obtain ⟨_, _, _, _, _, _, h⟩ := h; cases h; rfl
      · cases h; rfl
    subst this
    simp only [accessors, enc_mk, dtype_mk, children_mk, slotsOf]
    rw [show ind.dtype = u64 from h1, ← h3]
  | varbin offs' bytes d v =>
    simp only [Call.run, Res.bind_eq_ok] at h
    obtain ⟨_, h1, op, hop, _, h2, _, h3, _, h4, l, hl, m, hm, h⟩ := h; cases h
    have h1 := guard_ok h1
    have h2 := guard_ok h2
    simp only [decide_eq_true_eq] at h2
    simp only [accessors, enc_mk, dtype_mk, len_mk, children_mk, slotsOf_append, slotsOf]
    rw [toMetadata_ok hm _ ho]
    have hl : offs'.len = l + 1 := by
      simp only [Res.sub] at hl; split at hl
      · cases hl; omega
      · cases hl
    have hd : offs'.dtype = .prim op false := by
      cases hd : offs'.dtype <;> simp_all [isIntD, ptypeOf, expect, DType.isNullable]
    rw [show Arr.dtype bytes = bytesD from h2, hd, hl]; rfl
  | varbinview views bufs d v =>
    simp only [Call.run, Res.bind_eq_ok] at h
    obtain ⟨_, h1, _, h2, _, h3, _, h4, _, h5, m, hm, h⟩ := h; cases h
    have h1 := guard_ok h1
    have h2 := guard_ok h2
    simp only [decide_eq_true_eq, List.all_eq_true] at h1 h2
    simp only [accessors, enc_mk, dtype_mk, len_mk, children_mk, slotsOf_append, slotsOf]
    rw [toMetadata_ok hm _ ho.2, bufferSlots_eq 1 bufs h2, List.length_map, show Arr.dtype views = bytesD from h1,
      show Arr.len views / 16 * 16 = Arr.len views by have := ho.1; omega, Nat.add_comm 1 bufs.length, Nat.zero_add]
  | dict codes values =>
    simp only [Call.run, Res.bind_eq_ok] at h
    obtain ⟨_, h1, cp, hcp, h⟩ := h; cases h
    have h1 := guard_ok h1
    have hd : codes.dtype = .prim cp false := by
      cases hd : codes.dtype <;> simp_all [isUnsignedD, ptypeOf, expect, DType.isNullable]
    simp only [accessors, enc_mk, dtype_mk, len_mk, children_mk, slotsOf]
    rw [hd]
  | runEnd ends values v off len =>
    simp only [Call.run, Res.bind_eq_ok] at h
    obtain ⟨_, h1, first, hf, _, h2, _, h3, _, h4, m, hm, ep, hep, h⟩ := h; cases h
    have h3 := guard_ok h3
    have hd : ends.dtype = .prim ep false := by
      cases hd : ends.dtype <;> simp_all [isUnsignedD, ptypeOf, DType.isNullable]
    simp only [accessors, enc_mk, dtype_mk, len_mk, children_mk, slotsOf_append, slotsOf]
    rw [toMetadata_ok hm _ ho.2, hd, ho.1]; rfl
  | runEndBool ends start v len off =>
    simp only [Call.run, Res.bind_eq_ok] at h
    obtain ⟨_, h1, _, h2, _, h3, ep, hep, m, hm, h⟩ := h; cases h
    have h3 := guard_ok h2
    have hd : ends.dtype = .prim ep false := by
      cases hd : ends.dtype <;> simp_all [isUnsignedD, ptypeOf, DType.isNullable]
    simp only [accessors, enc_mk, dtype_mk, len_mk, children_mk, slotsOf]
    rw [toMetadata_ok hm _ ho, hd]
  | alp enc ex patches =>
    simp only [Call.run, Res.bind_eq_ok] at h
    obtain ⟨d, hd, _, h1, _, h2, h⟩ := h; cases h
    have h1 := guard_ok h1
    have h2 := guard_ok h2
    have he : alpEncoded d = .ok enc.dtype := by
      revert hd; cases enc.dtype with
      | prim p n => cases p <;> simp [alpDType] <;> rintro rfl <;> rfl
      | _ => simp [alpDType]
    simp only [accessors, enc_mk, dtype_mk, len_mk]
    rw [he, Res.ok_bind]
    cases patches with
    | none => rfl
    | some p =>
      simp only [optList, List.all_cons, List.all_nil, Bool.and_true, beq_iff_eq, Bool.and_eq_true] at h1 h2
      rw [← eqIgnore_withNull h2.1 h2.2, ← h1]
      simp only [children_mk, optList, slotsOf, h1]; rfl
  | alprd d left dct right rw_ exc =>
    simp only [Call.run, Res.bind_eq_ok] at h
    obtain ⟨_, h1, _, h2, _, h3, _, h4, lp, hlp, _, h5, _, h6, _, h7, h⟩ := h; cases h
    have h1 := guard_ok h1
    have h2 := guard_ok h2
    have h3 := guard_ok h3
    have h4 := guard_ok h4
    obtain ⟨o1, o2⟩ := ho
    cases d with
    | prim p n =>
      have hd : left.dtype = .prim lp n := by
        cases hd : left.dtype <;> simp_all [isUnsignedD, ptypeOf, expect, DType.isNullable]
      simp only [accessors, enc_mk, dtype_mk, len_mk, children_mk, slotsOf_append, slotsOf]
      simp only [DType.withNullability, DType.prim.injEq, and_true] at o1
      rw [hd, o1, show right.len = left.len from by simpa using h2]
      cases exc with
      | none => rfl
      | some e =>
        obtain ⟨e1, e2⟩ := o2 e rfl
        rw [hd] at e1
        simp only [Option.isSome, if_true, optList, slotsOf, e1, e2, DType.withNullability]; rfl
    | _ => simp [isFloatD] at h1
  | bitPacked packed p v patches width len off =>
    simp only [Call.run, Res.bind_eq_ok] at h
    obtain ⟨_, h1, _, h2, _, h3, _, h4, _, h5, m, hm, h⟩ := h; cases h
    obtain ⟨o1, o2⟩ := ho
    simp only [accessors, enc_mk, dtype_mk, len_mk, children_mk, slotsOf_append, slotsOf]
    rw [toMetadata_ok hm _ o2]
    cases patches with
    | none => rfl
    | some q =>
      have hl : q.len = len := by
        simp only [optList, Res.mapM_cons, Res.bind_eq_ok] at h5
        obtain ⟨_, ⟨_, h6, _⟩, _⟩ := h5
        simpa using guard_ok h6
      simp only [Option.isSome, if_true, optList, slotsOf, o1 q rfl, hl, DType.withNullability, List.length_singleton]
  | delta bases deltas v off len =>
    simp only [Call.run, Res.bind_eq_ok] at h
    obtain ⟨_, h1, _, h2, _, h3, m, hm, l, hl, bl, hbl, _, h4, _, h5, h⟩ := h; cases h
    have h3 := guard_ok h3
    have h4 := assert_ok h4
    simp only [decide_eq_true_eq, beq_iff_eq] at h3 h4
    simp only [accessors, enc_mk, dtype_mk, len_mk, children_mk, slotsOf_append, slotsOf]
    have hbl' : basesLen bases.dtype deltas.len = .ok bl := hbl
    rw [show basesLen (Arr.dtype bases) (Arr.len deltas) = .ok bl from hbl', Res.ok_bind, toMetadata_ok hm _ ho, h4, h3]; rfl
  | «for» child rd rnull r shift =>
    simp only [Call.run, Res.bind_eq_ok] at h
    obtain ⟨_, h1, h⟩ := h; cases h
    obtain ⟨p, n, m, rfl, hc⟩ := ho
    simp only [accessors, enc_mk, dtype_mk, len_mk, children_mk, slotsOf]
    rw [hc]
    simp only [DType.isNullable, DType.withNullability]
    cases p <;> rfl
  | zigzag enc =>
    simp only [Call.run, Res.bind_eq_ok] at h
    obtain ⟨_, h1, p, hp, h⟩ := h; cases h
    have h1 := guard_ok h1
    simp only [accessors, enc_mk, dtype_mk, len_mk, children_mk, slotsOf]
    cases hd : enc.dtype with
    | prim q n =>
      rw [hd] at h1 hp; cases hp
      simp only [isUnsignedD] at h1
      cases p <;> simp [unsigned] at h1 <;> rfl
    | _ => rw [hd] at h1; simp [isUnsignedD] at h1
  | fsst d sym slen codes ulen =>
    simp only [Call.run, Res.bind_eq_ok] at h
    obtain ⟨_, h1, _, h2, _, h3, _, h4, _, h5, _, h6, _, h7, _, h8, up, hup, h⟩ := h; cases h
    have h1 := guard_ok h1
    have h2 := guard_ok h2
    have h4 := guard_ok h4
    have h5 := guard_ok h5
    have h6 := guard_ok h6
    have h8 := guard_ok h8
    simp only [decide_eq_true_eq, beq_iff_eq] at h1 h2 h4 h5
    simp only [accessors, enc_mk, dtype_mk, len_mk, children_mk, slotsOf]
    have hu : ulen.dtype = .prim up false := by
      cases hd : ulen.dtype <;> simp_all [isIntD, ptypeOf, DType.isNullable]
    have hc : codes.dtype = .binary codes.dtype.isNullable := by
      cases hd : codes.dtype <;> simp_all [DType.isNullable]
    rw [hu, h5, ← h4, show sym.dtype = u64 from h1, show slen.dtype = bytesD from h2, ← hc]
  | dateTimeParts d days secs sub =>
    simp only [Call.run, Res.bind_eq_ok] at h
    obtain ⟨_, h1, _, h2, _, h3, _, h4, p, hp, q, hq, r, hr, h⟩ := h; cases h
    have h1 := guard_ok h1
    have h2 := guard_ok h2
    have h3 := guard_ok h3
    have h4 := guard_ok h4
    simp only [Bool.and_eq_true, beq_iff_eq] at h4
    have e1 : days.dtype = .prim p d.isNullable := by
      cases hd : days.dtype <;> simp_all [isIntD, ptypeOf, DType.isNullable]
    have e2 : secs.dtype = .prim q false := by
      cases hd : secs.dtype <;> simp_all [isIntD, ptypeOf, DType.isNullable]
    have e3 : sub.dtype = .prim r false := by
      cases hd : sub.dtype <;> simp_all [isIntD, ptypeOf, DType.isNullable]
    simp only [accessors, enc_mk, dtype_mk, len_mk, children_mk, slotsOf]
    rw [e1, e2, e3, ← h4.1, ← h4.2]
  | roaringBool bitmap len =>
    simp only [Call.run, Res.bind_eq_ok] at h
    obtain ⟨_, h1, h⟩ := h; cases h; rfl
  | roaringInt bitmap p =>
    simp only [Call.run, Res.bind_eq_ok] at h
    obtain ⟨_, h1, _, h2, h⟩ := h; cases h; rfl

end Vx.Own
