import Verif.Lemmas.StoredLeaves
/-! # The storage of the leaf encodings meets the contract of `Store.StoreLaws` -/
namespace Vx.Store
open Own
open Vx.Tree (Kind RLeaf leafSound leafDtype leafLen isUnsigned leafEnv)

variable {C : Compute} {sc : Scalars} {unitOf : Str → Option (List UInt8) → Option DateTimeParts.TimeUnit}

theorem mem_optList {o : Option α} {f : α → Own.Arr} {x : Own.Arr} (h : x ∈ optList (o.map f)) : ∃ y, o = some y ∧ x = f y := by
  cases o with
  | none => simp [optList] at h
  | some y => simp only [optList, Option.map_some, List.mem_singleton] at h; exact ⟨y, rfl, h⟩

theorem width_le (p : PType) : p.bits ≤ 64 := by cases p <;> decide

theorem packed_built (hC : C.Lawful) (p : PType) (a : BitPack.Arr p.bits) (hp : isUnsigned p = true) (h : BitPack.WF a) :
    Built C (storeLeaf sc (.bitPacked p a)) := by
  refine .mk (.bitPacked (a.packed.map BitVec.toNat) p (validOf a.validity) (a.patches.map (sparseArr sc p)) a.w a.len a.offset) _ ?_ ⟨?_, validOf_owes _⟩ ?_
  · simp only [Call.args, List.mem_append]
    rintro x (hx | hx)
    · obtain ⟨q, hq, rfl⟩ := mem_optList hx
      exact sparseArr_built hC p q (h.patches q hq).1
    · exact validOf_built _ x hx
  · intro q hq
    simp only [Option.map_eq_some_iff] at hq
    obtain ⟨s, hs, rfl⟩ := hq
    obtain ⟨h1, h2, h3, h4, h5⟩ := h.patches s hs
    simp only [sparseArr, Arr.dtype, h3, Validity.nullable]
  · have h1 : decide (a.w ≤ 64) = true := decide_eq_true (Nat.le_trans h.width (width_le p))
    have h2 : decide (a.offset ≤ 1023) = true := decide_eq_true h.offset
    have h3 : ((a.packed.map BitVec.toNat).length == (a.len + a.offset + 1023) / 1024 * (128 * a.w)) = true := by
      rw [List.length_map, h.packed]; exact beq_self_eq_true _
    have h4 : unsigned p = true := by rw [← unsigned_eq]; exact hp
    have h5 : Res.mapM (fun (q : Own.Arr) => do
        Res.guard (q.len == a.len)
        let n ← sparseIndices q
        Res.guard (n != 0)) (optList (a.patches.map (sparseArr sc p))) = .ok ((optList (a.patches.map (sparseArr sc p))).map fun _ => ()) := by
      cases ha : a.patches with
      | none => rfl
      | some q =>
        obtain ⟨w1, w2, w3, w4, w5⟩ := h.patches q ha
        have hne : (q.indices.length != 0) = true := by
          simp only [bne_iff_ne, ne_eq]; intro hc; exact w5 (List.length_eq_zero_iff.1 hc)
        have hl : ((sparseArr sc p q).len == a.len) = true := by simp [sparseArr, Arr.len, w4]
        simp only [Option.map_some, optList, Res.mapM, guard_true hl, Res.ok_bind]
        rw [show sparseIndices (sparseArr sc p q) = .ok q.indices.length from rfl]
        simp only [Res.ok_bind, guard_true hne, List.map_cons, List.map_nil]
    simp only [Call.run, guard_true h1, guard_true h2, guard_true h3, guard_true h4, Res.ok_bind, h5, validOf_meta h.validity, validOf_nullable, storeLeaf,
      Option.isSome_map]

theorem delta_lanes (p : PType) (hp : isUnsigned p = true) (n : Bool) : Own.lanes (.prim p n) = .ok (Delta.lanes p.bits) := by
  have h4 : unsigned p = true := by rw [← unsigned_eq]; exact hp
  simp only [Own.lanes, h4, if_true, Delta.lanes]

theorem lanes_gt (p : PType) (hp : isUnsigned p = true) : 1 < Delta.lanes p.bits := by
  unfold Delta.lanes
  cases p <;> simp [isUnsigned] at hp <;> decide

theorem delta_built (p : PType) (a : Delta.Arr p.bits) (hp : isUnsigned p = true) (h : Delta.WF a) : Built C (storeLeaf sc (.delta p a)) := by
  refine .mk (.delta (primArr p a.bases) (primArr p a.deltas) (validOf a.validity) a.offset a.len) _ ?_ (validOf_owes _) ?_
  · simp only [Call.args, List.mem_append, List.mem_cons, List.not_mem_nil, or_false]
    rintro x ((rfl | rfl) | hx)
    · exact primArr_built p _ h.basesWF
    · exact primArr_built p _ h.deltasWF
    · exact validOf_built _ x hx
  · have h1 : decide (a.offset < 1024) = true := decide_eq_true h.offset
    have h2 : decide (a.offset + a.len ≤ (primArr p a.deltas).len) = true := decide_eq_true h.inside
    have h3 : decide ((primArr p a.bases).dtype = (primArr p a.deltas).dtype) = true := decide_eq_true (by simp only [primArr, Arr.dtype, h.nullable])
    have hb : Own.basesLen (.prim p a.bases.validity.nullable) a.deltas.vals.length = .ok a.bases.vals.length := by
      simp only [Own.basesLen, delta_lanes p hp, Res.ok_bind, h.bases, Delta.basesLen]
    have hg := lanes_gt p hp
    have h4 : ((a.deltas.vals.length % 1024 == 0) == (a.bases.vals.length % Delta.lanes p.bits == 0)) = true := by
      rw [h.bases, Delta.basesLen, Nat.mul_comm, Nat.mul_add_mod]
      by_cases hz : a.deltas.vals.length % 1024 = 0
      · simp [hz]
      · rw [if_pos (by omega), Nat.mod_eq_of_lt hg]
        simp [hz]
    simp only [Call.run, guard_true h1, guard_true h2, guard_true h3, Res.ok_bind, validOf_meta h.validity]
    simp only [show (primArr p a.bases).dtype = .prim p a.bases.validity.nullable from rfl, show (primArr p a.deltas).len = a.deltas.vals.length from rfl,
      show (primArr p a.bases).len = a.bases.vals.length from rfl, delta_lanes p hp, hb, Res.ok_bind, guard_true h4]
    simp only [beq_self_eq_true, Res.assert, if_true, Res.ok_bind, storeLeaf]

theorem alprd_built (hC : C.Lawful) (p : PType) (a : ALPRD.Arr p.bits) (hp : p = .f32 ∨ p = .f64) (h : ALPRD.WF a) : Built C (storeLeaf sc (.alpRd p a)) := by
  refine .mk (.alprd (.prim p a.left.validity.nullable) (primArr .u16 a.left) (a.dict.map BitVec.toNat) (primArr (rightType p) a.right) a.rbw
    (a.exc.map (sparseArr sc .u16))) _ ?_ ⟨?_, ?_⟩ ?_
  · simp only [Call.args, List.mem_append, List.mem_cons, List.not_mem_nil, or_false]
    rintro x ((rfl | rfl) | hx)
    · exact primArr_built _ _ h.left
    · exact primArr_built _ _ h.right
    · obtain ⟨q, hq, rfl⟩ := mem_optList hx
      exact sparseArr_built hC _ q (h.exc q hq).1
  · rcases hp with rfl | rfl <;> simp [primArr, Arr.dtype, rightType, DType.withNullability, h.rnn, Validity.nullable]
  · intro e he
    obtain ⟨s, hs, rfl⟩ : ∃ s, a.exc = some s ∧ sparseArr sc .u16 s = e := by
      cases hx : a.exc with
      | none => rw [hx] at he; cases he
      | some s => rw [hx] at he; exact ⟨s, rfl, Option.some.inj he⟩
    obtain ⟨h1, h2, h3, h4⟩ := h.exc s hs
    exact ⟨by simp only [sparseArr, primArr, Arr.dtype, h3, Validity.nullable, DType.withNullability], h4⟩
  · have h1 : isFloatD (.prim p a.left.validity.nullable) = true := by rcases hp with rfl | rfl <;> rfl
    have h2 : ((primArr (rightType p) a.right).len == (primArr .u16 a.left).len) = true := by
      have := h.lens
      simp only [PArr.len] at this
      simp [primArr, Arr.len, this]
    have h3 : ((DType.prim p a.left.validity.nullable).isNullable == (primArr .u16 a.left).dtype.isNullable) = true := by
      simp [primArr, Arr.dtype, DType.isNullable]
    have h4 : (isUnsignedD (primArr (rightType p) a.right).dtype && !(primArr (rightType p) a.right).dtype.isNullable) = true := by
      rcases hp with rfl | rfl <;> simp [primArr, Arr.dtype, rightType, DType.isNullable, h.rnn, Validity.nullable, isUnsignedD, unsigned]
    have h5 : (optList (a.exc.map (sparseArr sc .u16))).all isSparse = true := by cases a.exc <;> rfl
    have h6 : decide ((a.dict.map BitVec.toNat).length ≤ 8) = true := decide_eq_true (by rw [List.length_map]; exact h.dict)
    simp only [Call.run, guard_true h1, guard_true h2, guard_true h3, guard_true h4, guard_true h5, Res.ok_bind]
    rw [guard_true (show isUnsignedD (primArr .u16 a.left).dtype = true from rfl)]
    simp only [show ptypeOf (primArr .u16 a.left).dtype = .ok .u16 from rfl, expect, Res.ok_bind, Res.assert, h6, if_true, storeLeaf]
    cases a.exc <;> rfl

theorem fsst_built (k : Kind) (a : FSST.Arr) (rs : List (Option (List (BitVec 8)))) (h : FSST.Denotes a rs) : Built C (storeLeaf sc (.fsst k a)) := by
  refine .mk (.fsst (k.dtype a.nullable) (numbers .u64 (a.syms.map symNum)) (numbers .u8 (a.syms.map List.length)) (varbinArr a.codes)
    (numbers .i32 (a.lens.map BitVec.toNat))) _ ?_ trivial ?_
  · simp only [Call.args, List.mem_cons, List.not_mem_nil, or_false]
    rintro x (rfl | rfl | rfl | rfl)
    · exact numbers_built C _ _
    · exact numbers_built C _ _
    · exact varbinArr_built _ h.wf
    · exact numbers_built C _ _
  · have hs : decide ((numbers .u64 (a.syms.map symNum)).len ≤ 255) = true := decide_eq_true (by simpa [numbers, Arr.len] using h.syms)
    have hl : ((numbers .u64 (a.syms.map symNum)).len == (numbers .u8 (a.syms.map List.length)).len) = true := by simp [numbers, Arr.len]
    have hu : ((numbers .i32 (a.lens.map BitVec.toNat)).len == (varbinArr a.codes).len) = true := by
      simp [numbers, Arr.len, varbinArr, h.lens, h.len]
    have h0 : decide ((numbers .u64 (a.syms.map symNum)).dtype = u64) = true := decide_eq_true rfl
    have h1 : decide ((numbers .u8 (a.syms.map List.length)).dtype = bytesD) = true := decide_eq_true rfl
    have h2 : (isIntD (numbers .i32 (a.lens.map BitVec.toNat)).dtype && !(numbers .i32 (a.lens.map BitVec.toNat)).dtype.isNullable) = true := rfl
    have h3 : isVarBin (varbinArr a.codes) = true := rfl
    simp only [Call.run, guard_true hs, guard_true hl, guard_true hu, guard_true h0, guard_true h1, guard_true h2, guard_true h3, Res.ok_bind]
    have hlen : (numbers .u64 (a.syms.map symNum)).len = a.syms.length := by simp [numbers, Arr.len]
    rw [hlen]
    rfl

theorem dateTime_built (id : Str) (m : Option (List UInt8)) (a : DateTimeParts.Arr) (h : DateTimeParts.WF a) : Built C (storeLeaf sc (.dateTime id m a)) := by
  have hnn : ∀ v : List Int, PArr.WF (⟨v.map (BitVec.ofInt 64), .nonNullable⟩ : PArr (BitVec 64)) := by
    intro v; simp [PArr.WF, Spec.FitsLen, Spec.mask]
  refine .mk (.dateTimeParts (.ext id m a.nullable) (primArr .i64 ⟨a.days.vals.map (BitVec.ofInt 64), a.days.validity⟩)
    (primArr .i64 ⟨a.seconds.vals.map (BitVec.ofInt 64), a.seconds.validity⟩) (primArr .i64 ⟨a.subsecond.vals.map (BitVec.ofInt 64), a.subsecond.validity⟩))
    _ ?_ trivial ?_
  · simp only [Call.args, List.mem_cons, List.not_mem_nil, or_false]
    rintro x (rfl | rfl | rfl)
    · refine primArr_built .i64 _ ?_
      have := h.days
      simpa [PArr.WF] using this
    · exact primArr_built .i64 _ (by rw [h.sec]; exact hnn _)
    · exact primArr_built .i64 _ (by rw [h.sub]; exact hnn _)
  · have l1 : a.seconds.vals.length = a.days.vals.length := h.len1
    have l2 : a.subsecond.vals.length = a.days.vals.length := h.len2
    have hn := h.nullable
    simp only [Call.run, primArr, Arr.dtype, Arr.len, isIntD, PType.isInt, PType.isFloat, DType.isNullable, h.sec, h.sub, Validity.nullable, hn, List.length_map, l1, l2,
      ptypeOf, storeLeaf, Res.guard, beq_self_eq_true, Bool.not_false, Bool.and_self, if_true, Res.ok_bind, PArr.len]

theorem leaf_built (hC : C.Lawful) (l : RLeaf) (h : leafSound l) : Built C (storeLeaf sc l) := by
  cases l with
  | bitPacked p a => exact packed_built hC p a h.1 h.2
  | roaringBool a =>
    refine .mk (.roaringBool a.bitmap a.len) _ (by simp [Call.args]) trivial ?_
    have : decide (a.bitmap.length ≤ a.len) = true := by
      apply decide_eq_true
      rcases Roaring.sorted_length_aux (b := 0) h.sorted (by simp) h.lt with h0 | h0
      · rw [h0]; exact Nat.zero_le _
      · omega
    simp only [Call.run, guard_true this, Res.ok_bind, storeLeaf]
  | delta p a => exact delta_built p a h.1 h.2.1
  | alpRd p a => exact alprd_built hC p a h.1 h.2
  | fsst k a => exact fsst_built k a _ h.2
  | roaringInt p a =>
    obtain ⟨h1, h2, h3⟩ := h
    refine .mk (.roaringInt a.bitmap p) _ (by simp [Call.args]) trivial ?_
    have h4 : unsigned p = true := by rw [← unsigned_eq]; exact h1
    have : a.bitmap.all (fun x => decide (x < 2 ^ p.bits)) = true := by
      rw [List.all_eq_true]
      intro x hx
      exact decide_eq_true (h3 ▸ h2.fits x hx)
    simp only [Call.run, guard_true h4, guard_true this, Res.ok_bind, storeLeaf]
  | dateTime id m a => exact dateTime_built id m a h.1

theorem patches_back (hN : NullsKept sc) (p : PType) (o : Option (Sparse (BitVec p.bits)))
    (h : ∀ q, o = some q → q.fill = none ∧ q.values.validity.nullable = true) (rest : List Own.Arr) :
    loadPatches sc p.bits o.isSome (optList (o.map (sparseArr sc p)) ++ rest)[0]? = some o := by
  cases o with
  | none => rfl
  | some q =>
    obtain ⟨h1, h2⟩ := h q rfl
    simp only [loadPatches, Option.isSome_some, if_true, Option.map_some, optList, List.cons_append, List.getElem?_cons_zero, Option.bind_some,
      loadSparse_back hN p q h1 h2]

theorem leaf_load (hN : NullsKept sc) (l : RLeaf) (h : leafSound l) (hf : LeafFits unitOf l) : loadLeaf sc unitOf (storeLeaf sc l) = some l := by
  cases l with
  | bitPacked p a =>
    have h1 := patches_back hN p a.patches (fun q hq => by
      obtain ⟨_, w2, w3, _⟩ := h.2.patches q hq
      exact ⟨w2, by rw [w3]; rfl⟩) (validOf a.validity).intoArray
    have h2 : (optList (a.patches.map (sparseArr sc p)) ++ (validOf a.validity).intoArray)[a.patches.isSome.toNat]? = (validOf a.validity).intoArray[0]? := by
      cases a.patches <;> simp [optList]
    simp only [loadLeaf, storeLeaf, Arr.enc, Arr.dtype, Arr.children, Arr.data, Arr.len, h1, h2, loadV_back, Option.bind_eq_bind, Option.bind_some, ofNat_toNat_map]
  | roaringBool a => rfl
  | delta p a =>
    simp only [loadLeaf, storeLeaf, Arr.enc, Arr.dtype, Arr.children, Arr.len, List.cons_append, List.nil_append, List.getElem?_cons_zero,
      List.getElem?_cons_succ, loadPrim_back, loadV_back, Option.bind_eq_bind, Option.bind_some]
  | alpRd p a =>
    have h1 := patches_back hN .u16 a.exc (fun q hq => by
      obtain ⟨_, w2, w3, _⟩ := h.2.exc q hq
      exact ⟨w2, by rw [w3]; rfl⟩) []
    rw [List.append_nil] at h1
    simp only [loadLeaf, storeLeaf, Arr.enc, Arr.dtype, Arr.children, List.cons_append, List.nil_append, List.getElem?_cons_zero,
      List.getElem?_cons_succ, loadPrim_back, Option.bind_eq_bind, Option.bind_some, ofNat_toNat_map]
    rw [show loadPatches sc 16 a.exc.isSome _ = _ from h1]
    rfl
  | fsst k a =>
    have hk : (match k.dtype a.nullable with | .utf8 _ => some Kind.utf8 | .binary _ => some Kind.binary | _ => none) = some k := by
      rcases h.1 with rfl | rfl <;> rfl
    have hn : (k.dtype a.nullable).isNullable = a.nullable := by rcases h.1 with rfl | rfl <;> rfl
    simp only [loadLeaf, storeLeaf, Arr.enc, Arr.dtype, Arr.children, List.getElem?_cons_zero, List.getElem?_cons_succ, Option.bind_some, Option.bind_eq_bind,
      content_numbers, loadVarbin_back, syms_back, ofNat_toNat_map, hn]
    rcases h.1 with rfl | rfl <;> rfl
  | roaringInt p a =>
    simp only [loadLeaf, storeLeaf, Arr.enc, Arr.data, ← h.2.2]
  | dateTime id m a =>
    obtain ⟨f1, f2, f3, f4⟩ := hf
    simp only [loadLeaf, storeLeaf, Arr.enc, Arr.dtype, Arr.children, List.getElem?_cons_zero, List.getElem?_cons_succ, Option.bind_some, Option.bind_eq_bind,
      f1, loadPrim_back, ints_back _ f2, ints_back _ f3, ints_back _ f4]

/-- The storage of the leaf encodings meets the contract. -/
theorem leaf_store (hC : C.Lawful) (hN : NullsKept sc) (x : Tree.Outside) : StoreLaws C (realLeaves sc unitOf) (leafEnv x).toEnv (StoredOk unitOf) where
  built l h := leaf_built hC l h.1
  dtype l h := by cases l <;> rfl
  len l h := by cases l <;> rfl
  load l h := leaf_load hN l h.1 h.2
  enc l h := by cases l <;> rfl

theorem leaf_buffers (l : RLeaf) (h : StoredOk unitOf l) : Everywhere BufferOk (storeLeaf sc l) := by
  obtain ⟨h, hf⟩ := h
  cases l with
  | bitPacked p a =>
    refine ⟨?_, everywheres_append _ _ ?_ (validOf_buffers _)⟩
    · simp only [BufferOk, hasBuffer, Arr.enc, if_true, Arr.data, elemWidth, Arr.dtype]
      exact words_lt (by decide) _
    · cases ha : a.patches with
      | none => trivial
      | some q => exact ⟨sparseArr_buffers p q (hf q ha), trivial⟩
  | roaringBool a =>
    refine ⟨?_, trivial⟩
    simp only [BufferOk, hasBuffer, Arr.enc, if_true, Arr.data, elemWidth, Arr.dtype]
    intro x hx
    exact Nat.lt_of_lt_of_eq (Nat.lt_trans (h.lt x hx) h.small) (by decide)
  | delta p a => exact ⟨by simp [BufferOk, hasBuffer, Arr.enc, Arr.data], primArr_buffers p rfl _, primArr_buffers p rfl _, validOf_buffers _⟩
  | alpRd p a =>
    refine ⟨by simp [BufferOk, hasBuffer, Arr.enc, Arr.data], primArr_buffers .u16 rfl _, primArr_buffers _ ?_ _, ?_⟩
    · rcases h.1 with rfl | rfl <;> rfl
    · cases ha : a.exc with
      | none => trivial
      | some q => exact ⟨sparseArr_buffers .u16 q (hf q ha), trivial⟩
  | fsst k a =>
    refine ⟨by simp [BufferOk, hasBuffer, Arr.enc, Arr.data], numbers_ok .u64 _ ?_, numbers_ok .u8 _ ?_, varbinArr_buffers _ h.2.offs,
      numbers_ok .i32 _ (words_lt (by decide) _), trivial⟩
    · intro x hx
      simp only [List.mem_map] at hx
      obtain ⟨s, hs, rfl⟩ := hx
      exact sym_lt (hf s hs)
    · intro x hx
      simp only [List.mem_map] at hx
      obtain ⟨s, hs, rfl⟩ := hx
      exact Nat.lt_of_le_of_lt (hf s hs) (by decide)
  | roaringInt p a =>
    refine ⟨?_, trivial⟩
    simp only [BufferOk, hasBuffer, Arr.enc, if_true, Arr.data, elemWidth, Arr.dtype]
    intro x hx
    exact Nat.lt_of_lt_of_eq (h.2.1.u32 x hx) (by decide)
  | dateTime id m a =>
    exact ⟨by simp [BufferOk, hasBuffer, Arr.enc, Arr.data], primArr_buffers .i64 rfl _, primArr_buffers .i64 rfl _, primArr_buffers .i64 rfl _, trivial⟩

end Vx.Store
