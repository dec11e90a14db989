import Verif.Spec.StoredLeaves
import Verif.Lemmas.StoredTree
import Verif.Lemmas.StoredBytes
/-! # Storing and loading the leaf encodings -/
namespace Vx.Store
open Own
open Vx.Tree (Kind RLeaf leafSound leafDtype leafLen isUnsigned)

variable {C : Compute} {sc : Scalars}

/-! ## Children: built, read back, in bytes -/

theorem validOf_nullable (v : Validity) : (validOf v).nullable = v.nullable := by cases v <;> rfl

theorem validOf_meta {v : Validity} {n : Nat} (h : Spec.FitsLen v n) : (validOf v).toMetadata n = .ok (metaOf v) := by
  cases v with
  | array bits =>
    have : bits.length = n := by simpa [Spec.FitsLen, Spec.mask] using h
    simp only [validOf, Valid.toMetadata, boolBits, Arr.len, this, if_true, metaOf]
  | _ => rfl

theorem validOf_owes (v : Validity) : VOwes (validOf v) := by cases v <;> simp [validOf, VOwes, boolBits, Arr.dtype]

theorem boolBits_built (bits : List Bool) : Built C (boolBits bits) := by
  refine .mk (.bool (packBits (bits.map .bool)) 0 bits.length .nonNullable) _ (by simp [Call.args, Valid.intoArray]) trivial ?_
  have : decide (bits.length ≤ 8 * (packBits (bits.map SV.bool)).length) = true := by
    apply decide_eq_true; simp [packBits]; omega
  simp [Call.run, Valid.toMetadata, Valid.nullable, Valid.intoArray, boolBits]

theorem validOf_built (v : Validity) : ∀ x ∈ (validOf v).intoArray, Built C x := by
  cases v with
  | array bits =>
    intro x hx
    simp only [validOf, Valid.intoArray, List.mem_singleton] at hx
    subst hx; exact boolBits_built bits
  | _ => simp [validOf, Valid.intoArray]

theorem loadV_back (v : Validity) : loadV (metaOf v) ((validOf v).intoArray[0]?) = some v := by
  cases v with
  | array bits =>
    have h := unpack_pack (bits.map SV.bool) (by intro x hx; simp only [List.mem_map] at hx; obtain ⟨b, _, rfl⟩ := hx; rfl)
    rw [List.length_map] at h
    simp only [metaOf, validOf, Valid.intoArray, List.getElem?_cons_zero, loadV, boolBits, Arr.enc, Arr.data, Arr.len, h, List.map_map]
    congr 2
    exact (List.map_congr_left (g := id) (fun _ _ => rfl)).trans (List.map_id _)
  | _ => rfl

theorem validOf_buffers (v : Validity) : Everywheres BufferOk (validOf v).intoArray := by
  cases v with
  | array bits => exact ⟨⟨by simpa [BufferOk, boolBits, hasBuffer, elemWidth, Arr.enc, Arr.data, Arr.dtype] using packBits_lt _, trivial⟩, trivial⟩
  | _ => trivial

theorem primArr_built (p : PType) {w : Nat} (a : PArr (BitVec w)) (h : a.WF) : Built C (primArr p a) := by
  refine .mk (.prim p (a.vals.map BitVec.toNat) (validOf a.validity)) _ (by simpa [Call.args] using validOf_built a.validity) (validOf_owes _) ?_
  simp only [Call.run, List.length_map, validOf_meta (show Spec.FitsLen a.validity a.vals.length from h), expect, Res.ok_bind, validOf_nullable, primArr]

theorem ofNat_toNat_map {w : Nat} (xs : List (BitVec w)) : (xs.map BitVec.toNat).map (BitVec.ofNat w) = xs := by
  rw [List.map_map]
  exact (List.map_congr_left (g := id) (fun x _ => by simp)).trans (List.map_id _)

theorem loadPrim_back (p : PType) {w : Nat} (a : PArr (BitVec w)) : loadPrim w (primArr p a) = some a := by
  simp only [loadPrim, primArr, Arr.enc, Arr.children, Arr.data, loadV_back, Option.map_some, ofNat_toNat_map]

theorem words_lt {w k : Nat} (h : w ≤ 8 * k) (xs : List (BitVec w)) : ∀ x ∈ xs.map BitVec.toNat, x < 256 ^ k := by
  intro x hx
  simp only [List.mem_map] at hx
  obtain ⟨b, _, rfl⟩ := hx
  calc b.toNat < 2 ^ w := b.isLt
    _ ≤ 2 ^ (8 * k) := Nat.pow_le_pow_right (by decide) h
    _ = 256 ^ k := by rw [Nat.pow_mul]

theorem bits_bytes (p : PType) : p.bits = 8 * (p.bits / 8) := by cases p <;> rfl

theorem primArr_buffers (p : PType) {w : Nat} (hw : w = p.bits) (a : PArr (BitVec w)) : Everywhere BufferOk (primArr p a) := by
  refine ⟨?_, validOf_buffers _⟩
  simp only [BufferOk, hasBuffer, Arr.enc, if_true, Arr.data, elemWidth, Arr.dtype]
  exact words_lt (by rw [hw]; exact Nat.le_of_eq (bits_bytes p)) _

theorem sparseArr_built (hC : C.Lawful) (p : PType) (s : Sparse (BitVec p.bits)) (h : s.WF) : Built C (sparseArr sc p s) := by
  refine .mk (.sparse (numbers .u64 s.indices) (primArr p s.values) s.len s.offset (sc.num (fillSV p s.fill)) true) _ ?_ trivial ?_
  · simp only [Call.args, List.mem_cons, List.not_mem_nil, or_false]
    rintro x (rfl | rfl)
    · exact numbers_built C _ _
    · exact primArr_built p _ h.values
  · have h1 : ((numbers .u64 s.indices).len == (primArr p s.values).len) = true := by
      have := h.lens
      simp only [PArr.len] at this
      simp [numbers, Arr.len, primArr, this]
    have h0 : decide ((numbers .u64 s.indices).dtype = u64) = true := decide_eq_true rfl
    simp only [Call.run, guard_true h1, guard_true h0, Res.ok_bind, guard_true (rfl : true = true)]
    have hlen : (numbers .u64 s.indices).len = s.indices.length := rfl
    rw [hlen]
    by_cases hne : s.indices.length > 0
    · rw [if_pos hne]
      have hm := hC.mem s.indices (s.indices.length - 1) (by omega)
      rw [show C.memAt (numbers .u64 s.indices) (s.indices.length - 1) = _ from hm]
      have hmem := List.getElem_mem (by omega : s.indices.length - 1 < s.indices.length)
      have hb := h.lower _ hmem
      have hu := h.upper _ hmem
      simp only [Res.ok_bind, Res.sub, if_pos hb]
      rw [guard_true (decide_eq_true (by omega))]
      rfl
    · rw [if_neg hne]
      rfl

theorem content_numbers (p : PType) (xs : List Nat) : content (numbers p xs) = some xs := rfl

theorem loadSparse_back (hN : NullsKept sc) (p : PType) (s : Sparse (BitVec p.bits)) (hn : s.fill = none) (hv : s.values.validity.nullable = true) :
    loadSparse sc p.bits (sparseArr sc p s) = some s := by
  have h := hN p
  simp only [Kept] at h
  simp only [loadSparse, sparseArr, Arr.enc, Arr.children, Arr.dtype, Arr.len, content_numbers, loadPrim_back, hn, fillSV, hv, h, Option.bind_eq_bind,
    Option.bind_some, fillOf]
  rw [← hn]

theorem sparseArr_buffers (p : PType) (s : Sparse (BitVec p.bits)) (h : ∀ i ∈ s.indices, i < 2 ^ 64) : Everywhere BufferOk (sparseArr sc p s) := by
  refine ⟨by simp [BufferOk, sparseArr, hasBuffer, Arr.enc, Arr.data], numbers_ok .u64 _ (fun x hx => ?_), primArr_buffers p rfl _, trivial⟩
  exact Nat.lt_of_lt_of_eq (h x hx) (by decide)

theorem varbinArr_built (v : VarBin.Arr) (h : VarBin.WF v) : Built C (varbinArr v) := by
  refine .mk (.varbin (numbers .i32 v.offsets) (numbers .u8 (v.bytes.map BitVec.toNat)) (.binary v.nullable) (validOf v.validity)) _ ?_ (validOf_owes _) ?_
  · simp only [Call.args, List.mem_append, List.mem_cons, List.not_mem_nil, or_false]
    rintro x ((rfl | rfl) | hx)
    · exact numbers_built C _ _
    · exact numbers_built C _ _
    · exact validOf_built _ x hx
  · have hne : 1 ≤ v.offsets.length := by have := List.length_pos_iff.2 h.ne; omega
    have h0 : decide ((numbers .u8 (v.bytes.map BitVec.toNat)).dtype = bytesD) = true := decide_eq_true rfl
    have h1 : ((DType.binary v.nullable).isNullable != !(validOf v.validity).nullable) = true := by
      rw [validOf_nullable, ← h.null]; simp [DType.isNullable]
    have h2 := validOf_meta h.fits
    simp only [VarBin.Arr.len] at h2
    simp only [Call.run, guard_true h0, guard_true h1, guard_true (rfl : true = true), Res.ok_bind]
    rw [guard_true (show (isIntD (numbers .i32 v.offsets).dtype && !(numbers .i32 v.offsets).dtype.isNullable) = true from rfl)]
    simp only [show ptypeOf (numbers .i32 v.offsets).dtype = .ok .i32 from rfl, expect, Res.ok_bind, show (numbers .i32 v.offsets).len = v.offsets.length from rfl,
      Res.sub, if_pos hne, h2, varbinArr, VarBin.Arr.len]
    simp only [numbers, Arr.len, List.length_map]

theorem loadVarbin_back (v : VarBin.Arr) : loadVarbin (varbinArr v) = some v := by
  simp only [loadVarbin, varbinArr, Arr.enc, Arr.children, Arr.dtype, List.cons_append, List.nil_append, content_numbers, loadV_back, Option.bind_eq_bind,
    Option.bind_some, ofNat_toNat_map, DType.isNullable]

theorem varbinArr_buffers (v : VarBin.Arr) (h : ∀ o ∈ v.offsets, o ≤ FSST.maxI32) : Everywhere BufferOk (varbinArr v) := by
  refine ⟨by simp [BufferOk, varbinArr, hasBuffer, Arr.enc, Arr.data], numbers_ok .i32 _ (fun x hx => ?_), numbers_ok .u8 _ (words_lt (by decide) _), validOf_buffers _⟩
  exact Nat.lt_of_le_of_lt (h x hx) (by decide)

/-! ## Symbols -/

theorem fromLe_lt : ∀ (bs : List UInt8), fromLe bs < 256 ^ bs.length
  | [] => by decide
  | b :: bs => by
    have := fromLe_lt bs
    have h2 : b.toNat < 256 := b.toNat_lt
    simp only [fromLe, List.length_cons, Nat.pow_succ]
    omega

theorem leBytes_fromLe : ∀ (bs : List UInt8), leBytes bs.length (fromLe bs) = bs
  | [] => rfl
  | b :: bs => by
    have h2 : b.toNat < 256 := b.toNat_lt
    simp only [fromLe, List.length_cons, leBytes]
    rw [show (b.toNat + 256 * fromLe bs) / 256 = fromLe bs by omega, leBytes_fromLe bs, show (b.toNat + 256 * fromLe bs) % 256 = b.toNat by omega]
    simp

theorem sym_back (s : List (BitVec 8)) : symBytes s.length (symNum s) = s := by
  have := leBytes_fromLe (s.map fun b => ⟨b⟩)
  rw [List.length_map] at this
  simp only [symBytes, symNum, this, List.map_map]
  exact (List.map_congr_left (g := id) (fun _ _ => rfl)).trans (List.map_id _)

theorem sym_lt {s : List (BitVec 8)} (h : s.length ≤ 8) : symNum s < 256 ^ 8 := by
  have := fromLe_lt (s.map fun b => ⟨b⟩)
  rw [List.length_map] at this
  exact Nat.lt_of_lt_of_le this (Nat.pow_le_pow_right (by decide) h)

theorem syms_back (ss : List (List (BitVec 8))) : List.zipWith symBytes (ss.map List.length) (ss.map symNum) = ss := by
  induction ss with
  | nil => rfl
  | cons s ss ih => simp only [List.map_cons, List.zipWith_cons_cons, sym_back, ih]

/-! ## Date-time parts -/

theorem ints_back (xs : List Int) (h : ∀ x ∈ xs, DateTimeParts.IsI64 x) : (xs.map (BitVec.ofInt 64)).map BitVec.toInt = xs := by
  rw [List.map_map]
  refine (List.map_congr_left (g := id) (fun x hx => ?_)).trans (List.map_id _)
  obtain ⟨h1, h2⟩ := h x hx
  simp only [Function.comp, id]
  rw [BitVec.toInt_ofInt]
  exact Int.bmod_eq_of_le (by omega) (by omega)

end Vx.Store
