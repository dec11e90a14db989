import Verif.Lemmas.Scalar
import Verif.Lemmas.Primitive
/-!
# C30: types and scalars survive serialisation

Dtypes: both wire formats, any nesting (`C30_dtype_proto_round_trip`, `C30_dtype_flatbuffer_round_trip`), and projection of a serialised
schema (`C30_project_serialised`). Scalars through protobuf: exact for every well-typed value whose type contains no 8/16-bit integer and
no extension type (`C30_scalar_proto_round_trip_partial`); for those the code fails or changes the stored width (witnesses below).
-/
namespace Vx
open Vx.Spec

/-! ## Types -/

theorem ofNum_toNum (p : PType) : PType.ofNum? p.toNum = some p := by cases p <;> rfl

mutual
/-- Protobuf: reading what was written gives the same type, at any depth. -/
theorem C30_dtype_proto_round_trip : ∀ d : DType, d.toPb.read = .ok d
  | .null => rfl
  | .bool _ => rfl
  | .prim p n => by simp [DType.toPb, PbDType.read, PType.ofNum, ofNum_toNum]
  | .utf8 _ => rfl
  | .binary _ => rfl
  | .struct ns ds n => by simp [DType.toPb, PbDType.read, proto_list ds]
  | .list e n => by simp [DType.toPb, PbDType.read, C30_dtype_proto_round_trip e]
  | .ext _ _ _ => rfl
theorem proto_list : ∀ ds : List DType, PbDType.reads (DType.toPbs ds) = .ok ds
  | [] => rfl
  | d :: ds => by simp [DType.toPbs, PbDType.reads, C30_dtype_proto_round_trip d, proto_list ds]
end

mutual
/-- Flatbuffers likewise. -/
theorem C30_dtype_flatbuffer_round_trip : ∀ d : DType, d.toFb.read = .ok d
  | .null => rfl
  | .bool _ => rfl
  | .prim p n => by simp [DType.toFb, FbDType.read, ofNum_toNum]
  | .utf8 _ => rfl
  | .binary _ => rfl
  | .struct ns ds n => by simp [DType.toFb, FbDType.read, fb_list ds]
  | .list e n => by simp [DType.toFb, FbDType.read, C30_dtype_flatbuffer_round_trip e]
  | .ext _ _ _ => rfl
theorem fb_list : ∀ ds : List DType, FbDType.reads (DType.toFbs ds) = .ok ds
  | [] => rfl
  | d :: ds => by simp [DType.toFbs, FbDType.reads, C30_dtype_flatbuffer_round_trip d, fb_list ds]
end

/-- Distinct types have distinct serialised forms. -/
theorem C30_dtype_proto_injective (d e : DType) (h : d.toPb = e.toPb) : d = e := by
  have h1 := C30_dtype_proto_round_trip d
  rw [h, C30_dtype_proto_round_trip e] at h1
  simpa using h1.symm

theorem toFbs_getElem? (ds : List DType) (i : Nat) : (DType.toFbs ds)[i]? = ds[i]?.map DType.toFb := by
  induction ds generalizing i with
  | nil => simp [DType.toFbs]
  | cons d ds ih => cases i <;> simp [DType.toFbs, ih]

/-- Fields a projection may mention without running into the off-by-one of `field_info`: an index is at most the number of fields. -/
def IndexOk (ns : List Str) : RowExpr.Field → Prop
  | .name _ => True
  | .index i => i ≤ ns.length

theorem projectField_eq (ns : List Str) (ds : List DType) (f : RowExpr.Field) (h : IndexOk ns f) :
    projectField (some ns) (some (DType.toFbs ds)) f = DType.fieldInfo ns ds f := by
  have core : ∀ i, i ≤ ns.length → readField (some ns) (some (DType.toFbs ds)) i =
      (do let n ← Res.unwrap ns[i]?; let d ← Res.unwrap ds[i]?; .ok (n, d)) := by
    intro i _
    simp only [readField, Res.ofOption_some, Res.ok_bind, toFbs_getElem?]
    cases ns[i]? with
    | none => rfl
    | some n =>
      cases ds[i]? with
      | none => rfl
      | some d => simp [C30_dtype_flatbuffer_round_trip]
  cases f with
  | name n =>
    simp only [projectField, resolveField, DType.fieldInfo, Res.ofOption_some, Res.ok_bind]
    cases hf : DType.findName ns n with
    | none => rfl
    | some i =>
      have hi : i < ns.length := by
        unfold DType.findName at hf
        simp only at hf
        split at hf
        · simp only [Option.some.injEq] at hf; omega
        · simp at hf
      simp only [Res.ofOption_some, Res.ok_bind]
      rw [core i (by omega), if_neg (by omega)]
  | index i =>
    have hi : i ≤ ns.length := h
    simp only [projectField, resolveField, DType.fieldInfo, Res.ok_bind]
    rw [core i hi, if_neg (by omega)]

/-- Projecting the serialised schema is the same as reading it and projecting the result. -/
theorem C30_project_serialised (ns : List Str) (ds : List DType) (n : Bool) (proj : List RowExpr.Field)
    (h : ∀ f ∈ proj, IndexOk ns f) :
    deserializeAndProject (DType.struct ns ds n).toFb proj =
      (do let (ms, es) ← DType.project ns ds proj; .ok (.struct ms es n)) := by
  have hm : Res.mapM (projectField (some ns) (some (DType.toFbs ds))) proj = Res.mapM (DType.fieldInfo ns ds) proj := by
    induction proj with
    | nil => rfl
    | cons f fs ih =>
      simp only [Res.mapM, projectField_eq ns ds f (h f (by simp)), ih (fun g hg => h g (by simp [hg]))]
  simp only [DType.toFb, deserializeAndProject, DType.project, hm]
  cases Res.mapM (DType.fieldInfo ns ds) proj <;> rfl

/-- Projecting the serialised form of anything but a struct is refused with an error, whatever is asked for. -/
theorem C30_project_non_struct (d : DType) (hd : ∀ ns ds n, d ≠ .struct ns ds n) (proj : List RowExpr.Field) :
    deserializeAndProject d.toFb proj = .err := by
  cases d with
  | struct ns ds n => exact absurd rfl (hd ns ds n)
  | _ => rfl

/-- What the projection selects: by index the field at that position; by name the first field called so; in the order asked for. -/
theorem C30_project_selects (ns : List Str) (ds : List DType) (n : Bool) (is : List Nat) (hlen : ns.length = ds.length)
    (h : ∀ i ∈ is, i < ns.length) :
    deserializeAndProject (DType.struct ns ds n).toFb (is.map .index) =
      .ok (.struct (Spec.take ns is) (Spec.take ds is) n) := by
  rw [C30_project_serialised ns ds n _ (by
    intro f hf
    simp only [List.mem_map] at hf
    obtain ⟨i, hi, rfl⟩ := hf
    exact Nat.le_of_lt (h i hi))]
  have hm : Res.mapM (DType.fieldInfo ns ds) (is.map .index) = .ok (List.zip (Spec.take ns is) (Spec.take ds is)) := by
    induction is with
    | nil => rfl
    | cons i is ih =>
      have hi := h i (by simp)
      have hi' : i < ds.length := by omega
      have hih := ih (fun j hj => h j (by simp [hj]))
      simp only [List.map_cons, Res.mapM, hih]
      have : DType.fieldInfo ns ds (.index i) = .ok (ns[i], ds[i]) := by
        simp only [DType.fieldInfo, Res.ok_bind]
        rw [if_neg (by omega), List.getElem?_eq_getElem hi, List.getElem?_eq_getElem hi']
        rfl
      rw [this]
      simp [Spec.take, List.getElem?_eq_getElem hi, List.getElem?_eq_getElem hi']
  have hl : (Spec.take ns is).length = (Spec.take ds is).length := by
    induction is with
    | nil => rfl
    | cons i is ih =>
      have hi := h i (by simp)
      have hi' : i < ds.length := by omega
      have hih := ih (fun j hj => h j (by simp [hj])) (by
        simpa using (show Res.mapM (DType.fieldInfo ns ds) (is.map .index) = _ from by
          have := hm
          simp only [List.map_cons, Res.mapM, Res.bind_eq_ok] at this
          obtain ⟨a, _, b, hb, hab⟩ := this
          simp only [Spec.take, List.filterMap_cons, List.getElem?_eq_getElem hi, List.getElem?_eq_getElem hi',
            List.zip_cons_cons, Res.ok.injEq, List.cons.injEq] at hab
          rw [hb, hab.2]; rfl))
      simp [Spec.take, List.getElem?_eq_getElem hi, List.getElem?_eq_getElem hi'] at hih ⊢
      exact hih
  simp only [DType.project, hm, Res.ok_bind]
  rw [List.map_fst_zip (by omega), List.map_snd_zip (by omega)]

/-! ## Scalars through protobuf -/

mutual
/-- Types whose scalars survive protobuf unchanged: no 8- or 16-bit integers and no extension types anywhere. -/
def Portable (d : DType) : Prop :=
  match d with
  | .prim p _ => p ≠ .u8 ∧ p ≠ .u16 ∧ p ≠ .i8 ∧ p ≠ .i16
  | .ext _ _ _ => False
  | .struct _ ds _ => Portables ds
  | .list e _ => Portable e
  | _ => True
def Portables (ds : List DType) : Prop :=
  match ds with
  | [] => True
  | d :: ds => Portable d ∧ Portables ds
end

theorem Res.bind_ok {α β : Type} (a : α) (f : α → Res β) : Res.bind (.ok a) f = f a := rfl

theorem prim_round_trip {p : PType} {n : Bool} (hp : p ≠ .u8 ∧ p ≠ .u16 ∧ p ≠ .i8 ∧ p ≠ .i16) (b : BitVec p.bits) :
    PbVal.read (.prim p n) (PValue.toPb ⟨p, b⟩) = .ok (.prim ⟨p, b⟩) := by
  cases p with
  | u8 => simp at hp
  | u16 => simp at hp
  | i8 => simp at hp
  | i16 => simp at hp
  | f16 =>
    have h : (BitVec.zeroExtend 32 b).toNat < 2 ^ 16 := by
      have : b.toNat < 2 ^ 16 := b.isLt
      simp only [BitVec.toNat_setWidth]
      omega
    simp only [PValue.toPb, PbVal.read, if_pos h]
    congr 3
    apply BitVec.eq_of_toNat_eq
    have : b.toNat < 2 ^ 16 := b.isLt
    simp only [BitVec.toNat_setWidth]
    simp only [PType.bits]
    omega
  | u32 => rfl
  | u64 => rfl
  | i32 => rfl
  | i64 => rfl
  | f32 => rfl
  | f64 => rfl

mutual
theorem value_round_trip : ∀ (v : SV) (d : DType), HasType d v → Portable d → PbVal.read d v.toPb = .ok v
  | .null, d, _, _ => rfl
  | .bool b, d, _, _ => rfl
  | .prim ⟨p, b⟩, d, h, hp => by
    cases d with
    | prim q n =>
      have h' : p = q := by simpa [HasType] using h
      subst h'
      exact prim_round_trip (by simpa [Portable] using hp) b
    | ext => simp [Portable] at hp
    | _ => simp [HasType] at h
  | .buffer bs, d, _, _ => rfl
  | .str bs, d, _, _ => rfl
  | .list vs, d, h, hp => by
    cases d with
    | struct ns ds n =>
      have := fields_round_trip vs ds (by simpa [HasType] using h) (by simpa [Portable] using hp)
      simp only [SV.toPb, PbVal.read, this]; rfl
    | list e n =>
      have := elems_round_trip vs e (by simpa [HasType] using h) (by simpa [Portable] using hp)
      simp only [SV.toPb, PbVal.read, this]; rfl
    | _ => simp [HasType] at h
theorem fields_round_trip : ∀ (vs : List SV) (ds : List DType), HaveTypes ds vs → Portables ds →
    PbVal.readFields ds (SV.toPbs vs) = .ok vs
  | [], ds, _, _ => rfl
  | v :: vs, ds, h, hp => by
    cases ds with
    | nil => simp [HaveTypes] at h
    | cons d ds =>
      simp only [HaveTypes] at h
      simp only [Portables] at hp
      simp only [SV.toPbs, PbVal.readFields, value_round_trip v d h.1 hp.1, fields_round_trip vs ds h.2 hp.2]; rfl
theorem elems_round_trip : ∀ (vs : List SV) (d : DType), AllHaveType d vs → Portable d →
    PbVal.readElems d (SV.toPbs vs) = .ok vs
  | [], d, _, _ => rfl
  | v :: vs, d, h, hp => by
    simp only [AllHaveType] at h
    simp only [SV.toPbs, PbVal.readElems, value_round_trip v d h.1 hp, elems_round_trip vs d h.2 hp]; rfl
end

/-- A well-typed scalar written to protobuf and read back is the same scalar. Missing: types containing 8/16-bit integers or extension
types, where it is false (below). -/
theorem C30_scalar_proto_round_trip_partial (s : Scalar) (ht : HasType s.dtype s.value) (hp : Portable s.dtype) :
    s.toPb.read = .ok s := by
  obtain ⟨d, v⟩ := s
  simp only [Scalar.toPb, PbScalar.read, Res.ofOption_some, Res.ok_bind, C30_dtype_proto_round_trip, value_round_trip v d ht hp]

/-- 8- and 16-bit signed integers come back as 32-bit values of the same number; reading them at their type (as every accessor does)
recovers the original. -/
theorem C30_small_signed_readable (F : FloatOps) (p : PType) (hp : p = .i8 ∨ p = .i16) (b : BitVec p.bits) (n : Bool) :
    ∃ w, PbVal.read (.prim p n) (PValue.toPb ⟨p, b⟩) = .ok (.prim w) ∧ w.toInt = (⟨p, b⟩ : PValue).toInt ∧
      w.readAs F p = some ⟨p, b⟩ := by
  have key : ∀ w : PValue, w.pt.isFloat = false → p.isFloat = false → w.toInt = (⟨p, b⟩ : PValue).toInt →
      w.readAs F p = some ⟨p, b⟩ := by
    intro w hw hp hv
    rw [PValue.readAs_int F w p hw hp, hv]
    exact PValue.intCast_self ⟨p, b⟩
  rcases hp with rfl | rfl
  · have h1 : (⟨.i32, BitVec.signExtend 32 b⟩ : PValue).toInt = (⟨.i8, b⟩ : PValue).toInt :=
      (BitVec.toInt_signExtend_of_le (show 8 ≤ 32 by omega) : (BitVec.signExtend 32 (b : BitVec 8)).toInt = _)
    exact ⟨⟨.i32, BitVec.signExtend 32 b⟩, rfl, h1, key _ rfl rfl h1⟩
  · have h1 : (⟨.i32, BitVec.signExtend 32 b⟩ : PValue).toInt = (⟨.i16, b⟩ : PValue).toInt :=
      (BitVec.toInt_signExtend_of_le (show 16 ≤ 32 by omega) : (BitVec.signExtend 32 (b : BitVec 16)).toInt = _)
    exact ⟨⟨.i32, BitVec.signExtend 32 b⟩, rfl, h1, key _ rfl rfl h1⟩

/-- …but the scalar is not equal to the original (`PartialEq` compares the stored width). -/
theorem C30_small_signed_not_equal (p : PType) (hp : p = .i8 ∨ p = .i16) (b : BitVec p.bits) (n : Bool) :
    ∃ s', (Scalar.mk (.prim p n) (.prim ⟨p, b⟩)).toPb.read = .ok s' ∧ s'.eq ⟨.prim p n, .prim ⟨p, b⟩⟩ = false := by
  rcases hp with rfl | rfl <;>
  · refine ⟨⟨.prim _ n, .prim ⟨.i32, BitVec.signExtend 32 b⟩⟩, rfl, ?_⟩
    have : (⟨.i32, BitVec.signExtend 32 b⟩ : PValue) ≠ ⟨_, b⟩ := by intro h; have := congrArg PValue.pt h; simp at this
    simp [Scalar.eq, SV.eq, PValue.eq, this]

/-- Every `u8` and `u16` scalar fails to deserialise: `Uint32Value` is only accepted for `f16` and `u32`. -/
theorem C30_small_unsigned_fails (p : PType) (hp : p = .u8 ∨ p = .u16) (b : BitVec p.bits) (n : Bool) :
    (Scalar.mk (.prim p n) (.prim ⟨p, b⟩)).toPb.read = .err := by
  rcases hp with rfl | rfl <;> rfl

/-- An extension scalar over a `u32` or a list fails likewise. -/
theorem C30_extension_fails (i : Str) (m : Option (List UInt8)) (n : Bool) (b : BitVec 32) (vs : List SV) :
    (Scalar.mk (.ext i m n) (.prim ⟨.u32, b⟩)).toPb.read = .err ∧ (Scalar.mk (.ext i m n) (.list vs)).toPb.read = .err :=
  ⟨rfl, rfl⟩

/-- A missing dtype, value or kind is reported as an error, not guessed. -/
theorem C30_incomplete_message_rejected (v : Option PbVal) (e : DType) :
    (PbScalar.mk none v).read = .err ∧ (PbScalar.mk (some e.toPb) none).read = .err ∧
      (PbScalar.mk (some e.toPb) (some .missing)).read = .err := by
  refine ⟨rfl, ?_, ?_⟩ <;> simp [PbScalar.read, C30_dtype_proto_round_trip, PbVal.read]

/-- Non-vacuity: a struct of a nullable list of `f16` and a string. -/
def exStructType : DType := .struct [['a'], ['b']] [.list (.prim .f16 true) true, .utf8 false] false
def exStruct : Scalar := ⟨exStructType, .list [.list [.prim ⟨.f16, 0x3c00#16⟩, .null], .str [104, 105]]⟩
example : HasType exStruct.dtype exStruct.value ∧ Portable exStruct.dtype := by
  simp [exStruct, exStructType, HasType, HaveTypes, AllHaveType, Portable, Portables, DType.isNullable]
example : ∀ f ∈ [RowExpr.Field.index 1, .name ['a']], IndexOk [['a'], ['b']] f := by simp [IndexOk]

end Vx
