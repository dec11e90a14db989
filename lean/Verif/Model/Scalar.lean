import Verif.Model.DType
import Verif.Spec.Float
/-!
# Scalars: values, order, casts, serialised forms
vortex-scalar/src/{lib,value,pvalue,primitive,bool,struct_,list,utf8,binary,extension}.rs, vortex-scalar/src/serde/{proto,serde}.rs
-/
namespace Vx

/-- `PValue`: vortex-scalar/src/pvalue.rs:11-24. A tagged bit pattern. -/
structure PValue where
  pt : PType
  bits : BitVec pt.bits
  deriving DecidableEq, Repr

/-- `ScalarValue`: vortex-scalar/src/value.rs:17-27. Strings are their UTF-8 bytes. -/
inductive SV where
  | bool (b : Bool)
  | prim (p : PValue)
  | buffer (bs : List UInt8)
  | str (bs : List UInt8)
  | list (vs : List SV)
  | null

namespace PValue

/-- The mathematical value of an integer `PValue`. -/
def toInt (p : PValue) : Int := if p.pt.isSigned then p.bits.toInt else p.bits.toNat

/-- The key compared by `f32::total_cmp` (std): as a signed integer, with all bits but the sign flipped when the sign is set.
`(bits >> (w-1)) as unsigned >> 1` is `0` or `0111…1`. -/
def totalKey {w : Nat} (x : BitVec w) : Int := (x ^^^ (if x.msb then (BitVec.allOnes w) >>> 1 else 0#w)).toInt

/-- `NativePType::compare`: `cmp` on integers, `total_cmp` on floats (vortex-dtype/src/ptype.rs:69-92). -/
def key (p : PValue) : Int := if p.pt.isFloat then totalKey p.bits else p.toInt

/-- `impl PartialOrd for PValue`: pvalue.rs:26-43 -/
def partialCmp (p q : PValue) : Option Ordering := if p.pt = q.pt then some (compare p.key q.key) else none

/-- IEEE formats of the float types. -/
def fmt16 : Spec.Fmt := ⟨5, 10⟩

/-- Derived `PartialEq` (pvalue.rs:11): same variant, and `==` on the payload, which for floats is IEEE equality. -/
def eq : PValue → PValue → Bool
  | ⟨.f16, a⟩, ⟨.f16, b⟩ => fmt16.eq a b
  | ⟨.f32, a⟩, ⟨.f32, b⟩ => Spec.f32.eq a b
  | ⟨.f64, a⟩, ⟨.f64, b⟩ => Spec.f64.eq a b
  | p, q => decide (p = q)

end PValue

/-- Conversions between number types that involve floats; the code uses `num_traits::NumCast`. Trusted only to be functions.
`trunc` is `none` for NaN and infinities. -/
structure FloatOps where
  f2f : (p q : PType) → BitVec p.bits → BitVec q.bits
  i2f : (q : PType) → Int → BitVec q.bits
  trunc : (p : PType) → BitVec p.bits → Option Int

/-- Does the integer type represent `v`? -/
def PType.inRange (q : PType) (v : Int) : Bool :=
  if q.isSigned then decide (-(2 ^ (q.bits - 1) : Int) ≤ v ∧ v < 2 ^ (q.bits - 1)) else decide (0 ≤ v ∧ v < 2 ^ q.bits)

/-- `NumCast::from` into an integer type: the value if representable. -/
def intCast (q : PType) (v : Int) : Option PValue := if q.inRange v then some ⟨q, BitVec.ofInt q.bits v⟩ else none

namespace PValue

/-- `<$Q as NumCast>::from(v)` for a native value of type `p.pt`. -/
def numCast (F : FloatOps) (p : PValue) (q : PType) : Option PValue :=
  match p.pt.isFloat, q.isFloat with
  | false, false => intCast q p.toInt
  | false, true => some ⟨q, F.i2f q p.toInt⟩
  | true, false => (F.trunc p.pt p.bits).bind (intCast q)
  | true, true => if p.pt = q then some p else some ⟨q, F.f2f p.pt q p.bits⟩

/-- `<$T>::try_from(pvalue)`: the conversion table of pvalue.rs:155-230 (integers from integers, floats from floats, `f16` also from the
bits in a `u16`). -/
def readAs (F : FloatOps) (p : PValue) (q : PType) : Option PValue :=
  match p, q with
  | ⟨.u16, b⟩, .f16 => some ⟨.f16, b⟩
  | p, q => if p.pt.isFloat = q.isFloat then p.numCast F q else none

/-- `reinterpret_cast`: pvalue.rs:85-150; a width mismatch is an assertion failure. Two float types never share a width. -/
def reinterpret (p : PValue) (q : PType) : Res PValue :=
  if q = p.pt then .ok p else
  if h : p.pt.bits = q.bits then .ok ⟨q, h ▸ p.bits⟩ else .panic

end PValue

/-- A scalar: vortex-scalar/src/lib.rs:37-41 -/
structure Scalar where
  dtype : DType
  value : SV

namespace SV

def isNull : SV → Bool
  | .null => true
  | _ => false

/-- Position in the enum: the derived `PartialOrd` compares variants in declaration order, `Null` last (value.rs:17-27). -/
def tag : SV → Nat
  | .bool _ => 0
  | .prim _ => 1
  | .buffer _ => 2
  | .str _ => 3
  | .list _ => 4
  | .null => 5

/-- Slice order on bytes: lexicographic (vortex-buffer/src/lib.rs:171-175). -/
def cmpBytes : List UInt8 → List UInt8 → Ordering
  | [], [] => .eq
  | [], _ :: _ => .lt
  | _ :: _, [] => .gt
  | a :: as, b :: bs => match compare a.toNat b.toNat with
    | .eq => cmpBytes as bs
    | o => o

mutual
/-- Derived `PartialOrd for ScalarValue`: value.rs:17. -/
def cmp : SV → SV → Option Ordering
  | .bool a, .bool b => some (compare a.toNat b.toNat)
  | .prim p, .prim q => p.partialCmp q
  | .buffer a, .buffer b => some (cmpBytes a b)
  | .str a, .str b => some (cmpBytes a b)
  | .list a, .list b => cmps a b
  | .null, .null => some .eq
  | a, b => some (compare a.tag b.tag)
/-- Slice `partial_cmp`: the first element pair that is not equal decides, then the lengths. -/
def cmps : List SV → List SV → Option Ordering
  | [], [] => some .eq
  | [], _ :: _ => some .lt
  | _ :: _, [] => some .gt
  | a :: as, b :: bs => match cmp a b with
    | some .eq => cmps as bs
    | o => o
end

mutual
/-- Derived `PartialEq for ScalarValue`. -/
def eq : SV → SV → Bool
  | .bool a, .bool b => a == b
  | .prim p, .prim q => p.eq q
  | .buffer a, .buffer b => a == b
  | .str a, .str b => a == b
  | .list a, .list b => eqs a b
  | .null, .null => true
  | _, _ => false
def eqs : List SV → List SV → Bool
  | [], [] => true
  | a :: as, b :: bs => eq a b && eqs as bs
  | _, _ => false
end

/-- `PrimitiveScalar::try_new`, the value part: primitive.rs:20-39. -/
def readPrim (F : FloatOps) (p : PType) : SV → Res (Option PValue)
  | .null => .ok none
  | .prim v => (Res.ofOption (v.readAs F p)).bind (fun x => .ok (some x))
  | _ => .err

/-- `PrimitiveScalar::cast` after reading: primitive.rs:63-75. A null panics with "Invalid value". -/
def castPrim (F : FloatOps) (q : PType) : Option PValue → Res SV
  | none => .panic
  | some v => (Res.ofOption (v.numCast F q)).bind (fun x => .ok (.prim x))

/-- `Scalar::cast` on a value that is not a list (lib.rs:82-106 with bool.rs:22-31, primitive.rs:63-75, struct_.rs:58-97, list.rs:63-65,
utf8.rs, binary.rs, extension.rs), after the null and same-type checks. -/
def castFlat (F : FloatOps) (src : DType) (v : SV) (dst : DType) : Res SV :=
  match dst, src with
  | .null, _ => .err
  | .bool _, .bool _ =>
    match v with
    | .bool b => .ok (.bool b)
    | _ => .err
  | .prim q _, .prim p _ => (readPrim F p v).bind (castPrim F q)
  | .utf8 _, .utf8 _ => .panic
  | .binary _, .binary _ => .panic
  | .struct _ ds _, .struct _ es _ =>
    match v with
    | .null => if ds.length ≠ es.length then .err else .ok .null
    | _ => .err
  | .list _ _, .list _ _ =>
    match v with
    | .null => .panic
    | _ => .err
  | .ext _ _ _, .ext _ _ _ => .panic
  | _, _ => .err

mutual
/-- `Scalar::cast`: vortex-scalar/src/lib.rs:82-106; the result carries the target dtype, so only the value is returned. -/
def cast (F : FloatOps) (src : DType) (v : SV) (dst : DType) : Res SV :=
  if v.isNull && !dst.isNullable then .err else
  if src.eqIgnoreNullability dst then .ok v else
  match v with
  | .list vs =>
    match dst, src with
    | .struct _ ds _, .struct _ es _ =>
      if ds.length ≠ es.length then .err else (castFields F es ds vs).bind (fun ws => .ok (.list ws))
    | .list _ _, .list _ _ => .panic
    | .ext _ _ _, .ext _ _ _ => .panic
    | _, _ => .err
  | v => castFlat F src v dst
/-- The fields of a struct, position by position (struct_.rs:74-87); more values than fields is an out-of-bounds panic. -/
def castFields (F : FloatOps) (es ds : List DType) (vs : List SV) : Res (List SV) :=
  match vs with
  | [] => .ok []
  | v :: vs =>
    match es, ds with
    | e :: es, d :: ds => (cast F e v d).bind (fun w => (castFields F es ds vs).bind (fun ws => .ok (w :: ws)))
    | _, _ => .panic
end

end SV

namespace Scalar

/-- lib.rs:82-106 -/
def cast (F : FloatOps) (s : Scalar) (dst : DType) : Res Scalar := (SV.cast F s.dtype s.value dst).bind (fun v => .ok ⟨dst, v⟩)

/-- `PartialEq`: lib.rs:109-113 -/
def eq (a b : Scalar) : Bool := a.dtype.beq b.dtype && a.value.eq b.value

/-- `PartialOrd`: lib.rs:115-123 -/
def partialCmp (a b : Scalar) : Option Ordering := if a.dtype.eqIgnoreNullability b.dtype then a.value.cmp b.value else none

end Scalar

/-! ## Protobuf -/

/-- `pb::ScalarValue` (vortex-proto/proto/scalar.proto): `missing` is an absent oneof. -/
inductive PbVal where
  | missing
  | null
  | bool (b : Bool)
  | int32 (v : BitVec 32)
  | int64 (v : BitVec 64)
  | uint32 (v : BitVec 32)
  | uint64 (v : BitVec 64)
  | float (v : BitVec 32)
  | double (v : BitVec 64)
  | string (bs : List UInt8)
  | bytes (bs : List UInt8)
  | list (vs : List PbVal)

/-- `impl From<&PValue> for pb::ScalarValue`: serde/proto.rs:49-89 -/
def PValue.toPb : PValue → PbVal
  | ⟨.i8, v⟩ => .int32 (BitVec.signExtend 32 v)
  | ⟨.i16, v⟩ => .int32 (BitVec.signExtend 32 v)
  | ⟨.i32, v⟩ => .int32 v
  | ⟨.i64, v⟩ => .int64 v
  | ⟨.u8, v⟩ => .uint32 (BitVec.zeroExtend 32 v)
  | ⟨.u16, v⟩ => .uint32 (BitVec.zeroExtend 32 v)
  | ⟨.u32, v⟩ => .uint32 v
  | ⟨.u64, v⟩ => .uint64 v
  | ⟨.f16, v⟩ => .uint32 (BitVec.zeroExtend 32 v)
  | ⟨.f32, v⟩ => .float v
  | ⟨.f64, v⟩ => .double v

mutual
/-- `impl From<&ScalarValue> for pb::ScalarValue`: serde/proto.rs:21-47 -/
def SV.toPb : SV → PbVal
  | .null => .null
  | .bool b => .bool b
  | .prim p => p.toPb
  | .buffer bs => .bytes bs
  | .str bs => .string bs
  | .list vs => .list (SV.toPbs vs)
def SV.toPbs : List SV → List PbVal
  | [] => []
  | v :: vs => SV.toPb v :: SV.toPbs vs
end

mutual
/-- `deserialize_scalar_value`: serde/proto.rs:115-167 -/
def PbVal.read (d : DType) (v : PbVal) : Res SV :=
  match v with
  | .missing => .err
  | .null => .ok .null
  | .bool b => .ok (.bool b)
  | .int32 v => .ok (.prim ⟨.i32, v⟩)
  | .int64 v => .ok (.prim ⟨.i64, v⟩)
  | .uint32 v =>
    match d with
    | .prim .f16 _ => if v.toNat < 2 ^ 16 then .ok (.prim ⟨.f16, BitVec.truncate 16 v⟩) else .err
    | .prim .u32 _ => .ok (.prim ⟨.u32, v⟩)
    | _ => .err
  | .uint64 v => .ok (.prim ⟨.u64, v⟩)
  | .float v => .ok (.prim ⟨.f32, v⟩)
  | .double v => .ok (.prim ⟨.f64, v⟩)
  | .string bs => .ok (.str bs)
  | .bytes bs => .ok (.buffer bs)
  | .list vs =>
    match d with
    | .struct _ ds _ => (PbVal.readFields ds vs).bind (fun ws => .ok (.list ws))
    | .list e _ => (PbVal.readElems e vs).bind (fun ws => .ok (.list ws))
    | _ => .err
/-- `zip` of values and field types: the shorter one decides. -/
def PbVal.readFields (ds : List DType) (vs : List PbVal) : Res (List SV) :=
  match vs with
  | [] => .ok []
  | v :: vs =>
    match ds with
    | [] => .ok []
    | d :: ds => (PbVal.read d v).bind (fun w => (PbVal.readFields ds vs).bind (fun ws => .ok (w :: ws)))
def PbVal.readElems (d : DType) (vs : List PbVal) : Res (List SV) :=
  match vs with
  | [] => .ok []
  | v :: vs => (PbVal.read d v).bind (fun w => (PbVal.readElems d vs).bind (fun ws => .ok (w :: ws)))
end

/-- `pb::Scalar`: both fields optional. -/
structure PbScalar where
  dtype : Option PbDType
  value : Option PbVal

/-- serde/proto.rs:12-19 -/
def Scalar.toPb (s : Scalar) : PbScalar := ⟨some s.dtype.toPb, some s.value.toPb⟩

/-- serde/proto.rs:91-113 -/
def PbScalar.read (s : PbScalar) : Res Scalar := do
  let pd ← Res.ofOption s.dtype
  let d ← pd.read
  let pv ← Res.ofOption s.value
  let v ← pv.read d
  .ok ⟨d, v⟩

end Vx
