import Verif.Model.Scalar
/-!
# Scalar values in flexbuffers
vortex-scalar/src/serde/{serde,flatbuffers}.rs, vortex-array/src/metadata.rs: `ScalarValue` is stored through serde in a flexbuffer, both in
flatbuffers (scalars, the statistics of messages) and in the metadata of encodings (constant arrays, sparse fill values, FoR references).

The flexbuffers crate (2.0.0) is trusted to do this: integers are kept as numbers and given the least width that holds them; floats are kept
as `f64` and given 32 bits when `x as f32 as f64 == x`; the elements of a vector (and the fields of a map) all get one width, large enough
for each of them; a number is read back with the width it is stored with.
-/
namespace Vx.Flex

/-- `flexbuffers::BitWidth`. -/
inductive Width where
  | w8 | w16 | w32 | w64
  deriving DecidableEq, Repr

def Width.bits : Width → Nat
  | .w8 => 8 | .w16 => 16 | .w32 => 32 | .w64 => 64

/-- What a flexbuffer holds. `float` is the 64-bit pattern. -/
inductive Val where
  | null
  | bool (b : Bool)
  | int (v : Int)
  | uint (v : Nat)
  | float (b : BitVec 64)
  | str (bs : List UInt8)
  | vec (vs : List Val)

/-- Least width of an unsigned number (flexbuffers `BitWidth::from(u64)`). -/
def uWidth (v : Nat) : Width := if v < 2 ^ 8 then .w8 else if v < 2 ^ 16 then .w16 else if v < 2 ^ 32 then .w32 else .w64

/-- Least width of a signed number (flexbuffers `BitWidth::from(i64)`). -/
def iWidth (v : Int) : Width :=
  if -2 ^ 7 ≤ v ∧ v < 2 ^ 7 then .w8 else if -2 ^ 15 ≤ v ∧ v < 2 ^ 15 then .w16
  else if -2 ^ 31 ≤ v ∧ v < 2 ^ 31 then .w32 else .w64

/-- Least width of a float (flexbuffers `BitWidth::from(f64)`): 32 bits when `x as f32 as f64 == x`. -/
def fWidth (F : FloatOps) (b : BitVec 64) : Width :=
  if Spec.f64.eq (F.f2f .f32 .f64 (F.f2f .f64 .f32 b)) b then .w32 else .w64

/-- Least width a value can be stored with. -/
def Val.width (F : FloatOps) : Val → Width
  | .int v => iWidth v
  | .uint v => uWidth v
  | .float b => fWidth F b
  | _ => .w8

/-- `impl Serialize for PValue`: vortex-scalar/src/serde/serde.rs:153-173. `f16` goes as its bits in a `u16`; `serialize_f32` widens. -/
def ofPValue (F : FloatOps) : PValue → Val
  | ⟨.u8, b⟩ => .uint b.toNat
  | ⟨.u16, b⟩ => .uint b.toNat
  | ⟨.u32, b⟩ => .uint b.toNat
  | ⟨.u64, b⟩ => .uint b.toNat
  | ⟨.i8, b⟩ => .int b.toInt
  | ⟨.i16, b⟩ => .int b.toInt
  | ⟨.i32, b⟩ => .int b.toInt
  | ⟨.i64, b⟩ => .int b.toInt
  | ⟨.f16, b⟩ => .uint b.toNat
  | ⟨.f32, b⟩ => .float (F.f2f .f32 .f64 b)
  | ⟨.f64, b⟩ => .float b

mutual
/-- `impl Serialize for ScalarValue`: serde.rs:10-24. `buffer.as_ref()` is a slice of bytes, which serde writes as a sequence. -/
def ofSV (F : FloatOps) : SV → Val
  | .null => .null
  | .bool b => .bool b
  | .prim p => ofPValue F p
  | .buffer bs => .vec (bs.map (fun x => .uint x.toNat))
  | .str bs => .str bs
  | .list vs => .vec (ofSVs F vs)
def ofSVs (F : FloatOps) : List SV → List Val
  | [] => []
  | v :: vs => ofSV F v :: ofSVs F vs
end

/-- `visit_u8` … `visit_u64`: serde.rs:74-100; the width decides the method. -/
def readUInt (w : Width) (v : Nat) : PValue :=
  match w with
  | .w8 => ⟨.u8, BitVec.ofNat 8 v⟩
  | .w16 => ⟨.u16, BitVec.ofNat 16 v⟩
  | .w32 => ⟨.u32, BitVec.ofNat 32 v⟩
  | .w64 => ⟨.u64, BitVec.ofNat 64 v⟩

/-- `visit_i8` … `visit_i64`: serde.rs:46-72. -/
def readInt (w : Width) (v : Int) : PValue :=
  match w with
  | .w8 => ⟨.i8, BitVec.ofInt 8 v⟩
  | .w16 => ⟨.i16, BitVec.ofInt 16 v⟩
  | .w32 => ⟨.i32, BitVec.ofInt 32 v⟩
  | .w64 => ⟨.i64, BitVec.ofInt 64 v⟩

/-- `visit_f32`, `visit_f64`: serde.rs:102-114. A float takes 32 or 64 bits. -/
def readFloat (F : FloatOps) (w : Width) (b : BitVec 64) : PValue :=
  match w with
  | .w64 => ⟨.f64, b⟩
  | _ => ⟨.f32, F.f2f .f64 .f32 b⟩

mutual
/-- `impl Deserialize for ScalarValue`: serde.rs:26-151, of a value stored with width `w`; `W` gives the width of the elements of a vector. -/
def toSV (F : FloatOps) (W : List Val → Width) (w : Width) : Val → SV
  | .null => .null
  | .bool b => .bool b
  | .int v => .prim (readInt w v)
  | .uint v => .prim (readUInt w v)
  | .float b => .prim (readFloat F w b)
  | .str bs => .str bs
  | .vec vs => .list (toSVs F W (W vs) vs)
def toSVs (F : FloatOps) (W : List Val → Width) (w : Width) : List Val → List SV
  | [] => []
  | v :: vs => toSV F W w v :: toSVs F W w vs
end

/-- A value written on its own and read back (`TryFrom<fb::ScalarValue>` after `write_flatbuffer`: serde/flatbuffers.rs:24-62): the root has
its least width. -/
def storeRoot (F : FloatOps) (W : List Val → Width) (v : SV) : SV := toSV F W ((ofSV F v).width F) (ofSV F v)

/-- A value written as a field of an encoding's metadata and read back (vortex-array/src/metadata.rs:34-51), where `w` is the common width
of the fields. -/
def storeField (F : FloatOps) (W : List Val → Width) (w : Width) (v : SV) : SV := toSV F W w (ofSV F v)

mutual
/-- A value as the typed scalars see it (`PrimitiveScalar`, `BoolScalar`, `Utf8Scalar`, `BinaryScalar`, `ListScalar`, `StructScalar`):
vortex-scalar/src/primitive.rs:19-43, value.rs:101-143. Primitive values are converted to the type; an extension value is left as it is. -/
def readAt (F : FloatOps) (d : DType) (v : SV) : Res SV :=
  match v with
  | .null => .ok .null
  | .bool b => match d with
    | .bool _ => .ok (.bool b)
    | .ext _ _ _ => .ok (.bool b)
    | _ => .err
  | .prim p => match d with
    | .prim q _ => (Res.ofOption (p.readAs F q)).bind (fun x => .ok (.prim x))
    | .ext _ _ _ => .ok (.prim p)
    | _ => .err
  | .buffer bs => match d with
    | .binary _ => .ok (.buffer bs)
    | .utf8 _ => .ok (.str bs)
    | .ext _ _ _ => .ok (.buffer bs)
    | _ => .err
  | .str bs => match d with
    | .utf8 _ => .ok (.str bs)
    | .ext _ _ _ => .ok (.str bs)
    | _ => .err
  | .list vs => match d with
    | .struct _ ds _ => (readFields F ds vs).bind (fun xs => .ok (.list xs))
    | .list e _ => (readElems F e vs).bind (fun xs => .ok (.list xs))
    | .ext _ _ _ => .ok (.list vs)
    | _ => .err
def readFields (F : FloatOps) (ds : List DType) (vs : List SV) : Res (List SV) :=
  match vs with
  | [] => .ok []
  | v :: vs => match ds with
    | [] => .err
    | d :: ds => (readAt F d v).bind (fun x => (readFields F ds vs).bind (fun xs => .ok (x :: xs)))
def readElems (F : FloatOps) (d : DType) (vs : List SV) : Res (List SV) :=
  match vs with
  | [] => .ok []
  | v :: vs => (readAt F d v).bind (fun x => (readElems F d vs).bind (fun xs => .ok (x :: xs)))
end

mutual
/-- `ScalarValue::is_instance_of`: vortex-scalar/src/value.rs:77-99 and pvalue.rs:77-79. For a struct the values are zipped with the field
types, so surplus values or fields are not looked at. -/
def isInstanceOf (v : SV) (d : DType) : Bool :=
  match v with
  | .bool _ => match d with
    | .bool _ => true
    | _ => false
  | .prim p => match d with
    | .prim q _ => p.pt == q
    | _ => false
  | .buffer _ => match d with
    | .binary _ => true
    | _ => false
  | .str _ => match d with
    | .utf8 _ => true
    | _ => false
  | .list vs => match d with
    | .list e _ => allInstances vs e
    | .struct _ ds _ => zipInstances vs ds
    | _ => false
  | .null => d.isNullable
/-- The `all` over list elements: value.rs:85-87. -/
def allInstances (vs : List SV) (d : DType) : Bool :=
  match vs with
  | [] => true
  | v :: vs => isInstanceOf v d && allInstances vs d
/-- The `zip` … `all` over struct fields: value.rs:88-91. -/
def zipInstances (vs : List SV) (ds : List DType) : Bool :=
  match vs with
  | [] => true
  | v :: vs => match ds with
    | [] => true
    | d :: ds => isInstanceOf v d && zipInstances vs ds
end

/-- Decoding a constant array of a primitive type: vortex-array/src/array/constant/canonical.rs:53-60. A value that cannot be read at the
type is replaced by the type's default, zero. -/
def constantCanon (F : FloatOps) (q : PType) (v : SV) (n : Nat) : List (BitVec q.bits) :=
  List.replicate n (match v with
    | .prim p => match p.readAs F q with
      | some x => if h : x.pt = q then h ▸ x.bits else 0
      | none => 0
    | _ => 0)

/-- `merge_ordered` for `Min` (vortex-array/src/stats/statsset.rs:108-110, 122-132) when both sides have the statistic: `other < own`
on scalars (vortex-scalar/src/lib.rs:109-117). -/
def mergeMin (own other : Scalar) : Scalar := if other.partialCmp own = some .lt then other else own

end Vx.Flex
