import Verif.Model.Expr
/-!
# Logical types and their serialised forms
vortex-dtype/src/{dtype,ptype,nullability}.rs, vortex-dtype/src/serde/proto.rs, vortex-dtype/src/serde/flatbuffers/{mod,project}.rs.

The serialised forms are modelled at the level of the generated message types (`pb::DType`, `fb::DType`): optional fields, enum numbers,
unknown variants. The byte encodings of `prost` and `flatbuffers` are trusted to be lossless.
-/
namespace Vx

/-- vortex-dtype/src/ptype.rs:20-33 -/
inductive PType where
  | u8 | u16 | u32 | u64 | i8 | i16 | i32 | i64 | f16 | f32 | f64
  deriving DecidableEq, Repr

/-- `bit_width`: vortex-dtype/src/ptype.rs:204-217 -/
def PType.bits : PType → Nat
  | .u8 | .i8 => 8
  | .u16 | .i16 | .f16 => 16
  | .u32 | .i32 | .f32 => 32
  | .u64 | .i64 | .f64 => 64

def PType.isFloat : PType → Bool
  | .f16 | .f32 | .f64 => true
  | _ => false

def PType.isSigned : PType → Bool
  | .i8 | .i16 | .i32 | .i64 => true
  | _ => false

def PType.isInt (p : PType) : Bool := !p.isFloat

/-- Names and extension ids are strings. -/
abbrev Str := List Char

/-- vortex-dtype/src/dtype.rs:22-31; the `Bool` is the nullability. `ExtDType` is an id plus optional metadata
(vortex-dtype/src/extension.rs). -/
inductive DType where
  | null
  | bool (n : Bool)
  | prim (p : PType) (n : Bool)
  | utf8 (n : Bool)
  | binary (n : Bool)
  | struct (names : List Str) (dtypes : List DType) (n : Bool)
  | list (elem : DType) (n : Bool)
  | ext (id : Str) (metadata : Option (List UInt8)) (n : Bool)

namespace DType

/-- dtype.rs:44-57 -/
def isNullable : DType → Bool
  | .null => true
  | .bool n | .prim _ n | .utf8 n | .binary n | .struct _ _ n | .list _ n | .ext _ _ n => n

/-- dtype.rs:67-78 -/
def withNullability (d : DType) (n : Bool) : DType :=
  match d with
  | .null => .null
  | .bool _ => .bool n
  | .prim p _ => .prim p n
  | .utf8 _ => .utf8 n
  | .binary _ => .binary n
  | .struct ns ds _ => .struct ns ds n
  | .list e _ => .list e n
  | .ext i m _ => .ext i m n

mutual
/-- Derived equality (dtype.rs:20). -/
def beq : DType → DType → Bool
  | .null, .null => true
  | .bool a, .bool b => a == b
  | .prim p a, .prim q b => p == q && a == b
  | .utf8 a, .utf8 b => a == b
  | .binary a, .binary b => a == b
  | .struct ns ds a, .struct ms es b => ns == ms && (beqs ds es && a == b)
  | .list d a, .list e b => beq d e && a == b
  | .ext i m a, .ext j k b => i == j && (m == k && a == b)
  | _, _ => false
def beqs : List DType → List DType → Bool
  | [], [] => true
  | d :: ds, e :: es => beq d e && beqs ds es
  | _, _ => false
end

mutual
theorem beq_eq : ∀ d e : DType, beq d e = true ↔ d = e
  | .null, e => by cases e <;> simp [beq]
  | .bool a, e => by cases e <;> simp [beq]
  | .prim p a, e => by cases e <;> simp [beq]
  | .utf8 a, e => by cases e <;> simp [beq]
  | .binary a, e => by cases e <;> simp [beq]
  | .struct ns ds a, e => by
    cases e with
    | struct ms es b => simp [beq, beqs_eq ds es]
    | _ => simp [beq]
  | .list d a, e => by
    cases e with
    | list f b => simp [beq, beq_eq d f]
    | _ => simp [beq]
  | .ext i m a, e => by cases e <;> simp [beq]
theorem beqs_eq : ∀ ds es : List DType, beqs ds es = true ↔ ds = es
  | [], es => by cases es <;> simp [beqs]
  | d :: ds, es => by
    cases es with
    | nil => simp [beqs]
    | cons e es => simp [beqs, beq_eq d e, beqs_eq ds es]
end

instance : DecidableEq DType := fun d e =>
  if h : beq d e = true then isTrue ((beq_eq d e).mp h) else isFalse (fun hh => h ((beq_eq d e).mpr hh))

/-- dtype.rs:80-82: equality after making both nullable (only at the top level). -/
def eqIgnoreNullability (a b : DType) : Bool := beq (a.withNullability true) (b.withNullability true)

/-- Index of the first field with the name: dtype.rs:172-174. -/
def findName (names : List Str) (n : Str) : Option Nat :=
  let i := names.findIdx (· == n)
  if i < names.length then some i else none

/-- `StructDType::field_info`: dtype.rs:176-193. The bound check is `index > names.len()`, so `index = len` panics at the indexing. -/
def fieldInfo (names : List Str) (dtypes : List DType) (f : RowExpr.Field) : Res (Str × DType) := do
  let i ← match f with
    | .name n => Res.ofOption (findName names n)
    | .index i => .ok i
  if names.length < i then .err else do
    let n ← Res.unwrap names[i]?
    let d ← Res.unwrap dtypes[i]?
    .ok (n, d)

/-- `StructDType::project`: dtype.rs:199-211. -/
def project (names : List Str) (dtypes : List DType) (proj : List RowExpr.Field) : Res (List Str × List DType) := do
  let fs ← Res.mapM (fieldInfo names dtypes) proj
  .ok (fs.map (·.1), fs.map (·.2))

end DType

/-! ## Protobuf -/

/-- The generated message `pb::DType` (vortex-proto/proto/dtype.proto): `missing` is an absent oneof; enum fields are raw `i32`. -/
inductive PbDType where
  | missing
  | null
  | bool (nullable : Bool)
  | primitive (type : Int) (nullable : Bool)
  | decimal (precision scale : Nat) (nullable : Bool)
  | utf8 (nullable : Bool)
  | binary (nullable : Bool)
  | struct (names : List Str) (dtypes : List PbDType) (nullable : Bool)
  | list (elem : Option PbDType) (nullable : Bool)
  | ext (id : Str) (metadata : Option (List UInt8)) (nullable : Bool)

/-- The numbers of `enum PType` in vortex-proto/proto/dtype.proto:5-17, through `From<PType> for pb::PType` (serde/proto.rs:113-131). -/
def PType.toNum : PType → Int
  | .u8 => 0 | .u16 => 1 | .u32 => 2 | .u64 => 3 | .i8 => 4 | .i16 => 5 | .i32 => 6 | .i64 => 7 | .f16 => 8 | .f32 => 9 | .f64 => 10

def PType.ofNum? (i : Int) : Option PType :=
  if i = 0 then some .u8 else if i = 1 then some .u16 else if i = 2 then some .u32 else if i = 3 then some .u64
  else if i = 4 then some .i8 else if i = 5 then some .i16 else if i = 6 then some .i32 else if i = 7 then some .i64
  else if i = 8 then some .f16 else if i = 9 then some .f32 else if i = 10 then some .f64 else none

/-- `p.r#type()`: prost maps an unknown number to the default variant `U8`; serde/proto.rs:94-111 -/
def PType.ofNum (i : Int) : PType := (PType.ofNum? i).getD .u8

mutual
/-- `impl From<&DType> for pb::DType`: serde/proto.rs:58-92 -/
def DType.toPb : DType → PbDType
  | .null => .null
  | .bool n => .bool n
  | .prim p n => .primitive p.toNum n
  | .utf8 n => .utf8 n
  | .binary n => .binary n
  | .struct ns ds n => .struct ns (DType.toPbs ds) n
  | .list e n => .list (some (DType.toPb e)) n
  | .ext i m n => .ext i m n
def DType.toPbs : List DType → List PbDType
  | [] => []
  | d :: ds => DType.toPb d :: DType.toPbs ds
end

mutual
/-- `impl TryFrom<&pb::DType> for DType`: serde/proto.rs:11-56 -/
def PbDType.read : PbDType → Res DType
  | .missing => .err
  | .null => .ok .null
  | .bool n => .ok (.bool n)
  | .primitive t n => .ok (.prim (PType.ofNum t) n)
  | .decimal _ _ _ => .panic
  | .utf8 n => .ok (.utf8 n)
  | .binary n => .ok (.binary n)
  | .struct ns ds n => do
    let es ← PbDType.reads ds
    .ok (.struct ns es n)
  | .list none _ => .err
  | .list (some e) n => do
    let e' ← PbDType.read e
    .ok (.list e' n)
  | .ext i m n => .ok (.ext i m n)
def PbDType.reads : List PbDType → Res (List DType)
  | [] => .ok []
  | d :: ds => do
    let e ← PbDType.read d
    let es ← PbDType.reads ds
    .ok (e :: es)
end

/-! ## Flatbuffers -/

/-- The table `fb::DType` (vortex-flatbuffers, dtype.fbs): union fields and vectors may be absent, the type tag may be unknown. -/
inductive FbDType where
  | unknown
  | null
  | bool (nullable : Bool)
  | primitive (ptype : Int) (nullable : Bool)
  | utf8 (nullable : Bool)
  | binary (nullable : Bool)
  | struct (names : Option (List Str)) (dtypes : Option (List FbDType)) (nullable : Bool)
  | list (elem : Option FbDType) (nullable : Bool)
  | ext (id : Option Str) (metadata : Option (List UInt8)) (nullable : Bool)

mutual
/-- `write_flatbuffer`: serde/flatbuffers/mod.rs:97-206 -/
def DType.toFb : DType → FbDType
  | .null => .null
  | .bool n => .bool n
  | .prim p n => .primitive p.toNum n
  | .utf8 n => .utf8 n
  | .binary n => .binary n
  | .struct ns ds n => .struct (some ns) (some (DType.toFbs ds)) n
  | .list e n => .list (some (DType.toFb e)) n
  | .ext i m n => .ext (some i) m n
def DType.toFbs : List DType → List FbDType
  | [] => []
  | d :: ds => DType.toFb d :: DType.toFbs ds
end

mutual
/-- `TryFrom<fb::DType>`: serde/flatbuffers/mod.rs:13-93 (an unknown primitive type is an error here, :226-246). -/
def FbDType.read : FbDType → Res DType
  | .unknown => .err
  | .null => .ok .null
  | .bool n => .ok (.bool n)
  | .primitive t n => do
    let p ← Res.ofOption (PType.ofNum? t)
    .ok (.prim p n)
  | .utf8 n => .ok (.utf8 n)
  | .binary n => .ok (.binary n)
  | .struct none _ _ => .err
  | .struct (some _) none _ => .err
  | .struct (some ns) (some ds) n => do
    let es ← FbDType.reads ds
    .ok (.struct ns es n)
  | .list none _ => .err
  | .list (some e) n => do
    let e' ← FbDType.read e
    .ok (.list e' n)
  | .ext none _ _ => .err
  | .ext (some i) m n => .ok (.ext i m n)
def FbDType.reads : List FbDType → Res (List DType)
  | [] => .ok []
  | d :: ds => do
    let e ← FbDType.read d
    let es ← FbDType.reads ds
    .ok (e :: es)
end

/-- `resolve_field`: serde/flatbuffers/project.rs:11-24 -/
def resolveField (names : Option (List Str)) : RowExpr.Field → Res Nat
  | .name n => do
    let ns ← Res.ofOption names
    Res.ofOption (DType.findName ns n)
  | .index i => .ok i

/-- `read_field`: project.rs:51-64; `Vector::get` panics out of bounds. -/
def readField (names : Option (List Str)) (dtypes : Option (List FbDType)) (i : Nat) : Res (Str × DType) := do
  let ns ← Res.ofOption names
  let n ← Res.unwrap ns[i]?
  let ds ← Res.ofOption dtypes
  let d ← Res.unwrap ds[i]?
  let d' ← d.read
  .ok (n, d')

/-- One step of the projection: project.rs:36-38. -/
def projectField (names : Option (List Str)) (dtypes : Option (List FbDType)) (f : RowExpr.Field) : Res (Str × DType) := do
  let i ← resolveField names f
  readField names dtypes i

/-- `deserialize_and_project`: project.rs:27-49. (The code resolves and reads lazily, one field after the other.) -/
def deserializeAndProject (fb : FbDType) (proj : List RowExpr.Field) : Res DType :=
  match fb with
  | .struct names dtypes n => do
    let fs ← Res.mapM (projectField names dtypes) proj
    .ok (.struct (fs.map (·.1)) (fs.map (·.2)) n)
  | _ => .err

end Vx
