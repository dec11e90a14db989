import Verif.Model.Temporal
/-!
# Arrow data types
vortex-array/src/arrow/dtype.rs and vortex-datetime-dtype/src/arrow.rs: conversions between Arrow's `DataType`/`Field`/`Schema` and `DType`.
-/
namespace Vx.Arrow
open Temporal

/-- `arrow_schema::TimeUnit`. -/
inductive AUnit where
  | second | milli | micro | nano
  deriving DecidableEq, Repr

mutual
/-- `arrow_schema::DataType`. `other` stands for every variant the code does not mention (decimals, durations, maps, unions, …). A list
carries its element `Field`. Field metadata maps are not modelled: no conversion looks at them. -/
inductive AType where
  | null
  | boolean
  | prim (p : PType)
  | utf8 | largeUtf8 | utf8View
  | binary | largeBinary | binaryView
  | date32 | date64
  | time32 (u : AUnit)
  | time64 (u : AUnit)
  | timestamp (u : AUnit) (tz : Option String)
  | list (name : Str) (elem : AType) (nullable : Bool)
  | largeList (name : Str) (elem : AType) (nullable : Bool)
  | struct (fields : AFields)
  | other (n : Nat)
/-- `arrow_schema::Fields`: name, type, nullability. -/
inductive AFields where
  | nil
  | cons (name : Str) (ty : AType) (nullable : Bool) (rest : AFields)
end

def AFields.toList : AFields → List (Str × AType × Bool)
  | .nil => []
  | .cons n t b r => (n, t, b) :: r.toList

/-- `From<ArrowTimeUnit> for TimeUnit`: vortex-datetime-dtype/src/arrow.rs:95-104. -/
def AUnit.toUnit : AUnit → TimeUnit
  | .second => .s | .milli => .ms | .micro => .us | .nano => .ns

/-- `make_temporal_ext_dtype`: arrow.rs:13-50, as the metadata it writes. -/
def temporalMeta : AType → Option Meta
  | .timestamp u tz => some (.timestamp u.toUnit tz)
  | .time32 u => some (.time u.toUnit)
  | .time64 u => some (.time u.toUnit)
  | .date32 => some (.date .d)
  | .date64 => some (.date .ms)
  | _ => none

/-- arrow.rs:18-46: the extension type of a temporal Arrow type. -/
def extOf (m : Meta) (nullable : Bool) : Res DType := do
  let b ← m.encode
  .ok (.ext m.id (some b) nullable)

mutual
/-- `FromArrowType<&Field> for DType`: vortex-array/src/arrow/dtype.rs:66-105, on the field's type and nullability. An unsupported type
panics (`unimplemented!`). -/
def fromArrow : AType → Bool → Res DType
  | .null, _ => .ok .null
  | .boolean, n => .ok (.bool n)
  | .prim p, n => .ok (.prim p n)
  | .utf8, n => .ok (.utf8 n)
  | .largeUtf8, n => .ok (.utf8 n)
  | .utf8View, n => .ok (.utf8 n)
  | .binary, n => .ok (.binary n)
  | .largeBinary, n => .ok (.binary n)
  | .binaryView, n => .ok (.binary n)
  | .date32, n => extOf (.date .d) n
  | .date64, n => extOf (.date .ms) n
  | .time32 u, n => extOf (.time u.toUnit) n
  | .time64 u, n => extOf (.time u.toUnit) n
  | .timestamp u tz, n => extOf (.timestamp u.toUnit tz) n
  | .list _ e m, n => do let d ← fromArrow e m; .ok (.list d n)
  | .largeList _ e m, n => do let d ← fromArrow e m; .ok (.list d n)
  | .struct fs, n => do let r ← fromFields fs; .ok (.struct r.1 r.2 n)
  | .other _, _ => .panic
/-- The names and dtypes collected from a list of fields: dtype.rs:93-101, 48-58. -/
def fromFields : AFields → Res (List Str × List DType)
  | .nil => .ok ([], [])
  | .cons name t n rest => do
    let d ← fromArrow t n
    let r ← fromFields rest
    .ok (name :: r.1, d :: r.2)
end

/-- `FromArrowType<SchemaRef> for DType`: dtype.rs:45-64. -/
def fromSchema (fs : AFields) : Res DType := do
  let r ← fromFields fs
  .ok (.struct r.1 r.2 false)

/-- `make_arrow_temporal_dtype`: vortex-datetime-dtype/src/arrow.rs:55-85. Bad metadata and bad units panic. -/
def arrowTemporal (lossy : List UInt8 → String) (id : Str) (md : Option (List UInt8)) : Res AType :=
  match decode lossy id md with
  | .ok (.date .d) => .ok .date32
  | .ok (.date .ms) => .ok .date64
  | .ok (.time .s) => .ok (.time32 .second)
  | .ok (.time .ms) => .ok (.time32 .milli)
  | .ok (.time .us) => .ok (.time64 .micro)
  | .ok (.time .ns) => .ok (.time64 .nano)
  | .ok (.timestamp .ns tz) => .ok (.timestamp .nano tz)
  | .ok (.timestamp .us tz) => .ok (.timestamp .micro tz)
  | .ok (.timestamp .ms tz) => .ok (.timestamp .milli tz)
  | .ok (.timestamp .s tz) => .ok (.timestamp .second tz)
  | _ => .panic

mutual
/-- `infer_data_type`: vortex-array/src/arrow/dtype.rs:135-180. -/
def inferType (lossy : List UInt8 → String) : DType → Res AType
  | .null => .ok .null
  | .bool _ => .ok .boolean
  | .prim p _ => .ok (.prim p)
  | .utf8 _ => .ok .utf8View
  | .binary _ => .ok .binaryView
  | .struct names dtypes _ => do let fs ← inferFields lossy names dtypes; .ok (.struct fs)
  | .list _ _ => .err
  | .ext id md _ => if isTemporal id then arrowTemporal lossy id md else .err
/-- The loop over `names.zip(dtypes)`: dtype.rs:152-165, 120-131. -/
def inferFields (lossy : List UInt8 → String) : List Str → List DType → Res AFields
  | n :: ns, d :: ds => do
    let t ← inferType lossy d
    let r ← inferFields lossy ns ds
    .ok (.cons n t d.isNullable r)
  | _, _ => .ok .nil
end

/-- `infer_schema`: dtype.rs:108-132. -/
def inferSchema (lossy : List UInt8 → String) : DType → Res AFields
  | .struct names dtypes n => if n then .err else inferFields lossy names dtypes
  | _ => .err

end Vx.Arrow
