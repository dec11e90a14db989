import Verif.Model.ArrowType
import Verif.Model.Primitive
/-!
# Arrow arrays
vortex-array/src/arrow/{array,recordbatch}.rs (import) and vortex-array/src/canonical.rs (export).

Both sides share buffers, so contents are modelled as lists: fixed-width values as bit patterns, strings as byte strings, bits as booleans.
String arrays are modelled by their byte strings; how `VarBin`/`VarBinView` address them is property C21. Children of a struct are canonical
arrays here; decoding compressed children into canonical ones is property C03.
-/
namespace Vx.Arrow
open Temporal

mutual
/-- An Arrow array with its `data_type`; `nulls` is the optional null buffer (`true` = valid). `other` is any array of a type the code does
not handle. -/
inductive AArr where
  | null (len : Nat)
  | bool (vals : List Bool) (nulls : Option (List Bool))
  | fixed (t : AType) (vals : List Nat) (nulls : Option (List Bool))
  | bytes (t : AType) (vals : List (List UInt8)) (nulls : Option (List Bool))
  | struct (cols : ACols) (len : Nat) (nulls : Option (List Bool))
  | other (n len : Nat)
/-- The columns of a struct array: field name, field nullability, array. -/
inductive ACols where
  | nil
  | cons (name : Str) (nullable : Bool) (a : AArr) (rest : ACols)
end

mutual
/-- A canonical vortex array (vortex-array/src/canonical.rs:56-63) or a `VarBin` array, which the import also makes. `bytes utf8 offs …` is a
`VarBin` (`offs`) or `VarBinView` array of strings or bytes (the dtype's nullability is the validity's: varbin/mod.rs:42-49, varbinview/mod.rs). -/
inductive VArr where
  | null (len : Nat)
  | bool (vals : List Bool) (v : Validity)
  | prim (p : PType) (vals : List Nat) (v : Validity)
  | bytes (utf8 offs : Bool) (vals : List (List UInt8)) (v : Validity)
  | struct (cols : VCols) (len : Nat) (v : Validity)
  | ext (id : Str) (md : Option (List UInt8)) (storage : VArr)
inductive VCols where
  | nil
  | cons (name : Str) (a : VArr) (rest : VCols)
end

/-- `len()` of an Arrow array. -/
def AArr.len : AArr → Nat
  | .null n | .other _ n => n
  | .bool vs _ => vs.length
  | .fixed _ vs _ => vs.length
  | .bytes _ vs _ => vs.length
  | .struct _ n _ => n

/-- `len()` of a vortex array. -/
def VArr.len : VArr → Nat
  | .null n => n
  | .bool vs _ => vs.length
  | .prim _ vs _ => vs.length
  | .bytes _ _ vs _ => vs.length
  | .struct _ n _ => n
  | .ext _ _ s => s.len

/-- The null buffer. -/
def AArr.nulls : AArr → Option (List Bool)
  | .null _ | .other _ _ => none
  | .bool _ n | .fixed _ _ n | .bytes _ _ n | .struct _ _ n => n

mutual
/-- `data_type()`. -/
def AArr.type : AArr → AType
  | .null _ => .null
  | .bool _ _ => .boolean
  | .fixed t _ _ => t
  | .bytes t _ _ => t
  | .struct cols _ _ => .struct cols.fields
  | .other n _ => .other n
def ACols.fields : ACols → AFields
  | .nil => .nil
  | .cons name nullable a rest => .cons name a.type nullable rest.fields
end

def ACols.lens : ACols → List Nat
  | .nil => []
  | .cons _ _ a rest => a.len :: rest.lens

mutual
/-- `dtype()`. -/
def VArr.dtype : VArr → DType
  | .null _ => .null
  | .bool _ v => .bool v.nullable
  | .prim p _ v => .prim p v.nullable
  | .bytes utf8 _ _ v => if utf8 then .utf8 v.nullable else .binary v.nullable
  | .struct cols _ v => .struct cols.names cols.dtypes v.nullable
  | .ext id md s => .ext id md s.dtype.isNullable
def VCols.names : VCols → List Str
  | .nil => []
  | .cons name _ rest => name :: rest.names
def VCols.dtypes : VCols → List DType
  | .nil => []
  | .cons _ a rest => a.dtype :: rest.dtypes
end

def VCols.lens : VCols → List Nat
  | .nil => []
  | .cons _ a rest => a.len :: rest.lens

/-- `nulls`: vortex-array/src/arrow/array.rs:189-204. -/
def nulls (b : Option (List Bool)) (nullable : Bool) : Res Validity :=
  if nullable then
    match b with
    | none => .ok .allValid
    | some m => if m.count false = m.length then .ok .allInvalid else .ok (Validity.ofBooleanBuffer m)
  else match b with
    | none => .ok .nonNullable
    | some _ => .panic

/-- `TemporalArray::new_*` around a primitive array: array.rs:90-106 with array/datetime/mod.rs:45-132. -/
def wrapTemporal (m : Meta) (arr : VArr) : Res VArr :=
  match construct m arr.dtype with
  | .ok (.ext id md _) => .ok (.ext id md arr)
  | .ok _ => .panic
  | .err => .err
  | .panic => .panic

/-- `from_arrow` on a primitive Arrow array: array.rs:72-108. `as_primitive::<T>` fixes the type parameter by the unit alone, and
`T::DATA_TYPE` of a timestamp type has no time zone, so the zone of the array's own type is not seen (array.rs:236-249). -/
def fromFixed (t : AType) (vals : List Nat) (b : Option (List Bool)) (nullable : Bool) : Res VArr := do
  let v ← nulls b nullable
  match t with
  | .prim p => .ok (.prim p vals v)
  | .timestamp u _ => wrapTemporal (.timestamp u.toUnit none) (.prim .i64 vals v)
  | .time32 .second => wrapTemporal (.time .s) (.prim .i32 vals v)
  | .time32 .milli => wrapTemporal (.time .ms) (.prim .i32 vals v)
  | .time64 .micro => wrapTemporal (.time .us) (.prim .i64 vals v)
  | .time64 .nano => wrapTemporal (.time .ns) (.prim .i64 vals v)
  | .date32 => wrapTemporal (.date .d) (.prim .i32 vals v)
  | .date64 => wrapTemporal (.date .ms) (.prim .i64 vals v)
  | _ => .panic

/-- `from_arrow` on string and byte arrays, with offsets or views: array.rs:110-160. -/
def fromBytes (t : AType) (vals : List (List UInt8)) (b : Option (List Bool)) (nullable : Bool) : Res VArr := do
  let v ← nulls b nullable
  match t with
  | .utf8 | .largeUtf8 => .ok (.bytes true true vals v)
  | .utf8View => .ok (.bytes true false vals v)
  | .binary | .largeBinary => .ok (.bytes false true vals v)
  | .binaryView => .ok (.bytes false false vals v)
  | _ => .panic

/-- `StructArray::try_new`: array/struct_/mod.rs:49-90. The number of names and fields is the same by construction. -/
def structNew (cols : VCols) (len : Nat) (v : Validity) : Res VArr :=
  if cols.lens.all (fun l => l = len) then do
    let _ ← v.checkLen len
    .ok (.struct cols len v)
  else .err

/-- `vortex_expect`: an error becomes a panic. -/
def expect : Res α → Res α
  | .err => .panic
  | r => r

mutual
/-- `FromArrowArray<ArrayRef> for Array`: vortex-array/src/arrow/array.rs:206-302. The result of `nulls` always has the array's length, so
the constructors of the leaf arrays do not fail. -/
def fromArr : AArr → Bool → Res VArr
  | .null n, nullable => if nullable then .ok (.null n) else .panic
  | .bool vals b, nullable => do let v ← nulls b nullable; .ok (.bool vals v)
  | .fixed t vals b, nullable => fromFixed t vals b nullable
  | .bytes t vals b, nullable => fromBytes t vals b nullable
  | .struct cols len b, nullable => do
    let cs ← fromCols cols
    let v ← nulls b nullable
    expect (structNew cs len v)
  | .other _ _, _ => .panic
/-- Each column with its own field's nullability: array.rs:168-186, recordbatch.rs:18-31. -/
def fromCols : ACols → Res VCols
  | .nil => .ok .nil
  | .cons name nullable a rest => do
    let v ← fromArr a nullable
    let r ← fromCols rest
    .ok (.cons name v r)
end

/-- `LogicalValidity::to_null_buffer`: vortex-array/src/validity.rs:343-351, after `logical_validity()` of the array. -/
def toNulls (v : Validity) (n : Nat) : Option (List Bool) :=
  match v.toLogical n with
  | .allValid _ => none
  | .allInvalid l => some (List.replicate l false)
  | .array a => some a

/-- The temporal branch of the export: canonical.rs:231-294, as (storage type, Arrow type). The zone is dropped: the Arrow array is built by
`TimestampNanosecondArray::new` and the like. -/
def temporalTarget : Meta → Res (PType × AType)
  | .date .d => .ok (.i32, .date32)
  | .date .ms => .ok (.i64, .date64)
  | .date _ => .err
  | .time .s => .ok (.i32, .time32 .second)
  | .time .ms => .ok (.i32, .time32 .milli)
  | .time .us => .ok (.i64, .time64 .micro)
  | .time .ns => .ok (.i64, .time64 .nano)
  | .time .d => .err
  | .timestamp .ns _ => .ok (.i64, .timestamp .nano none)
  | .timestamp .us _ => .ok (.i64, .timestamp .micro none)
  | .timestamp .ms _ => .ok (.i64, .timestamp .milli none)
  | .timestamp .s _ => .ok (.i64, .timestamp .second none)
  | .timestamp .d _ => .err

/-- What the export leaves to other parts: how metadata bytes are read as UTF-8, and `try_cast` of a storage array to another width
(property C39; used only when the storage is not of the width its unit calls for), and what `arrow_cast` makes of a byte array cast to
`Utf8View`, as values and null buffer (nothing is assumed of it). -/
structure Ctx where
  lossy : List UInt8 → String
  cast : PType → PType → List Nat → Validity → Res (List Nat × Validity)
  binCast : List (List UInt8) → Option (List Bool) → Res (List (List UInt8) × Option (List Bool))

/-- `extract_temporal_values!`: canonical.rs:214-229; `try_cast` to the same dtype is the identity (compute/unary/cast.rs:17-19). -/
def castStorage (c : Ctx) (p q : PType) (vals : List Nat) (v : Validity) : Res (List Nat × Validity) :=
  if p = q then .ok (vals, v) else c.cast p q vals v

/-- `temporal_to_arrow`: canonical.rs:213-295. -/
def temporalOut (c : Ctx) (id : Str) (md : Option (List UInt8)) (storage : VArr) : Res AArr := do
  let m ← decode c.lossy id md
  let t ← temporalTarget m
  match storage with
  | .prim p vals v => do
    let r ← castStorage c p t.1 vals v
    .ok (.fixed t.2 r.1 (toNulls r.2 r.1.length))
  | _ => .err

/-- `arrow_array::StructArray::try_new` of arrow 53 (trusted): the length is that of the first column, 0 if there is none; the null buffer
and the columns must have that length. (It also refuses nulls in a non-nullable field; the exported columns of a non-nullable field have no
null buffer.) -/
def arrowStructNew (cols : ACols) (b : Option (List Bool)) : Res AArr :=
  let len := cols.lens.head?.getD 0
  if (b.map (fun m => decide (m.length = len))).getD true && cols.lens.all (fun l => l = len) then .ok (.struct cols len b) else .err

/-- The view arrays that `into_canonical` makes, as (is it text, values, validity). Views: varbinview/mod.rs:506-516. Offsets:
array/varbin/flatten.rs:10-18, where the array is cast to `Utf8View` whether it holds text or bytes; imported offsets are `i32` or `i64` and
are kept (varbin/arrow.rs:22-24), and the cast of text keeps the rows (both in detail: property C97). -/
def canonBytes (c : Ctx) (utf8 offs : Bool) (vals : List (List UInt8)) (v : Validity) : Res (Bool × List (List UInt8) × Validity) :=
  if offs && !utf8 then do
    let r ← c.binCast vals (toNulls v vals.length)
    let w ← nulls r.2 v.nullable
    .ok (true, r.1, w)
  else do
    let w ← nulls (toNulls v vals.length) v.nullable
    .ok (utf8, vals, w)

mutual
/-- `Canonical::into_arrow`: canonical.rs:71-86, 133-211, after `into_canonical` (canonical.rs:353-360). -/
def intoArr (c : Ctx) : VArr → Res AArr
  | .null n => .ok (.null n)
  | .bool vals v => .ok (.bool vals (toNulls v vals.length))
  | .prim p vals v => .ok (.fixed (.prim p) vals (toNulls v vals.length))
  | .bytes utf8 offs vals v => do
    let r ← canonBytes c utf8 offs vals v
    .ok (.bytes (if r.1 then .utf8View else .binaryView) r.2.1 (toNulls r.2.2 r.2.1.length))
  | .struct cols len v => do
    let cs ← intoCols c cols
    arrowStructNew cs (toNulls v len)
  | .ext id md s => if isTemporal id then temporalOut c id md s else .err
/-- canonical.rs:169-211: each field is exported, with the nullability of its dtype. -/
def intoCols (c : Ctx) : VCols → Res ACols
  | .nil => .ok .nil
  | .cons name v rest => do
    let a ← intoArr c v
    let r ← intoCols c rest
    .ok (.cons name v.dtype.isNullable a r)
end

/-- `arrow_buffer::BooleanBuffer`: packed bytes, a bit offset and a length (trusted contract: bit `i` is bit `offset + i` of the bytes,
least significant first). -/
structure BitBuf where
  bytes : List UInt8
  offset : Nat
  len : Nat

/-- The bit at a position of packed bytes. -/
def bitAt (bytes : List UInt8) (i : Nat) : Option Bool := (bytes[i / 8]?).map (fun b => b.toNat.testBit (i % 8))

/-- `BooleanBuffer::value`. -/
def BitBuf.get (b : BitBuf) (i : Nat) : Option Bool := if i < b.len then bitAt b.bytes (b.offset + i) else none

/-- The physical form of a `BoolArray`: its buffer, the metadata `first_byte_bit_offset`, and the length. -/
structure BoolParts where
  bytes : List UInt8
  firstBit : Nat
  len : Nat

/-- `BoolArray::try_new`: vortex-array/src/array/bool/mod.rs:59-82. `Buffer::bit_slice` at a byte boundary is `slice` in arrow 53.2.0, the
pinned version: it drops the leading bytes and keeps the rest. -/
def boolTryNew (b : BitBuf) : BoolParts :=
  let firstBit := b.offset % 8
  ⟨b.bytes.drop ((b.offset - firstBit) / 8), firstBit, b.len⟩

/-- `BoolArray::boolean_buffer`: array/bool/mod.rs:43-49. -/
def boolBuffer (p : BoolParts) : BitBuf := ⟨p.bytes, p.firstBit, p.len⟩

/-- `BooleanBuffer::slice` (trusted contract), used by array/bool/compute/slice.rs:7-16. -/
def BitBuf.slice (b : BitBuf) (start len : Nat) : BitBuf := ⟨b.bytes, b.offset + start, len⟩

/-- The statistics attached to imported offsets: `From<OffsetBuffer> for Array`, vortex-array/src/arrow/array.rs:54-71. The pair is
(`IsSorted`, `IsStrictSorted`). -/
def offsetStats (_offsets : List Int) : Bool × Bool := (true, true)

/-- An Arrow record batch: columns and a row count. -/
structure Batch where
  cols : ACols
  rows : Nat

/-- `TryFrom<RecordBatch> for Array`: vortex-array/src/arrow/recordbatch.rs:11-35. -/
def fromBatch (b : Batch) : Res VArr := do
  let cs ← fromCols b.cols
  structNew cs b.rows .nonNullable

/-- `TryFrom<StructArray> for RecordBatch` / `TryFrom<Array>`: recordbatch.rs:37-59. arrow's `RecordBatch::from(StructArray)` panics when
the struct array has nulls (trusted contract of arrow 53). -/
def intoBatch (c : Ctx) : VArr → Res Batch
  | .struct cols len v => do
    match ← intoArr c (.struct cols len v) with
    | .struct cs n b => if ((b.map (fun m => m.count false)).getD 0) = 0 then .ok ⟨cs, n⟩ else .panic
    | _ => .panic
  | _ => .err

end Vx.Arrow
