import Verif.Model.DType
/-!
# Temporal extension types
vortex-datetime-dtype/src/{temporal,unit}.rs and vortex-array/src/array/datetime/mod.rs.

A time zone is a Lean `String`, whose UTF-8 bytes are `String.toByteArray`. `String::from_utf8_lossy` is a parameter: all that is assumed
about it is that it returns the string whose bytes it is given (`LossyOk`).
-/
namespace Vx.Temporal

/-- vortex-datetime-dtype/src/unit.rs:23-30; `repr(u8)`, so the variants are numbered in order. -/
inductive TimeUnit where
  | ns | us | ms | s | d
  deriving DecidableEq, Repr

/-- `IntoPrimitive` for `repr(u8)`: unit.rs:20-24. -/
def TimeUnit.tag : TimeUnit → UInt8
  | .ns => 0 | .us => 1 | .ms => 2 | .s => 3 | .d => 4

/-- `TryFromPrimitive`: unit.rs:21; an unknown number is an error (mapped at temporal.rs:121-122). -/
def TimeUnit.ofTag (b : UInt8) : Res TimeUnit :=
  if b = 0 then .ok .ns else if b = 1 then .ok .us else if b = 2 then .ok .ms else if b = 3 then .ok .s
  else if b = 4 then .ok .d else .err

/-- vortex-datetime-dtype/src/temporal.rs:24-28 -/
inductive Meta where
  | time (u : TimeUnit)
  | date (u : TimeUnit)
  | timestamp (u : TimeUnit) (tz : Option String)
  deriving DecidableEq

/-- temporal.rs:11-13 -/
def timeId : Str := "vortex.time".toList
def dateId : Str := "vortex.date".toList
def timestampId : Str := "vortex.timestamp".toList

/-- `is_temporal_ext_type`: temporal.rs:16-18. -/
def isTemporal (id : Str) : Bool := id == dateId || id == timeId || id == timestampId

/-- The extension id that goes with the metadata: temporal.rs:108-115, arrow.rs:18-46. -/
def Meta.id : Meta → Str
  | .time _ => timeId
  | .date _ => dateId
  | .timestamp _ _ => timestampId

/-- `time_unit`: temporal.rs:51-57. -/
def Meta.unit : Meta → TimeUnit
  | .time u | .date u | .timestamp u _ => u

/-- `time_zone`: temporal.rs:60-66. -/
def Meta.zone : Meta → Option String
  | .timestamp _ tz => tz
  | _ => none

/-- UTF-8 bytes of a string. -/
def utf8 (s : String) : List UInt8 := s.toByteArray.data.toList

/-- `u16::to_le_bytes`. -/
def le16 (n : Nat) : List UInt8 := [UInt8.ofNat n, UInt8.ofNat (n / 256)]

/-- `u16::from_le_bytes`. -/
def ofLe16 (a b : UInt8) : Nat := a.toNat + 256 * b.toNat

/-- `From<TemporalMetadata> for ExtMetadata`: temporal.rs:153-187. A zone name over 65535 bytes panics. -/
def Meta.encode : Meta → Res (List UInt8)
  | .time u | .date u => .ok [u.tag]
  | .timestamp u none => .ok (u.tag :: le16 0)
  | .timestamp u (some tz) =>
    if (utf8 tz).length < 65536 then .ok (u.tag :: (le16 (utf8 tz).length ++ utf8 tz)) else .panic

/-- `decode_timestamp_metadata` after the unit: temporal.rs:138-150. Slicing past the end panics. -/
def decodeZone (lossy : List UInt8 → String) (bytes : List UInt8) : Res (Option String) :=
  match bytes[1]?, bytes[2]? with
  | some a, some b =>
    let n := ofLe16 a b
    if n = 0 then .ok none
    else if 3 + n ≤ bytes.length then .ok (some (lossy ((bytes.drop 3).take n))) else .panic
  | _, _ => .panic

/-- The tag byte: `ext_meta.as_ref()[0]` panics when there is none: temporal.rs:120, 127, 134. -/
def decodeUnit (bytes : List UInt8) : Res TimeUnit := do
  let b ← Res.unwrap bytes[0]?
  TimeUnit.ofTag b

/-- `TryFrom<&ExtDType> for TemporalMetadata`: temporal.rs:102-151. -/
def decode (lossy : List UInt8 → String) (id : Str) (metadata : Option (List UInt8)) : Res Meta := do
  let m ← Res.ofOption metadata
  if id = timeId then do let u ← decodeUnit m; .ok (.time u)
  else if id = dateId then do let u ← decodeUnit m; .ok (.date u)
  else if id = timestampId then do
    let u ← decodeUnit m
    let tz ← decodeZone lossy m
    .ok (.timestamp u tz)
  else .err

/-- All that is used of `String::from_utf8_lossy`: valid UTF-8 is decoded exactly. -/
def LossyOk (lossy : List UInt8 → String) : Prop := ∀ s : String, lossy (utf8 s) = s

/-- A decoder with that property (it replaces the whole of an invalid sequence, which `from_utf8_lossy` does piecewise). -/
def lossy (bs : List UInt8) : String :=
  if h : (ByteArray.mk bs.toArray).IsValidUTF8 then String.fromUTF8 _ h else "\uFFFD"

/-- The storage type each temporal constructor insists on: array/datetime/mod.rs:45-132 (`assert_width!`, lines 27-41). `none`: the unit is
rejected with a panic. -/
def storage : Meta → Option PType
  | .date .d => some .i32
  | .date .ms => some .i64
  | .date _ => none
  | .time .s | .time .ms => some .i32
  | .time .us | .time .ns => some .i64
  | .time .d => none
  | .timestamp _ _ => some .i64

/-- `TemporalArray::new_date` / `new_time` / `new_timestamp`, on the dtype of the storage array; the result is the dtype of the array
(datetime/mod.rs:45-132). `ExtensionArray::new` keeps the storage's nullability (array/extension/mod.rs:29-43). -/
def construct (m : Meta) (values : DType) : Res DType :=
  match values, storage m with
  | .prim p n, some q => if p = q then do
      let b ← m.encode
      .ok (.ext m.id (some b) n)
    else .panic
  | _, _ => .panic

/-- `TryFrom<Array> for TemporalArray`: datetime/mod.rs:157-207, on the dtype of the array. -/
def ofDType (lossy : List UInt8 → String) : DType → Res Meta
  | .ext id m _ => decode lossy id m
  | _ => .err

/-- The unit check of `to_jiff`: temporal.rs:68-98. `true` when the unit is accepted (the calendar arithmetic of `jiff` is not modelled). -/
def jiffUnitOk : Meta → Bool
  | .time u => u != .d
  | .date u => u == .d || u == .ms
  | .timestamp u _ => u != .d

end Vx.Temporal
