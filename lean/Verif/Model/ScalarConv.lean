import Verif.Model.Scalar
import Verif.Model.ArrowType
/-!
# Scalars to and from DataFusion and Arrow
vortex-scalar/src/datafusion.rs (`TryFrom<Scalar> for ScalarValue`, `From<ScalarValue> for Scalar`) and vortex-scalar/src/arrow.rs
(`TryFrom<&Scalar> for Arc<dyn Datum>`).
-/
namespace Vx.ScalarConv
open Vx.Temporal Vx.Arrow

/-- Temporal types held in an `i32`, resp. an `i64`. -/
inductive T32 where
  | date32 | time32s | time32ms
  deriving DecidableEq, Repr
inductive T64 where
  | date64 | time64us | time64ns
  | timestamp (u : AUnit) (tz : Option String)
  deriving DecidableEq, Repr

inductive StrKind where
  | utf8 | utf8View | largeUtf8
  deriving DecidableEq, Repr
inductive BinKind where
  | binary | binaryView | largeBinary
  | fixed (n : Nat)
  deriving DecidableEq, Repr

/-- `datafusion_common::ScalarValue`; `other` stands for the variants the code does not convert (decimals, lists, structs, durations, …). -/
inductive DV where
  | null
  | boolean (v : Option Bool)
  | prim (p : PType) (v : Option (BitVec p.bits))
  | str (k : StrKind) (v : Option (List UInt8))
  | bin (k : BinKind) (v : Option (List UInt8))
  | t32 (k : T32) (v : Option (BitVec 32))
  | t64 (k : T64) (v : Option (BitVec 64))
  | other (n : Nat)

def T32.aType : T32 → AType
  | .date32 => .date32
  | .time32s => .time32 .second
  | .time32ms => .time32 .milli

def T64.aType : T64 → AType
  | .date64 => .date64
  | .time64us => .time64 .micro
  | .time64ns => .time64 .nano
  | .timestamp u tz => .timestamp u tz

/-- `ScalarValue::data_type()` (DataFusion), on the variants converted. -/
def DV.dataType : DV → AType
  | .null => .null
  | .boolean _ => .boolean
  | .prim p _ => .prim p
  | .str .utf8 _ => .utf8
  | .str .utf8View _ => .utf8View
  | .str .largeUtf8 _ => .largeUtf8
  | .bin .binary _ => .binary
  | .bin .binaryView _ => .binaryView
  | .bin .largeBinary _ => .largeBinary
  | .bin (.fixed n) _ => .other n
  | .t32 k _ => k.aType
  | .t64 k _ => k.aType
  | .other n => .other n

/-- `as_bool`, `as_pvalue`, `as_buffer`, `as_buffer_string`: vortex-scalar/src/value.rs:101-133. `ok8` is whether bytes are UTF-8. -/
def asBool : SV → Res (Option Bool)
  | .null => .ok none
  | .bool b => .ok (some b)
  | _ => .err
def asPValue : SV → Res (Option PValue)
  | .null => .ok none
  | .prim p => .ok (some p)
  | _ => .err
def asBuffer : SV → Res (Option (List UInt8))
  | .null => .ok none
  | .buffer b => .ok (some b)
  | _ => .err
def asStr (ok8 : List UInt8 → Bool) : SV → Res (Option (List UInt8))
  | .null => .ok none
  | .buffer b => if ok8 b then .ok (some b) else .err
  | .str b => .ok (some b)
  | _ => .err

/-- `PValue::as_i32`, `as_i64`: vortex-scalar/src/pvalue.rs:45-58, 153-154: only the very variant. -/
def asI32 : PValue → Option (BitVec 32)
  | ⟨.i32, b⟩ => some b
  | _ => none
def asI64 : PValue → Option (BitVec 64)
  | ⟨.i64, b⟩ => some b
  | _ => none

/-- The temporal branch: datafusion.rs:72-116. -/
def temporalDF (m : Meta) (pv : Option PValue) : Res DV :=
  match m with
  | .time .ns => .ok (.t64 .time64ns (pv.bind asI64))
  | .time .us => .ok (.t64 .time64us (pv.bind asI64))
  | .time .ms => .ok (.t32 .time32ms (pv.bind asI32))
  | .time .s => .ok (.t32 .time32s (pv.bind asI32))
  | .time .d => .panic
  | .date .ms => .ok (.t64 .date64 (pv.bind asI64))
  | .date .d => .ok (.t32 .date32 (pv.bind asI32))
  | .date _ => .panic
  | .timestamp .ns tz => .ok (.t64 (.timestamp .nano tz) (pv.bind asI64))
  | .timestamp .us tz => .ok (.t64 (.timestamp .micro tz) (pv.bind asI64))
  | .timestamp .ms tz => .ok (.t64 (.timestamp .milli tz) (pv.bind asI64))
  | .timestamp .s tz => .ok (.t64 (.timestamp .second tz) (pv.bind asI64))
  | .timestamp .d _ => .panic

/-- `TryFrom<Scalar> for ScalarValue`: datafusion.rs:11-120. `todo!` and `unreachable!` panic. -/
def toDF (lossy : List UInt8 → String) (ok8 : List UInt8 → Bool) (s : Scalar) : Res DV :=
  match s.dtype with
  | .null => .ok .null
  | .bool _ => (asBool s.value).bind (fun b => .ok (.boolean b))
  | .prim p _ => (asPValue s.value).bind (fun
    | none => .ok (.prim p none)
    | some v => .ok (.prim v.pt (some v.bits)))
  | .utf8 _ => (asStr ok8 s.value).bind (fun b => .ok (.str .utf8 b))
  | .binary _ => (asBuffer s.value).bind (fun b => .ok (.bin .binary b))
  | .struct _ _ _ => .panic
  | .list _ _ => .panic
  | .ext id md _ => if isTemporal id then
      (decode lossy id md).bind (fun m => (asPValue s.value).bind (fun pv => temporalDF m pv))
    else .panic

/-- `Scalar::null(DType::Null)`, datafusion.rs:125, 171. -/
def nullScalar : Scalar := ⟨.null, .null⟩

/-- `make_temporal_ext_dtype(&value.data_type())` with an `i32` or `i64` value: datafusion.rs:147-168. -/
def ofTemporal (t : AType) (p : PValue) : Res Scalar :=
  match temporalMeta t with
  | none => .panic
  | some m => (extOf m true).bind (fun d => .ok ⟨d, .prim p⟩)

/-- `From<ScalarValue> for Scalar`: datafusion.rs:122-173. Primitive values, booleans and strings get non-nullable types
(vortex-scalar/src/lib.rs:131-139, bool.rs:67-74, utf8.rs:83-90). -/
def fromDF : DV → Res Scalar
  | .null => .ok nullScalar
  | .boolean none => .ok nullScalar
  | .boolean (some b) => .ok ⟨.bool false, .bool b⟩
  | .prim _ none => .ok nullScalar
  | .prim p (some b) => .ok ⟨.prim p false, .prim ⟨p, b⟩⟩
  | .str _ none => .ok nullScalar
  | .str _ (some b) => .ok ⟨.utf8 false, .str b⟩
  | .bin _ none => .ok nullScalar
  | .bin _ (some b) => .ok ⟨.binary true, .buffer b⟩
  | .t32 _ none => .ok nullScalar
  | .t32 k (some v) => ofTemporal k.aType ⟨.i32, v⟩
  | .t64 _ none => .ok nullScalar
  | .t64 k (some v) => ofTemporal k.aType ⟨.i64, v⟩
  | .other _ => .panic

/-- A one-row Arrow array (`Arc<dyn Datum>`): its type and its value. -/
structure Datum where
  ty : AType
  null : Bool
  bits : Nat
  bytes : List UInt8

def Datum.none (t : AType) : Datum := ⟨t, true, 0, []⟩
def Datum.num (t : AType) : Option (BitVec w) → Datum
  | .none => Datum.none t
  | some b => ⟨t, false, b.toNat, []⟩
def Datum.ofBytes (t : AType) : Option (List UInt8) → Datum
  | .none => Datum.none t
  | some b => ⟨t, false, 0, b⟩

/-- The temporal branch: arrow.rs:71-127. The zone is dropped (line 104), bad units are errors. -/
def temporalDatum (m : Meta) (pv : Option PValue) : Res Datum :=
  match m with
  | .time .ns => .ok (.num (.time64 .nano) (pv.bind asI64))
  | .time .us => .ok (.num (.time64 .micro) (pv.bind asI64))
  | .time .ms => .ok (.num (.time32 .milli) (pv.bind asI32))
  | .time .s => .ok (.num (.time32 .second) (pv.bind asI32))
  | .time .d => .err
  | .date .ms => .ok (.num .date64 (pv.bind asI64))
  | .date .d => .ok (.num .date32 (pv.bind asI32))
  | .date _ => .err
  | .timestamp .ns _ => .ok (.num (.timestamp .nano none) (pv.bind asI64))
  | .timestamp .us _ => .ok (.num (.timestamp .micro none) (pv.bind asI64))
  | .timestamp .ms _ => .ok (.num (.timestamp .milli none) (pv.bind asI64))
  | .timestamp .s _ => .ok (.num (.timestamp .second none) (pv.bind asI64))
  | .timestamp .d _ => .err

/-- `TryFrom<&Scalar> for Arc<dyn Datum>`: arrow.rs:20-133. -/
def toDatum (lossy : List UInt8 → String) (ok8 : List UInt8 → Bool) (s : Scalar) : Res Datum :=
  match s.dtype with
  | .null => .ok (.none .null)
  | .bool _ => (asBool s.value).bind (fun b => .ok (.num .boolean (b.map (fun b => BitVec.ofBool b))))
  | .prim p _ => (asPValue s.value).bind (fun
    | none => .ok (.none (.prim p))
    | some v => .ok (.num (.prim v.pt) (some v.bits)))
  | .utf8 _ => (asStr ok8 s.value).bind (fun b => .ok (.ofBytes .utf8View b))
  | .binary _ => (asBuffer s.value).bind (fun b => .ok (.ofBytes .binaryView b))
  | .struct _ _ _ => .panic
  | .list _ _ => .panic
  | .ext id md _ => if isTemporal id then
      (decode lossy id md).bind (fun m => (asPValue s.value).bind (fun pv => temporalDatum m pv))
    else .panic

end Vx.ScalarConv
