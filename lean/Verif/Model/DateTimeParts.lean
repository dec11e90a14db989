import Verif.Model.Primitive
/-! # Date-time parts encoding (encodings/datetime-parts/src) -/

namespace Vx.DateTimeParts

/-- vortex-datetime-dtype `TimeUnit`. -/
inductive TimeUnit where
  | ns | us | ms | s | d
  deriving DecidableEq, Repr

/-- The values of an `i64`. -/
def IsI64 (x : Int) : Prop := -9223372036854775808 ≤ x ∧ x ≤ 9223372036854775807

instance (x : Int) : Decidable (IsI64 x) := inferInstanceAs (Decidable (_ ∧ _))

/-- An `i64` operation whose exact result is `x`: overflow is a panic in a debug build (a release build wraps; the theorems show
that no overflow happens, so both agree). -/
def chk (x : Int) : Res Int := if IsI64 x then .ok x else .panic

def mulI (a b : Int) : Res Int := chk (a * b)
def addI (a b : Int) : Res Int := chk (a + b)

/-- The `match` on the time unit in compress.rs:32-38, compute.rs:67-73 and compute.rs:104-110. -/
def divisor : TimeUnit → Res Int
  | .ns => .ok 1000000000
  | .us => .ok 1000000
  | .ms => .ok 1000
  | .s => .ok 1
  | .d => .err

/-- The loop body of compress.rs:45-49. Rust `/` and `%` on `i64` truncate towards zero; the divisors are positive constants, so
neither can overflow or divide by zero. -/
def split1 (div t : Int) : Res (Int × Int × Int) := do
  let day ← mulI 86400 div
  .ok (t.tdiv day, (t.tmod day).tdiv div, (t.tmod day).tmod div)

/-- `TemporalParts` (compress.rs:8-12). -/
structure Parts where
  days : PArr Int
  seconds : PArr Int
  subseconds : PArr Int
  deriving DecidableEq, Repr

/-- `split_temporal` (compress.rs:18-56) on storage already cast to `i64` (`try_cast` of an integer column to I64 keeps values and
validity). Also splits the values under nulls. -/
def splitTemporal (unit : TimeUnit) (ts : PArr Int) : Res Parts := do
  let div ← divisor unit
  let ps ← Res.mapM (split1 div) ts.vals
  .ok ⟨⟨ps.map (·.1), ts.validity⟩, ⟨ps.map (·.2.1), .nonNullable⟩, ⟨ps.map (·.2.2), .nonNullable⟩⟩

/-- `DateTimePartsArray`: dtype reduced to the unit and the nullability (array.rs:33-75). Child ptypes are fixed to i64. -/
structure Arr where
  unit : TimeUnit
  nullable : Bool
  days : PArr Int
  seconds : PArr Int
  subsecond : PArr Int
  deriving DecidableEq, Repr

/-- `DateTimePartsArray::try_new` (array.rs:34-75). -/
def tryNew (unit : TimeUnit) (nullable : Bool) (days seconds subsecond : PArr Int) : Res Arr := do
  Res.guard (nullable == days.validity.nullable)
  Res.guard (!seconds.validity.nullable)
  Res.guard (!subsecond.validity.nullable)
  Res.guard (days.len == seconds.len && days.len == subsecond.len)
  .ok ⟨unit, nullable, days, seconds, subsecond⟩

/-- `DateTimePartsArray::validity` (array.rs:100-108). -/
def validity (a : Arr) : Validity :=
  if a.nullable then (a.days.validity.toLogical a.days.len).intoValidity else .nonNullable

/-- `slice` (compute.rs:39-49) with the bounds check of the entry point (vortex-array/src/compute/slice.rs:22-47) made by the child. -/
def slice (a : Arr) (s e : Nat) : Res Arr := do
  let d ← a.days.slice s e
  let sec ← a.seconds.slice s e
  let sub ← a.subsecond.slice s e
  tryNew a.unit a.nullable d sec sub

/-- `take` (compute.rs:27-37). -/
def take (a : Arr) (is : List Nat) : Res Arr := do
  let d ← a.days.take is
  let sec ← a.seconds.take is
  let sub ← a.subsecond.take is
  tryNew a.unit a.nullable d sec sub

/-- `days * 86_400 * divisor + seconds * divisor + subseconds` (compute.rs:79, :121), each `i64` operation checked. -/
def combine (div d s ss : Int) : Res Int := do
  let a ← mulI d 86400
  let b ← mulI a div
  let c ← mulI s div
  let e ← addI b c
  addI e ss

/-- `scalar.try_into::<i64>()` errors on a null scalar (vortex-scalar/src/primitive.rs). -/
def asI64 : Option Int → Res Int := Res.ofOption

/-- `scalar_at` (compute.rs:51-85) behind the entry-point bounds check. -/
def scalarAt (a : Arr) (i : Nat) : Res (Option Int) :=
  if i ≥ a.days.len then .err else do
    let v ← (validity a).isValid i
    if !v then .ok none else do
      let div ← divisor a.unit
      let d ← a.days.scalarAt i
      let d ← asI64 d
      let s ← a.seconds.scalarAt i
      let s ← asI64 s
      let ss ← a.subsecond.scalarAt i
      let ss ← asI64 ss
      let r ← combine div d s ss
      .ok (some r)

/-- `zip_eq` of the three buffers (compute.rs:116-120): lengths that differ are a panic. -/
def zip3 : List Int → List Int → List Int → Res (List (Int × Int × Int))
  | [], [], [] => .ok []
  | d :: ds, s :: ss, u :: us => do
    let r ← zip3 ds ss us
    .ok ((d, s, u) :: r)
  | _, _, _ => .panic

/-- `decode_to_temporal` / `into_canonical` (compute.rs:95-129): also recombines the values under nulls. -/
def decode (a : Arr) : Res (PArr Int) := do
  let div ← divisor a.unit
  let z ← zip3 a.days.vals a.seconds.vals a.subsecond.vals
  let vs ← Res.mapM (fun p => combine div p.1 p.2.1 p.2.2) z
  .ok ⟨vs, validity a⟩

/-- The column as the compressor builds it: split, then `try_new` with the column's nullability
(sampling-compressor/src/compressors/date_time_parts.rs:41-75). -/
def encode (unit : TimeUnit) (ts : PArr Int) : Res Arr := do
  let p ← splitTemporal unit ts
  tryNew unit ts.validity.nullable p.days p.seconds p.subseconds

end Vx.DateTimeParts
