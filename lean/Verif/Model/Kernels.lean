import Verif.Model.Scalar
import Verif.Model.Stats
import Verif.Model.Patch
/-!
# Kernels of primitive and boolean arrays

vortex-array/src/array/primitive/compute/{cast,fill,subtract_scalar}.rs, array/bool/compute/fill.rs and the wrappers in vortex-array/src/compute/unary.
A primitive array of type `p` holds `BitVec p.bits`; its dtype is nullable iff its validity is not `NonNullable` (validity.rs:96-103).
-/
namespace Vx.Kernels

/-- Primitive arrays of one type. -/
abbrev NArr (p : PType) := PArr (BitVec p.bits)

/-- `validity.nullability()`: validity.rs:96-103 -/
def nullable (v : Validity) : Bool := match v with
  | .nonNullable => false
  | _ => true

/-- `to_logical(len).all_valid()`: validity.rs:353-355 -/
def allValid (v : Validity) (n : Nat) : Bool := match v.toLogical n with
  | .allValid _ => true
  | _ => false

/-! ## cast -/

/-- `T::from(v)` (`num_traits::NumCast`) from type `p` to type `q`, array/primitive/compute/cast.rs:53-57. Conversions from or to floats are trusted
functions (`FloatOps`). -/
def castElem (F : FloatOps) (p q : PType) (x : BitVec p.bits) : Res (BitVec q.bits) :=
  let toInt := fun v : Int => if q.inRange v then Res.ok (BitVec.ofInt q.bits v) else .err
  match p.isFloat, q.isFloat with
  | false, false => toInt (PValue.toInt ⟨p, x⟩)
  | false, true => .ok (F.i2f q (PValue.toInt ⟨p, x⟩))
  | true, false => match F.trunc p x with
    | some v => toInt v
    | none => .err
  | true, true => .ok (F.f2f p q x)

/-- The validity of the result: array/primitive/compute/cast.rs:17-33 -/
def castValidity (v : Validity) (n : Nat) (nl : Bool) : Res Validity :=
  if nullable v = nl then .ok v
  else if nl then .ok v.intoNullable
  else if allValid v n then .ok .nonNullable
  else .err

/-- The values: cast.rs:35-46. All stored values are converted, those under nulls too. -/
def castVals (F : FloatOps) (p q : PType) (vals : List (BitVec p.bits)) : Res (List (BitVec q.bits)) :=
  if h : p = q then .ok (vals.map (BitVec.cast (by rw [h]))) else Res.mapM (castElem F p q) vals

/-- `try_cast(array, Primitive(q, nl))`: compute/unary/cast.rs:13-27 (the shortcut for an unchanged dtype returns the array itself, as does
the general path) and array/primitive/compute/cast.rs:10-47. -/
def cast (F : FloatOps) (p q : PType) (nl : Bool) (a : NArr p) : Res (NArr q) := do
  let v ← castValidity a.validity a.len nl
  let vals ← castVals F p q a.vals
  .ok ⟨vals, v⟩

/-! ## fill_forward -/

/-- The closure of array/primitive/compute/fill.rs:35-44 with its captured `last_value`. -/
def fillLoop (last : α) : List (α × Bool) → List α
  | [] => []
  | (v, valid) :: rest => if valid then v :: fillLoop v rest else last :: fillLoop last rest

/-- `fill_forward`: array/primitive/compute/fill.rs:10-49 and array/bool/compute/fill.rs:10-49; `dflt` is `T::default()` or `false`. -/
def fillForward (dflt : α) (a : PArr α) : PArr α :=
  if nullable a.validity = false then a
  else match a.validity.toLogical a.len with
    | .allValid _ => ⟨a.vals, .allValid⟩
    | .allInvalid _ => ⟨List.replicate a.len dflt, .allValid⟩
    | .array m => ⟨fillLoop dflt (a.vals.zip m), .allValid⟩

/-! ## subtract_scalar -/

/-- What `subtract_scalar` returns: a primitive array, or a constant array of nulls. -/
inductive SubOut (w : Nat)
  | arr (a : PArr (BitVec w))
  | nulls (n : Nat)

/-- The rows of the result. -/
def SubOut.rows {w : Nat} : SubOut w → List (Option (BitVec w))
  | .arr a => a.rows
  | .nulls n => List.replicate n none

/-- Is the result's dtype nullable? A constant array of nulls has the dtype of the array it was made from, which has nulls. -/
def SubOut.nullable {w : Nat} : SubOut w → Bool
  | .arr a => Kernels.nullable a.validity
  | .nulls _ => true

/-- Plain `v - y` on the integer type: subtract_scalar.rs:69. With overflow checks (debug builds) an overflow panics, without it wraps. -/
def subPlain (checks signed : Bool) {w : Nat} (x y : BitVec w) : Res (BitVec w) :=
  let r := intKey signed x - intKey signed y
  let fits := if signed then decide (-(2 ^ (w - 1) : Int) ≤ r ∧ r < 2 ^ (w - 1)) else decide (0 ≤ r ∧ r < 2 ^ w)
  if checks && !fits then .panic else .ok (x - y)

/-- `subtract_scalar_integer`: subtract_scalar.rs:47-74 -/
def subtractInt (checks signed : Bool) {w : Nat} (a : PArr (BitVec w)) (y : BitVec w) : Res (PArr (BitVec w)) :=
  if y = 0 then .ok a
  else if !allValid a.validity a.len then .ok ⟨a.vals.map fun v => v - y, a.validity⟩
  else do
    let vs ← Res.mapM (fun v => subPlain checks signed v y) a.vals
    .ok ⟨vs, .nonNullable⟩

/-- The scalar's dtype: number type and nullability; its value may be null. -/
structure Sub (p : PType) where
  nl : Bool
  value : Option (BitVec p.bits)

/-- `subtract_scalar` on a primitive array with a scalar of the same number type (otherwise the dtypes differ and line 13 fails):
subtract_scalar.rs:12-44. `fsub` is the float subtraction of type `p`. -/
def subtractScalar (checks : Bool) (p : PType) (fsub : BitVec p.bits → BitVec p.bits → BitVec p.bits) (a : NArr p) (s : Sub p) :
    Res (SubOut p.bits) :=
  if nullable a.validity ≠ s.nl then .err else
  match a.validity.toLogical a.len with
  | .allInvalid _ => .ok (.nulls a.len)
  | _ =>
    match s.value with
    | none => .err
    | some y =>
      if p.isFloat then .ok (.arr ⟨a.vals.map fun v => fsub v y, .nonNullable⟩)
      else do
        let r ← subtractInt checks p.isSigned a y
        .ok (.arr r)

end Vx.Kernels
