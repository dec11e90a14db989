import Verif.Basic
import Verif.Spec.Rows
/-! # Validity (vortex-array/src/validity.rs) and the checked entry points of `slice`, `take`, `filter` on plain values -/

namespace Vx

/-- `check_slice_bounds` followed by a physical slice of plain values: vortex-array/src/compute/slice.rs:22-47 with
vortex-array/src/array/bool/compute/slice.rs:7-15 / primitive/compute/slice.rs. -/
def sliceList (xs : List α) (start stop : Nat) : Res (List α) :=
  if start > xs.length then .err
  else if stop > xs.length then .err
  else if start > stop then .err
  else .ok ((xs.drop start).take (stop - start))

/-- `take` on plain values indexes with `values[i]`, i.e. panics out of bounds: vortex-array/src/array/primitive/compute/take.rs
and vortex-array/src/array/bool/compute/take.rs:23-25. -/
def takeList (xs : List α) (indices : List Nat) : Res (List α) := Res.mapM (idx xs) indices

/-- `filter` on plain values: length check of vortex-array/src/compute/filter.rs:33-39, then the arrow kernel
(trusted contract: keeps the rows whose bit is set). -/
def filterList (xs : List α) (mask : List Bool) : Res (List α) :=
  if mask.length ≠ xs.length then .err
  else .ok (((xs.zip mask).filter (fun p => p.2)).map (fun p => p.1))

/-- vortex-array/src/validity.rs:52-63. The child array is modelled by its logical content; a validity child has dtype
`Bool(NonNullable)` (line 67), so its content is a list of booleans. -/
inductive Validity where
  | nonNullable
  | allValid
  | allInvalid
  | array (bits : List Bool)
  deriving DecidableEq, Repr

/-- vortex-array/src/validity.rs:317-322 -/
inductive LogicalValidity where
  | allValid (n : Nat)
  | allInvalid (n : Nat)
  | array (bits : List Bool)
  deriving DecidableEq, Repr

namespace Validity

/-- validity.rs:69-87: the length check performed when a validity is attached to an array. -/
def checkLen (v : Validity) (n : Nat) : Res Unit :=
  match v with
  | array a => if a.length ≠ n then .err else .ok ()
  | _ => .ok ()

/-- validity.rs:105-110: `true` means `Nullable`. -/
def nullable : Validity → Bool
  | nonNullable => false
  | _ => true

/-- validity.rs:112-128; `scalar_at_unchecked` out of bounds is a panic here. -/
def isValid (v : Validity) (i : Nat) : Res Bool :=
  match v with
  | nonNullable | allValid => .ok true
  | allInvalid => .ok false
  | array a => idx a i

/-- validity.rs:135-140 -/
def slice (v : Validity) (start stop : Nat) : Res Validity :=
  match v with
  | array a => do
    let b ← sliceList a start stop
    .ok (array b)
  | v => .ok v

/-- validity.rs:142-149 -/
def take (v : Validity) (indices : List Nat) : Res Validity :=
  match v with
  | nonNullable => .ok nonNullable
  | allValid => .ok allValid
  | allInvalid => .ok allInvalid
  | array a => do
    let b ← takeList a indices
    .ok (array b)

/-- validity.rs:151-158 -/
def filter (v : Validity) (mask : List Bool) : Res Validity :=
  match v with
  | array a => do
    let b ← filterList a mask
    .ok (array b)
  | v => .ok v

/-- Statistics `min`/`max` of a boolean array as used by `to_logical`; an empty array has no statistics
(vortex-array/src/array/bool/stats.rs:13-16, 120-123). -/
def boolMin (a : List Bool) : Option Bool := if a.isEmpty then none else some (a.count true == a.length)
def boolMax (a : List Bool) : Option Bool := if a.isEmpty then none else some (decide (0 < a.count true))

/-- validity.rs:160-181 -/
def toLogical (v : Validity) (n : Nat) : LogicalValidity :=
  match v with
  | nonNullable => .allValid n
  | allValid => .allValid n
  | allInvalid => .allInvalid n
  | array a =>
    if (boolMin a).getD false then .allValid n
    else if ((boolMax a).map (fun m => !m)).getD false then .allInvalid n
    else .array a

/-- `From<BooleanBuffer> for Validity`, validity.rs:259-269. -/
def ofBooleanBuffer (a : List Bool) : Validity :=
  if a.count true = a.length then allValid
  else if a.count true = 0 then allInvalid
  else array a

/-- `From<Vec<bool>> for Validity`, validity.rs:247-257. -/
def ofVec (a : List Bool) : Validity :=
  if a.all (fun b => b) then allValid
  else if !a.any (fun b => b) then allInvalid
  else array a

/-- validity.rs:184-212. `plain` says whether the two validity children are `BoolArray`-encoded: line 201-202
(`BoolArray::try_from`) fails otherwise. arrow's `bitand` panics on different lengths (trusted contract). -/
def and (plain : Bool) (l r : Validity) : Res Validity :=
  match l, r with
  | nonNullable, nonNullable => .ok nonNullable
  | allInvalid, _ | _, allInvalid => .ok allInvalid
  | array a, allValid | array a, nonNullable => .ok (array a)
  | nonNullable, array a | allValid, array a => .ok (array a)
  | nonNullable, allValid | allValid, nonNullable | allValid, allValid => .ok allValid
  | array a, array b =>
    if !plain then .err
    else if a.length ≠ b.length then .panic
    else .ok (ofBooleanBuffer (List.zipWith (fun x y => x && y) a b))

/-- validity.rs:215-220 -/
def intoNullable : Validity → Validity
  | nonNullable => allValid
  | v => v

end Validity

namespace LogicalValidity

/-- validity.rs:377-383 -/
def intoValidity : LogicalValidity → Validity
  | allValid _ => .allValid
  | allInvalid _ => .allInvalid
  | array a => .array a

/-- validity.rs:361-367 -/
def len : LogicalValidity → Nat
  | allValid n => n
  | allInvalid n => n
  | array a => a.length

/-- validity.rs:394-402 -/
def intoBools : LogicalValidity → List Bool
  | allValid n => List.replicate n true
  | allInvalid n => List.replicate n false
  | array a => a

def isAllValid : LogicalValidity → Bool
  | allValid _ => true
  | _ => false

def isAllInvalid : LogicalValidity → Bool
  | allInvalid _ => true
  | _ => false

/-- `try_new_from_array`, validity.rs:325-341, for a non-nullable boolean array whose true count is available. -/
def ofBools (a : List Bool) : LogicalValidity :=
  if a.count true = a.length then allValid a.length
  else if a.count true = 0 then allInvalid a.length
  else array a

/-- `FromIterator<LogicalValidity> for Validity`, validity.rs:277-308. -/
def collect (vs : List LogicalValidity) : Validity :=
  if vs.all isAllValid then .allValid
  else if vs.all isAllInvalid then .allInvalid
  else .array (vs.flatMap intoBools)

end LogicalValidity

end Vx
