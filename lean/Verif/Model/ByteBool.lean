import Verif.Model.Primitive
/-! # Byte-per-boolean encoding (encodings/bytebool/src) -/

namespace Vx.ByteBool

/-- `ByteBoolArray`: one byte per row plus validity (array.rs:16-56). -/
structure Arr where
  bytes : List (BitVec 8)
  validity : Validity
  deriving DecidableEq, Repr

/-- `try_new` (array.rs:39-55): the validity must fit the buffer (`Validity::to_metadata`, vortex-array/src/validity.rs:69-87);
the bytes are not checked. -/
def tryNew (bytes : List (BitVec 8)) (v : Validity) : Res Arr := do
  v.checkLen bytes.length
  .ok ⟨bytes, v⟩

/-- `try_from_vec` (array.rs:57-71): a Rust `bool` is stored as the byte 0 or 1. -/
def tryFromVec (bs : List Bool) (v : Validity) : Res Arr := tryNew (bs.map fun b => if b then 1 else 0) v

/-- `.vortex_expect(..)` on a result. -/
def expect : Res α → Res α
  | .ok a => .ok a
  | _ => .panic

/-- `From<Vec<bool>>` (array.rs:104-109). -/
def fromBools (bs : List Bool) : Res Arr := expect (tryFromVec bs .allValid)

/-- `From<Vec<Option<bool>>>` (array.rs:111-124). -/
def fromOpts (os : List (Option Bool)) : Res Arr :=
  expect (tryFromVec (os.map (·.getD false)) (Validity.ofVec (os.map Option.isSome)))

/-- `maybe_null_slice` (array.rs:79-82): the buffer transmuted to `&[bool]`. A byte other than 0 and 1 is undefined behaviour in Rust;
the model reads it as "not zero" and the theorems assume bytes 0 or 1. -/
def bools (a : Arr) : List Bool := a.bytes.map (fun b => b != 0)

/-- `into_canonical` (array.rs:126-133). -/
def intoCanonical (a : Arr) : Res (PArr Bool) := do
  a.validity.checkLen a.bytes.length
  .ok ⟨bools a, a.validity⟩

/-- `scalar_at` (compute.rs:30-38) behind the entry point (vortex-array/src/compute/unary/scalar_at.rs:12-27). -/
def scalarAt (a : Arr) (i : Nat) : Res (Option Bool) :=
  if i ≥ a.bytes.length then .err else do
    let v ← a.validity.isValid i
    if !v then .ok none else do
      let b ← idx a.bytes i
      .ok (some (b == 1))

/-- `slice` (compute.rs:40-48) behind the entry-point bounds check. -/
def slice (a : Arr) (s e : Nat) : Res Arr := do
  let bs ← sliceList a.bytes s e
  let v ← a.validity.slice s e
  tryNew bs v

/-- The element of the `Validity::Array` arm of `take` (compute.rs:73-81). -/
def takeOpt (a : Arr) (i : Nat) : Res (Option Bool) := do
  let v ← a.validity.isValid i
  if v then do
    let b ← idx (bools a) i
    .ok (some b)
  else .ok none

/-- `take` (compute.rs:50-91). -/
def take (a : Arr) (is : List Nat) : Res Arr :=
  match a.validity with
  | .allValid | .nonNullable => do
    let bs ← takeList (bools a) is
    fromBools bs
  | .allInvalid => fromOpts (List.replicate is.length none)
  | .array _ => do
    let os ← Res.mapM (takeOpt a) is
    fromOpts os

end Vx.ByteBool
