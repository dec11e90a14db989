import Verif.Model.Validity
import Verif.Spec.Validity
/-! # Primitive arrays: stored values plus validity (vortex-array/src/array/primitive/mod.rs) -/

namespace Vx

/-- A primitive array: the values buffer and the validity (vortex-array/src/array/primitive/mod.rs:53-74). Values under null
rows are present but meaningless. The element type is a parameter: `BitVec w` for integers and float bit patterns. -/
structure PArr (α : Type) where
  vals : List α
  validity : Validity
  deriving DecidableEq, Repr

namespace PArr

def len (a : PArr α) : Nat := a.vals.length

/-- Constructor invariant: the validity fits the values (`Validity::to_metadata` length check, validity.rs:69-87). -/
def WF (a : PArr α) : Prop := Spec.FitsLen a.validity a.vals.length

instance (a : PArr α) : Decidable a.WF := inferInstanceAs (Decidable (Spec.FitsLen _ _))

/-- What a user sees: one optional value per row. -/
def rows (a : PArr α) : List (Option α) := Spec.rows a.vals (Spec.mask a.vals.length a.validity)

/-- `from_vec` after mapping the physical values (also those under nulls), keeping the validity. -/
def map (f : α → β) (a : PArr α) : PArr β := ⟨a.vals.map f, a.validity⟩

/-- Checked `scalar_at` on a primitive array: vortex-array/src/compute/unary/scalar_at.rs:12-27 and
array/primitive/compute/scalar_at.rs:10-18. -/
def scalarAt (a : PArr α) (i : Nat) : Res (Option α) :=
  if i ≥ a.len then .err else do
    let v ← a.validity.isValid i
    if !v then .ok none else do
      let x ← idx a.vals i
      .ok (some x)

/-- array/primitive/compute/slice.rs:7-16 behind the bounds check of compute/slice.rs:22-47 -/
def slice (a : PArr α) (s e : Nat) : Res (PArr α) := do
  let xs ← sliceList a.vals s e
  let v ← a.validity.slice s e
  .ok ⟨xs, v⟩

/-- array/primitive/compute/take.rs:9-33: values indexed with `array[idx]` (panic out of bounds). -/
def take (a : PArr α) (is : List Nat) : Res (PArr α) := do
  let v ← a.validity.take is
  let xs ← takeList a.vals is
  .ok ⟨xs, v⟩

/-- `filter` on a primitive array goes through arrow (vortex-array/src/compute/filter.rs:26-52: `PrimitiveArray` does not register
`FilterFn`, array/primitive/compute/mod.rs:18-50); trusted contract of the arrow kernel: selects values and validity. -/
def filter (a : PArr α) (m : List Bool) : Res (PArr α) := do
  let v ← a.validity.filter m
  let xs ← filterList a.vals m
  .ok ⟨xs, v⟩

end PArr
end Vx
