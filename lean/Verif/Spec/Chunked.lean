import Verif.Model.Chunked
import Verif.Spec.Rows
/-! # What a chunked array means

Its rows are the rows of its chunks one after the other. The chunks' own operations are required to be right, row by row. -/

namespace Vx.Chunked

/-- The rows of a chunked array. -/
def rows (rowsOf : C → List R) (cs : List C) : List R := cs.flatMap rowsOf

/-- The length recorded for a chunk is its number of rows. -/
def LenLaw (Good : C → Prop) (rowsOf : C → List R) (len : C → Nat) : Prop := ∀ c, Good c → len c = (rowsOf c).length

/-- Slicing a chunk within bounds yields a chunk with exactly the sliced rows. -/
def SliceLaw (Good : C → Prop) (rowsOf : C → List R) (sl : C → Nat → Nat → Res C) : Prop :=
  ∀ c s e, Good c → Spec.InBounds (rowsOf c).length s e → ∃ c', sl c s e = .ok c' ∧ Good c' ∧ rowsOf c' = Spec.slice (rowsOf c) s e

/-- Taking in-range indices (at least one) from a chunk yields a chunk with exactly those rows. -/
def TakeLaw (Good : C → Prop) (rowsOf : C → List R) (tk : C → List Nat → Res C) : Prop :=
  ∀ c is, Good c → is ≠ [] → (∀ i ∈ is, i < (rowsOf c).length) → ∃ c', tk c is = .ok c' ∧ Good c' ∧ rowsOf c' = Spec.take (rowsOf c) is

/-- Filtering a chunk by a mask of its length yields a chunk with exactly the selected rows. -/
def FilterLaw (Good : C → Prop) (rowsOf : C → List R) (fl : C → List Bool → Res C) : Prop :=
  ∀ c m, Good c → m.length = (rowsOf c).length → ∃ c', fl c m = .ok c' ∧ Good c' ∧ rowsOf c' = Spec.filter (rowsOf c) m

/-- Combining a non-empty list of chunks keeps the rows. -/
def CombineLaw (Good : C → Prop) (rowsOf : C → List R) (combine : List C → Res C) : Prop :=
  ∀ cs, cs ≠ [] → (∀ c ∈ cs, Good c) → ∃ c', combine cs = .ok c' ∧ Good c' ∧ rowsOf c' = rows rowsOf cs

end Vx.Chunked
