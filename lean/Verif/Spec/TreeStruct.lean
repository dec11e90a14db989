import Verif.Model.TreeStruct
import Verif.Spec.Tree
/-!
# Struct projection on rows

A struct row is a null or a list with one value per field. Selecting columns keeps nulls null and picks the values of the selected fields.
-/
namespace Vx.Tree
open RowExpr (Field)

/-- The field reference `f` stands for column `i`: the first column of that name, or the column of that index. -/
def Picks (names : List Str) : Field → Nat → Prop
  | .name n, i => names[i]? = some n ∧ ∀ j : Nat, j < i → names[j]? ≠ some n
  | .index k, i => i = k ∧ k < names.length

/-- Select columns `is` of a struct row. -/
def pickRow (is : List Nat) : SV → SV
  | .list xs => .list (is.map (fun i => xs[i]?.getD .null))
  | _ => .null

section
variable (env : Env L)

/-- A struct scalar of the type: null, or one value per field. -/
def StructValue (ds : List DType) (x : SV) : Prop := x = .null ∨ ∃ xs, x = .list xs ∧ xs.length = ds.length

mutual
/-- The arrays that are struct arrays: struct-encoded, or chunks, a constant, or a sparse array of struct type. -/
def StructShaped : Arr L → Prop
  | .struct _ _ _ _ => True
  | .chunked dt cs => (∃ names ds nl, dt = .struct names ds nl ∧ names.length = ds.length) ∧ StructShapeds cs
  | .const dt x _ => ∃ names ds nl, dt = .struct names ds nl ∧ names.length = ds.length ∧ StructValue ds x
  | .sparse _ values _ _ fill => StructShaped values ∧ ∃ names ds nl, dtype env values = .struct names ds nl ∧ StructValue ds fill
  | _ => False
def StructShapeds : List (Arr L) → Prop
  | [] => True
  | c :: cs => StructShaped c ∧ StructShapeds cs
end

end
end Vx.Tree
