import Verif.Model.Expr
/-!
# What an expression means on one row
Independent of the columnar evaluator: three-valued semantics of one row. `none` = the expression has no value on such a row
(missing column or ill-typed operands).
-/
namespace Vx.Spec
open Vx.RowExpr

variable {V : Type} [LinearOrder V]

/-- A row: named values. -/
abbrev Row (V : Type) := List (List Char × Val V)

/-- The value of a field of a row. -/
def rowField (r : Row V) : Field → Option (Val V)
  | .name n => (r.find? (fun c => decide (c.1 = n))).map (·.2)
  | .index i => (r[i]?).map (·.2)

/-- The relation a comparison operator stands for. -/
def Rel : Op → V → V → Prop
  | .eq, a, b => a = b
  | .neq, a, b => a ≠ b
  | .gt, a, b => a > b
  | .gte, a, b => a ≥ b
  | .lt, a, b => a < b
  | .lte, a, b => a ≤ b
  | _, _, _ => False

/-- `Holds e r`: the predicate `e` is (definitely) true on row `r`. Comparisons with a null are not true; conjunction is true when
both sides are; disjunction is true when one side is and neither is null (arrow's non-Kleene `or`); bare boolean columns or literals
are true when their value is true. -/
inductive Value (r : Row V) : Expr V → Val V → Prop where
  | col (f : Field) (v : Val V) : rowField r f = some v → Value r (.col f) v
  | lit (v : Val V) : Value r (.lit v) v
  | cmp (l e : Expr V) (op : Op) (t : Nat) (a b : V) (res : Bool) : op.isBool = false → Value r l (.prim t (some a)) →
      Value r e (.prim t (some b)) → (res = true ↔ Rel op a b) → Value r (.bin l op e) (.bool (some res))
  | cmpNull (l e : Expr V) (op : Op) (t : Nat) (a b : Option V) : op.isBool = false → Value r l (.prim t a) →
      Value r e (.prim t b) → (a = none ∨ b = none) → Value r (.bin l op e) (.bool none)
  | cmpBool (l e : Expr V) (op : Op) (a b : Bool) (res : Bool) : op.isBool = false → Value r l (.bool (some a)) →
      Value r e (.bool (some b)) → (res = true ↔ Rel op a b) → Value r (.bin l op e) (.bool (some res))
  | cmpBoolNull (l e : Expr V) (op : Op) (a b : Option Bool) : op.isBool = false → Value r l (.bool a) →
      Value r e (.bool b) → (a = none ∨ b = none) → Value r (.bin l op e) (.bool none)
  | and (l e : Expr V) (a b : Bool) : Value r l (.bool (some a)) → Value r e (.bool (some b)) →
      Value r (.bin l .and e) (.bool (some (a && b)))
  | or (l e : Expr V) (a b : Bool) : Value r l (.bool (some a)) → Value r e (.bool (some b)) →
      Value r (.bin l .or e) (.bool (some (a || b)))
  | logicNull (l e : Expr V) (op : Op) (a b : Option Bool) : op.isBool = true → Value r l (.bool a) → Value r e (.bool b) →
      (a = none ∨ b = none) → Value r (.bin l op e) (.bool none)

/-- The predicate is true on the row. -/
def Holds (r : Row V) (e : Expr V) : Prop := Value r e (.bool (some true))

/-- Row `i` of a batch. -/
def row (b : Batch V) (i : Nat) : Row V := b.cols.filterMap (fun c => (c.2.at i).map (fun v => (c.1, v)))

end Vx.Spec
