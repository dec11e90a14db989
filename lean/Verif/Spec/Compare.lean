import Verif.Model.Compare
/-! # What comparison means -/

namespace Vx.Spec

/-- What an operator says about two values of an ordered type. -/
def opMeans [LT α] [LE α] : Op → α → α → Prop
  | .eq, a, b => a = b
  | .notEq, a, b => a ≠ b
  | .gt, a, b => b < a
  | .gte, a, b => b ≤ a
  | .lt, a, b => a < b
  | .lte, a, b => a ≤ b

/-- A row of a comparison: null if either side is null, else whether the operator holds of the two values. -/
def cmpRow (p : α → α → Bool) : Option α → Option α → Option Bool
  | some a, some b => some (p a b)
  | _, _ => none

/-- Comparing two columns row by row. -/
def cmpRows (p : α → α → Bool) (l r : List (Option α)) : List (Option Bool) := List.zipWith (cmpRow p) l r

end Vx.Spec

namespace Vx

/-- Exchanging the operands exchanges `less` and `greater` (true of integers, strings and IEEE floats alike). -/
def SymCmp (cmp : α → α → Option Ordering) : Prop := ∀ a b, cmp b a = (cmp a b).map Ordering.swap

/-- All comparisons of a type are the same one. True of integers, booleans and byte strings; not of floats. -/
structure Cmps.Agree (c : Cmps α) (cmp : α → α → Option Ordering) : Prop where
  native : c.native = cmp
  arrow : c.arrow = cmp
  scalar : c.scalar = cmp
  scalarEq : ∀ a b, c.scalarEq a b = (cmp a b == some .eq)

namespace CArr

mutual
/-- The rows an array stands for; the chunks one after the other. -/
def rows : CArr α → List (Option α)
  | prim a => a.rows
  | const v _ n => List.replicate n v
  | other a _ => a.rows
  | chunked cs => rowss cs
/-- The rows of the chunks. -/
def rowss : List (CArr α) → List (Option α)
  | [] => []
  | c :: cs => rows c ++ rowss cs
end

/-- Well-formed arrays: validity lengths fit, only nullable constants are null, an array recorded as constant is constant, and a
chunked array has a chunk. -/
inductive Good : CArr α → Prop where
  | prim {a : PArr α} : a.WF → Good (.prim a)
  | const {v : Option α} {nl n} : (v = none → nl = true) → Good (.const v nl n)
  | other {a : PArr α} {k} : a.WF → (k = true → ∀ r ∈ a.rows, ∀ r' ∈ a.rows, r = r') → Good (.other a k)
  | chunked {cs : List (CArr α)} : cs ≠ [] → (∀ c ∈ cs, Good c) → Good (.chunked cs)

/-- Every constant inside (recorded as such) has a type of nullability `b`. -/
inductive ConstNull (b : Bool) : CArr α → Prop where
  | prim {a : PArr α} : ConstNull b (.prim a)
  | const {v : Option α} {n} : ConstNull b (.const v b n)
  | other {a : PArr α} {k} : (k = true → a.validity.nullable = b) → ConstNull b (.other a k)
  | chunked {cs : List (CArr α)} : (∀ c ∈ cs, ConstNull b c) → ConstNull b (.chunked cs)

/-- No constants inside. -/
inductive NoConst : CArr α → Prop where
  | prim {a : PArr α} : NoConst (.prim a)
  | other {a : PArr α} : NoConst (.other a false)
  | chunked {cs : List (CArr α)} : (∀ c ∈ cs, NoConst c) → NoConst (.chunked cs)

end CArr
end Vx
