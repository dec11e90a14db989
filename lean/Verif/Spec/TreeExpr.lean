import Verif.Model.TreeExpr
import Verif.Spec.TreeCompare
import Verif.Spec.FilterBy
/-!
# What an expression means on a row of a table of encoded columns, and for which expressions it is claimed
-/
namespace Vx.Tree
open RowExpr (Field)

/-- `and` / `or` of two rows, as arrow has it: null if either is null. -/
def boolRow (both : Bool) (x y : SV) : SV :=
  match x, y with
  | .bool a, .bool b => .bool (if both then a && b else a || b)
  | _, _ => .null

/-- What a binary operator does to two values. -/
def opValue (op : RowExpr.Op) (x y : SV) : SV :=
  match op with
  | .eq => opRow .eq x y
  | .neq => opRow .notEq x y
  | .gt => opRow .gt x y
  | .gte => opRow .gte x y
  | .lt => opRow .lt x y
  | .lte => opRow .lte x y
  | .and => boolRow true x y
  | .or => boolRow false x y

/-- The value of an expression on a row, `get` giving the fields of the row. -/
def TExpr.value (get : Field → SV) : TExpr → SV
  | .col f => get f
  | .lit _ x => x
  | .bin l op r => opValue op (l.value get) (r.value get)

/-- The expression is true on the row. -/
def TExpr.holds (get : Field → SV) (e : TExpr) : Bool :=
  match e.value get with
  | .bool true => true
  | _ => false

/-- The column a field names: the first of that name, or the one at that index. -/
def pickCol (names : List Str) (cols : List α) : Field → Option α
  | .name n => (DType.findName names n).bind (fun i => cols[i]?)
  | .index i => cols[i]?

section
variable (env : CEnv L) (leafRows : L → List SV) (ok : L → Prop)

/-- The value of a field in row `i` (null if there is no such field or row). -/
def cell (names : List Str) (cols : List (Arr L)) (i : Nat) (f : Field) : SV :=
  match pickCol names cols f with
  | some c => ((rows env.toEnv leafRows c)[i]?).getD .null
  | none => .null

/-- On which of the `n` rows the expression is true. -/
def selected (names : List Str) (cols : List (Arr L)) (n : Nat) (e : TExpr) : List Bool :=
  (List.range n).map (fun i => e.holds (cell env leafRows names cols i))

/-- A column or a literal. -/
def TExpr.atom : TExpr → Bool
  | .bin _ _ _ => false
  | _ => true

/-- The expressions the claim is made for: columns and literals are compared with each other (`Comparable`, see `Spec/TreeCompare`), and comparisons,
decodable boolean columns and literals are combined with `and` and `or` to any depth. -/
def Claimed (batch : Arr L) : TExpr → Prop
  | .bin l op r =>
    match cmpOp op with
    | some o => l.atom = true ∧ r.atom = true ∧ ∀ a b, l.eval env batch = .ok a → r.eval env batch = .ok b → Comparable env leafRows ok o a b
    | none => Claimed batch l ∧ Claimed batch r
  | e => ∀ a, e.eval env batch = .ok a → WF env.toEnv leafRows ok a ∧ Nice env.toEnv leafRows a

/-- The cached true counts are true. -/
def HonestCounts (cached : Arr L → Option Nat) : Prop :=
  ∀ a n, cached a = some n → n = (rows env.toEnv leafRows a).countP isTrue

/-- The true count of the first conjunct can be computed, if there are more conjuncts. -/
def Countable (cached : Arr L → Option Nat) (batch : Arr L) (e : TExpr) : Prop :=
  ∀ c d cs m, e.split = c :: d :: cs → c.eval env batch = .ok m →
    (tcount env cached m).isSome = true ∨ ∀ r ∈ rows env.toEnv leafRows m, isTrue r = false

end
end Vx.Tree
