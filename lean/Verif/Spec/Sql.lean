import Verif.Model.DataFusion
/-!
# What a filter means in SQL, on one row

Three-valued logic: a comparison with a null is unknown; `false AND x` is false and `true OR x` is true whatever `x` is. `none` = the
expression has no value on such a row (unknown column, operands of different types, other expressions).
-/
namespace Vx.DF

/-- A SQL value: typed, possibly null; `null` is the untyped null. -/
inductive SqlV (V : Type) where
  | prim (ty : Nat) (v : Option V)
  | bool (b : Option Bool)
  | null
  deriving DecidableEq, Repr

variable {V : Type} [LinearOrder V]

/-- The relation of a comparison operator. -/
def rel : DOp → V → V → Option Bool
  | .eq, a, b => some (decide (a = b))
  | .notEq, a, b => some (decide (a ≠ b))
  | .gt, a, b => some (decide (a > b))
  | .gtEq, a, b => some (decide (a ≥ b))
  | .lt, a, b => some (decide (a < b))
  | .ltEq, a, b => some (decide (a ≤ b))
  | _, _, _ => none

/-- Unknown if either side is. -/
def cmp3 (op : DOp) : Option V → Option V → Option Bool
  | some a, some b => rel op a b
  | _, _ => none

def and3 : Option Bool → Option Bool → Option Bool
  | some false, _ => some false
  | _, some false => some false
  | some true, some true => some true
  | _, _ => none

def or3 : Option Bool → Option Bool → Option Bool
  | some true, _ => some true
  | _, some true => some true
  | some false, some false => some false
  | _, _ => none

def isCmp : DOp → Bool
  | .eq | .notEq | .gt | .gtEq | .lt | .ltEq => true
  | _ => false

/-- A binary operator on two values. -/
def sqlOp (op : DOp) (l r : SqlV V) : Option (SqlV V) :=
  match op, l, r with
  | .and, .bool a, .bool b => some (.bool (and3 a b))
  | .or, .bool a, .bool b => some (.bool (or3 a b))
  | op, .prim t a, .prim u b => if isCmp op && t == u then some (.bool (cmp3 op a b)) else none
  | op, .bool a, .bool b => if isCmp op then some (.bool (cmp3 op a b)) else none
  | op, .null, _ => if isCmp op then some (.bool none) else none
  | op, _, .null => if isCmp op then some (.bool none) else none
  | _, _, _ => none

/-- The value of a literal. -/
def Lit.sql : Lit V → SqlV V
  | .null => .null
  | .bool b => .bool b
  | .prim t v => .prim t v

/-- The value of an expression on a row. -/
def sql (row : List Char → Option (SqlV V)) : DExpr V → Option (SqlV V)
  | .col n => row n
  | .lit v => some v.sql
  | .bin l op r =>
    match sql row l, sql row r with
    | some a, some b => sqlOp op a b
    | _, _ => none
  | .other _ => none

/-- The value of column `c` in row `i`. -/
def RCol.at (c : RCol V) (i : Nat) : Option (SqlV V) :=
  match c with
  | .prims t vs => (vs[i]?).map (fun x => .prim t (if x.2 then some x.1 else none))
  | .bools bs => (bs[i]?).map (fun x => .bool (if x.2 then some x.1 else none))
  | .nulls n => if i < n then some .null else none

/-- Row `i` of a chunk. -/
def Chunk.row (c : Chunk V) (i : Nat) : List Char → Option (SqlV V) := fun n =>
  match c.cols.find? (fun x => decide (x.1 = n)) with
  | some x => x.2.at i
  | none => none

/-- The columns an expression mentions. -/
def DExpr.cols : DExpr V → List (List Char)
  | .col n => [n]
  | .bin l _ r => l.cols ++ r.cols
  | _ => []

/-- `b` consists of the rows `sel` of `c`, columns `proj`. -/
def IsSelection (c : Chunk V) (proj sel : List Nat) (b : Chunk V) : Prop :=
  b.n = sel.length ∧ b.cols.length = proj.length ∧
  ∀ (k j : Nat), proj[k]? = some j → ∃ (x y : List Char × RCol V), c.cols[j]? = some x ∧ b.cols[k]? = some y ∧ y.1 = x.1 ∧ y.2.len = sel.length ∧
    ∀ (m i : Nat), sel[m]? = some i → y.2.at m = x.2.at i

/-- Types of expressions: a primitive type (by its tag) or boolean. -/
inductive Ty where
  | prim (t : Nat)
  | bool
  deriving DecidableEq, Repr

/-- Well-typed expressions over columns of the given types, without null literals. -/
inductive Typed (Γ : List Char → Option Ty) : DExpr V → Ty → Prop where
  | col (n : List Char) (τ : Ty) : Γ n = some τ → Typed Γ (.col n) τ
  | litPrim (t : Nat) (v : V) : Typed Γ (.lit (.prim t (some v))) (.prim t)
  | litBool (b : Bool) : Typed Γ (.lit (.bool (some b))) .bool
  | cmp (l : DExpr V) (op : DOp) (r : DExpr V) (τ : Ty) : isCmp op = true → Typed Γ l τ → Typed Γ r τ → Typed Γ (.bin l op r) .bool
  | logic (l : DExpr V) (op : DOp) (r : DExpr V) : op = .and ∨ op = .or → Typed Γ l .bool → Typed Γ r .bool → Typed Γ (.bin l op r) .bool

/-- The chunk has the columns of `Γ`, with these types. -/
def Conforms (Γ : List Char → Option Ty) (c : Chunk V) : Prop :=
  ∀ n τ, Γ n = some τ → ∃ x, (c.cols.find? (fun x => decide (x.1 = n))).map (·.2) = some x ∧
    match τ with
    | .prim t => ∃ vs, x = .prims t vs
    | .bool => ∃ bs, x = .bools bs

end Vx.DF
