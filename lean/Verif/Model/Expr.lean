import Verif.Model.Primitive
import Mathlib.Data.Bool.Basic
/-!
# Expressions, conjunction splitting and row filters
vortex-expr/src/{lib,binary,column,literal,operators}.rs, vortex-serde/src/layouts/read/filtering.rs,
vortex-serde/src/layouts/read/mod.rs:74-86.

Not modelled: `Select` and `Identity` (they do not produce predicates); columns are typed lists of optional values (the compare and
boolean kernels on encoded arrays are the subject of `Model/Compare.lean`). A primitive column carries a type tag; comparing columns of
different types is an error.
-/
namespace Vx.RowExpr

/-- vortex-expr/src/operators.rs:6-18 -/
inductive Op where
  | eq | neq | gt | gte | lt | lte | and | or
  deriving DecidableEq, Repr

/-- vortex-expr/src/operators.rs:36-47 -/
def Op.inverse : Op → Option Op
  | .eq => some .neq
  | .neq => some .eq
  | .gt => some .lte
  | .gte => some .lt
  | .lt => some .gte
  | .lte => some .gt
  | .and | .or => none

/-- vortex-expr/src/operators.rs:50-61 -/
def Op.swap : Op → Op
  | .eq => .eq
  | .neq => .neq
  | .gt => .lt
  | .gte => .lte
  | .lt => .gt
  | .lte => .gte
  | .and => .and
  | .or => .or

/-- vortex-dtype/src/field.rs: `Field::Name` / `Field::Index` -/
inductive Field where
  | name (n : List Char)
  | index (i : Nat)
  deriving DecidableEq, Repr

/-- A scalar: a nullable primitive value of the type with tag `ty`, or a nullable boolean. -/
inductive Val (V : Type) where
  | prim (ty : Nat) (v : Option V)
  | bool (b : Option Bool)
  deriving DecidableEq, Repr

/-- A column: all its values have one type. -/
inductive Col (V : Type) where
  | prims (ty : Nat) (vs : List (Option V))
  | bools (bs : List (Option Bool))
  deriving DecidableEq, Repr

/-- vortex-expr/src/{column,literal,binary}.rs -/
inductive Expr (V : Type) where
  | col (f : Field)
  | lit (v : Val V)
  | bin (l : Expr V) (op : Op) (r : Expr V)
  deriving DecidableEq, Repr

variable {V : Type}

def Col.len : Col V → Nat
  | .prims _ vs => vs.length
  | .bools bs => bs.length

/-- The value of row `i`. -/
def Col.at (c : Col V) (i : Nat) : Option (Val V) :=
  match c with
  | .prims ty vs => (vs[i]?).map (.prim ty)
  | .bools bs => (bs[i]?).map .bool

/-- A struct batch: `n` rows, named columns. -/
structure Batch (V : Type) where
  n : Nat
  cols : List (List Char × Col V)
  deriving DecidableEq, Repr

/-- Every column has `n` rows (checked by `StructArray::try_new`). -/
def Batch.WF (b : Batch V) : Prop := ∀ c ∈ b.cols, c.2.len = b.n

/-- Position of a name: the first column called so. vortex-array/src/variants.rs:226-237 (`names().iter().position(..)`). -/
def findName {α : Type} (n : List Char) : List (List Char × α) → Option α
  | [] => none
  | c :: cs => if c.1 = n then some c.2 else findName n cs

/-- `field_by_name` / `field`: vortex-array/src/array/struct_/mod.rs, variants.rs:226-237; a missing field is an error
(vortex-expr/src/column.rs:45-53). -/
def lookup {α : Type} (cols : List (List Char × α)) : Field → Res α
  | .name n => Res.ofOption (findName n cols)
  | .index i => Res.ofOption ((cols[i]?).map (·.2))

/-- `ConstantArray::new(value, n)`: vortex-expr/src/literal.rs:25-27 -/
def Val.const (v : Val V) (n : Nat) : Col V :=
  match v with
  | .prim ty x => .prims ty (List.replicate n x)
  | .bool b => .bools (List.replicate n b)

/-- Comparison of two non-null values; on booleans `false < true` (arrow `cmp` kernels). Boolean operators do not reach here. -/
def cmpV [LinearOrder V] : Op → V → V → Bool
  | .eq, a, b => decide (a = b)
  | .neq, a, b => decide (a ≠ b)
  | .gt, a, b => decide (b < a)
  | .gte, a, b => decide (b ≤ a)
  | .lt, a, b => decide (a < b)
  | .lte, a, b => decide (a ≤ b)
  | _, _, _ => false

/-- Comparison of nullable values: null if either is null. -/
def cmpO [LinearOrder V] (op : Op) : Option V → Option V → Option Bool
  | some a, some b => some (cmpV op a b)
  | _, _ => none

/-- arrow `and` / `or` (not the Kleene variants, vortex-array/src/compute/boolean.rs): null if either is null. -/
def boolO (op : Op) : Option Bool → Option Bool → Option Bool
  | some a, some b => some (if op = .and then a && b else a || b)
  | _, _ => none

def Op.isBool : Op → Bool
  | .and | .or => true
  | _ => false

/-- Kernel application of a binary operator on two columns: vortex-expr/src/binary.rs:41-55, on top of compute/compare.rs and
compute/boolean.rs (equal length is checked by both, type mismatches are errors). -/
def evalOp [LinearOrder V] (op : Op) (l r : Col V) : Res (Col V) :=
  if l.len ≠ r.len then .err else
  if op.isBool then
    match l, r with
    | .bools a, .bools b => .ok (.bools (List.zipWith (boolO op) a b))
    | _, _ => .err
  else
    match l, r with
    | .prims t a, .prims u b => if t = u then .ok (.bools (List.zipWith (cmpO op) a b)) else .err
    | .bools a, .bools b => .ok (.bools (List.zipWith (cmpO op) a b))
    | _, _ => .err

/-- `VortexExpr::evaluate` of column.rs:45-53, literal.rs:25-27, binary.rs:41-55. -/
def Expr.eval [LinearOrder V] (b : Batch V) : Expr V → Res (Col V)
  | .col f => lookup b.cols f
  | .lit v => .ok (v.const b.n)
  | .bin l op r => do
    let x ← l.eval b
    let y ← r.eval b
    evalOp op x y

/-- `collect_references`: column.rs:55-57, binary.rs:57-60. -/
def Expr.refs : Expr V → List Field
  | .col f => [f]
  | .lit _ => []
  | .bin l _ r => l.refs ++ r.refs

/-- `split_conjunction` / `split_inner`: vortex-expr/src/lib.rs:41-57. -/
def Expr.split : Expr V → List (Expr V)
  | .bin l op r => if op = .and then l.split ++ r.split else [.bin l op r]
  | e => [e]

/-- `null_as_false`: vortex-serde/src/layouts/read/mod.rs:74-86. -/
def nullAsFalse (a : PArr Bool) : Res (PArr Bool) :=
  match a.validity with
  | .nonNullable => .ok a
  | .allValid => .ok ⟨a.vals, .nonNullable⟩
  | .allInvalid => .ok ⟨List.replicate a.vals.length false, .nonNullable⟩
  | .array v => .ok ⟨List.zipWith (· && ·) a.vals v, .nonNullable⟩

/-- What the filter needs from arrays: the `TrueCount` statistic of a mask, if the mask's encoding can compute it, and the canonical
boolean array with the rows of a mask (`into_bool`). -/
structure Env (V : Type) where
  tc : Col V → Option Nat
  intoBool : List (Option Bool) → PArr Bool

/-- `into_bool`: an error unless the array is boolean. -/
def Env.canon (env : Env V) : Col V → Res (PArr Bool)
  | .bools bs => .ok (env.intoBool bs)
  | .prims _ _ => .err

/-- The loop of `RowFilter::evaluate`: vortex-serde/src/layouts/read/filtering.rs:33-43. -/
def filterLoop [LinearOrder V] (env : Env V) (b : Batch V) : Col V → List (Expr V) → Res (PArr Bool)
  | mask, [] => do
    let a ← env.canon mask
    nullAsFalse a
  | mask, e :: es =>
    if (env.tc mask).getD 0 = 0 then .ok ⟨List.replicate b.n false, .nonNullable⟩ else do
      let m ← e.eval b
      let mask' ← evalOp .and m mask
      filterLoop env b mask' es

/-- `RowFilter::evaluate` on the list of conjuncts: filtering.rs:27-44 (an empty list panics with "must have at least one predicate"). -/
def evalConj [LinearOrder V] (env : Env V) (b : Batch V) : List (Expr V) → Res (PArr Bool)
  | [] => .panic
  | e :: es => do
    let m ← e.eval b
    filterLoop env b m es

/-- `RowFilter::new(expr).evaluate(batch)`. -/
def rowFilter [LinearOrder V] (env : Env V) (e : Expr V) (b : Batch V) : Res (PArr Bool) := evalConj env b e.split

/-- `RowFilter::references`: filtering.rs:47-54 (a set; here with repetitions). -/
def rowFilterRefs (e : Expr V) : List Field := e.split.flatMap Expr.refs

end Vx.RowExpr
