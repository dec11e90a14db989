import Verif.Model.PyRead
import Verif.Spec.FileScan
/-!
# What a Python filter means

The SQL expression it is written as. Plain integers, floats, strings and bytes are values of the types `i64`, `f64`, `utf8` and `binary`; booleans are
booleans.
-/
namespace Vx.Py
open Vx.RowExpr (Op)
open Vx.DF (DExpr DOp Lit Ty)

variable {V : Type}

/-- The operator as written. -/
def Spec.sqlOp : Op → DOp
  | .eq => .eq
  | .neq => .notEq
  | .gt => .gt
  | .gte => .gtEq
  | .lt => .lt
  | .lte => .ltEq
  | .and => .and
  | .or => .or

/-- A value of the type of `d`. -/
def Spec.typed (kind : DType → Option Ty) (d : DType) (v : V) : Lit V :=
  match kind d with
  | some (.prim t) => .prim t (some v)
  | _ => .null

/-- A Python value at a dtype; null if it is none. -/
def Spec.litAt (C : Conv V) (kind : DType → Option Ty) : DType → PyVal → Lit V
  | .bool _, .bool b => .bool (some b)
  | .prim p n, .int z =>
    if p.isFloat then
      match C.intToFloat z with
      | some x => Spec.typed kind (.prim p n) (C.ofFloat p x)
      | none => .null
    else Spec.typed kind (.prim p n) (C.ofInt z)
  | .prim p n, .float x => if p.isFloat then Spec.typed kind (.prim p n) (C.ofFloat p x) else .null
  | .utf8 n, .str s => Spec.typed kind (.utf8 n) (C.ofStr s)
  | .binary n, .bytes b => Spec.typed kind (.binary n) (C.ofBytes b)
  | _, _ => .null

/-- A plain Python value. -/
def Spec.litOf (C : Conv V) (kind : DType → Option Ty) : PyVal → Lit V
  | .int z => Spec.litAt C kind (.prim .i64 false) (.int z)
  | .float x => Spec.litAt C kind (.prim .f64 false) (.float x)
  | .str s => Spec.litAt C kind (.utf8 false) (.str s)
  | .bytes b => Spec.litAt C kind (.binary false) (.bytes b)
  | .bool b => .bool (some b)
  | _ => .null

/-- The SQL expression a Python expression is written as. -/
def Spec.sqlOf (C : Conv V) (kind : DType → Option Ty) : Src → DExpr V
  | .column n => .col n
  | .value v => .lit (Spec.litOf C kind v)
  | .literal d v => .lit (Spec.litAt C kind d v)
  | .op l o r => .bin (Spec.sqlOf C kind l) (Spec.sqlOp o) (Spec.sqlOf C kind r)

/-- An integer that fits in the type; anything for other types. -/
def Spec.fits : DType → PyVal → Bool
  | .prim p _, .int z => p.isFloat || p.inRange z
  | _, _ => true

def Src.isValue : Src → Bool
  | .value _ => true
  | _ => false

/-- The expressions the binding can build: no `!=`; `&` and `|` with an expression on the left; at least one expression in every operation; no plain
booleans; integers within the range of their type. -/
def Spec.Buildable : Src → Bool
  | .column _ => true
  | .value (.bool _) => false
  | .value v => Spec.fits (.prim .i64 false) v
  | .literal d v => Spec.fits d v
  | .op l o r => decide (o ≠ .neq) && (!(l.isValue && (o.isBool || r.isValue)) && (Spec.Buildable l && Spec.Buildable r))

end Vx.Py
