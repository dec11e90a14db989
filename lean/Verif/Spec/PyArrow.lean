import Verif.Model.PyArrow
import Verif.Spec.ArrowArray
/-!
# The rows of PyArrow objects, and what reaches Rust
-/
namespace Vx.Spec.Arrow
open Vx.Arrow

/-- The rows of an object. -/
def pyRows : PyObj → List Val
  | .array a => arows a
  | .chunked _ cs => cs.flatMap arows
  | .table _ bs => bs.flatMap (fun b => (List.range b.rows).map (fun i => .tuple (arowCols b.cols i)))
  | .other => []

/-- Its type; a table is a struct. -/
def pyType : PyObj → AType
  | .array a => a.type
  | .chunked t _ => t
  | .table fs _ => .struct fs
  | .other => .other 0

/-- A null buffer has a null in it. -/
def SomeNull (b : Option (List Bool)) : Prop := ∀ m, b = some m → false ∈ m

mutual
/-- Arrays as they arrive from Python: null buffers only where there are nulls, and no nulls in columns declared without them. -/
def Handed : AArr → Prop
  | .null _ => True
  | .other _ _ => True
  | .bool _ b => SomeNull b
  | .fixed _ _ b => SomeNull b
  | .bytes _ _ b => SomeNull b
  | .struct cols _ b => SomeNull b ∧ HandedCols cols
def HandedCols : ACols → Prop
  | .nil => True
  | .cons _ nullable a rest => Handed a ∧ (nullable = false → ∀ m, a.nulls = some m → false ∉ m) ∧ HandedCols rest
end

mutual
/-- Types that can be imported: no lists, dictionaries and so on, and no null column declared without nulls. -/
def Importable : AArr → Prop
  | .null _ => True
  | .other _ _ => False
  | .bool _ _ => True
  | .fixed t _ _ => FixedOk t
  | .bytes t _ _ => BytesOk t
  | .struct cols _ _ => ImportableCols cols
def ImportableCols : ACols → Prop
  | .nil => True
  | .cons _ nullable a rest => Importable a ∧ (∀ n, a = .null n → nullable = true) ∧ ImportableCols rest
end

/-- The array has no null at its top level. -/
def NoNull (a : AArr) : Prop := a.nulls = none ∧ ∀ n, a ≠ .null n

end Vx.Spec.Arrow
