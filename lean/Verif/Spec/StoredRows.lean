import Verif.Spec.Stored
import Verif.Spec.WriteColumns
/-! # C102: the rows of a stored array -/
namespace Vx.Store
open Own
open Layout (Rows Row)

variable {L : Type}

mutual
/-- A row of a table as one scalar: the field values side by side. -/
def toSV : Row SV → SV
  | .leaf x => x
  | .struct fs => .list (toSVs fs)
def toSVs : List (Str × Row SV) → List SV
  | [] => []
  | f :: fs => toSVp f :: toSVs fs
def toSVp : Str × Row SV → SV
  | (_, r) => toSV r
end

/-- The selected fields of a struct row. -/
def pickSV (sel : List Nat) : SV → SV
  | .list vs => .list (sel.filterMap fun i => vs[i]?)
  | x => x

section
variable (sc : Scalars) (S : Leaves L) (env : Tree.Env L) (leafRows : L → List SV)

/-- Rows of an array that is not a table: those of the tree it is read as (no meaning where it is not one). -/
def plainRows (a : Own.Arr) : Rows SV :=
  match view sc S a with
  | some t => if (Tree.rows env leafRows t).length = a.len then (Tree.rows env leafRows t).map .leaf else List.replicate a.len (.leaf .null)
  | none => List.replicate a.len (.leaf .null)

/-- One level: chunks one after the other, fields of a struct without nulls side by side. -/
def nodeRows (a : Own.Arr) (kids : List (Rows SV)) : Rows SV :=
  match a.enc, a.dtype with
  | .chunked _, _ => kids.tail.flatten
  | .struct .nonNullable, .struct names _ _ => (List.range a.len).map (Layout.structRow (names.zip kids))
  | .struct .allValid, .struct names _ _ => (List.range a.len).map (Layout.structRow (names.zip kids))
  | _, _ => plainRows sc S env leafRows a

mutual
/-- What a stored array means. -/
def storedRows : Own.Arr → Rows SV
  | .mk e d l b cs => nodeRows sc S env leafRows (.mk e d l b cs) (storedEach cs)
def storedEach : List Own.Arr → List (Rows SV)
  | [] => []
  | c :: cs => storedRows c :: storedEach cs
end
end

end Vx.Store
