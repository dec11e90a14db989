import Verif.Model.TreeViews
import Verif.Spec.TreeExpr
import Verif.Spec.TreeStruct
/-! # What the views by logical type mean on rows -/
namespace Vx.Tree

/-- Negation of a row; null stays null. -/
def notRow : SV → SV
  | .bool b => .bool (!b)
  | _ => .null

/-- Row by row, the value of field `i`, wherever the struct row is not null. -/
def FieldRows (i : Nat) (structs fields : List SV) : Prop :=
  List.Forall₂ (fun s f => ∀ xs, s = .list xs → xs[i]? = some f) structs fields

section
variable (env : Env L) (leafRows : L → List SV) (ok : L → Prop)

mutual
/-- No null constant and no null fill value on the way down. -/
def noNullStruct : Arr L → Bool
  | .const _ x _ => !x.isNull
  | .sparse _ values _ _ fill => noNullStruct values && !fill.isNull
  | .chunked _ cs => noNullStructs cs
  | _ => true
def noNullStructs : List (Arr L) → Bool
  | [] => true
  | c :: cs => noNullStruct c && noNullStructs cs
end

/-- The type of a number, byte string or string of a nullability. -/
def plainType (nl : Bool) : SV → Option DType
  | .prim p => some (.prim p.pt nl)
  | .buffer _ => some (.binary nl)
  | .str _ => some (.utf8 nl)
  | _ => none

mutual
/-- Extension arrays - plain, constant, sparse, chunked, nested - that are all stored as `sd`; constants hold a number or string of that very type. -/
def StoredAs (sd : DType) : Arr L → Prop
  | .ext _ _ s => WF env leafRows ok s ∧ dtype env s = sd
  | .const (.ext _ _ nl) x _ => plainType nl x = some sd
  | .sparse is values n off fill => StoredAs sd values ∧ inst fill sd = true ∧ is.length = (rows env leafRows values).length ∧
      is.Pairwise (· < ·) ∧ (∀ i ∈ is, off ≤ i ∧ i < off + n)
  | .chunked _ cs => cs ≠ [] ∧ StoredAlls sd cs
  | _ => False
def StoredAlls (sd : DType) : List (Arr L) → Prop
  | [] => True
  | c :: cs => StoredAs sd c ∧ StoredAlls sd cs
end

end
end Vx.Tree
