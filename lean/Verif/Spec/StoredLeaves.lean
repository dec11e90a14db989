import Verif.Model.StoredLeaves
import Verif.Spec.Stored
import Verif.Props.C90
/-! # C102: which leaf arrays fit the stored form -/
namespace Vx.Store
open Vx.Tree (RLeaf leafSound)

/-- Limits of the format: patch positions are `u64`, symbols have up to eight bytes, date-time parts are `i64` and the unit is the one in the extension
type's metadata. -/
def LeafFits (unitOf : Str → Option (List UInt8) → Option DateTimeParts.TimeUnit) : RLeaf → Prop
  | .bitPacked _ a => ∀ q, a.patches = some q → ∀ i ∈ q.indices, i < 2 ^ 64
  | .alpRd _ a => ∀ q, a.exc = some q → ∀ i ∈ q.indices, i < 2 ^ 64
  | .fsst _ a => ∀ s ∈ a.syms, s.length ≤ 8
  | .dateTime id m a => unitOf id m = some a.unit ∧ (∀ x ∈ a.days.vals, DateTimeParts.IsI64 x) ∧ (∀ x ∈ a.seconds.vals, DateTimeParts.IsI64 x) ∧
      ∀ x ∈ a.subsecond.vals, DateTimeParts.IsI64 x
  | _ => True

/-- The invariants of its encoding and the limits of the format. -/
def StoredOk (unitOf : Str → Option (List UInt8) → Option DateTimeParts.TimeUnit) (l : RLeaf) : Prop := leafSound l ∧ LeafFits unitOf l

/-- Null scalars are kept by the metadata. -/
def NullsKept (sc : Scalars) : Prop := ∀ p, Kept sc (.prim p true) .null

section
open Vx.Tree (TVal)
variable {L : Type} (P : L → Prop)

mutual
/-- Every leaf of the tree. -/
def AllLeaves : Tree.Arr L → Prop
  | .leaf l => P l
  | .flat _ _ v => AllLeavesV v
  | .chunked _ cs => AllLeavess cs
  | .struct _ fs _ v => AllLeavess fs ∧ AllLeavesV v
  | .ext _ _ s => AllLeaves s
  | .sparse _ values _ _ _ => AllLeaves values
  | .dict codes values => AllLeaves codes ∧ AllLeaves values
  | .runEnd _ values v _ _ => AllLeaves values ∧ AllLeavesV v
  | .mapped _ enc => AllLeaves enc
  | .alpP _ _ enc patches => AllLeaves enc ∧ AllLeaves patches
  | _ => True
def AllLeavess : List (Tree.Arr L) → Prop
  | [] => True
  | c :: cs => AllLeaves c ∧ AllLeavess cs
def AllLeavesV : TVal (Tree.Arr L) → Prop
  | .array a => AllLeaves a
  | _ => True
end
end

end Vx.Store
