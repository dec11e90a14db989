import Verif.Model.VarBinCanon
import Verif.Props.C21View
/-! # What is assumed of `arrow_cast::cast(_, Utf8View)` -/
namespace Vx.VarBinCanon.Spec
open VarBin (Byte)
open VarBinView (Holds)

/-- Row `i` of an Arrow offset array that is not null. -/
def Row (o : Offs) (i : Nat) (v : List Byte) : Prop :=
  ∃ s e, o.offsets[i]? = some s ∧ o.offsets[i + 1]? = some e ∧ v = Vx.Spec.slice o.data s e

/-- The view array has a view per row, every one of which holds the row's bytes, and the same nulls. -/
structure SameRows (o : Offs) (w : Views) : Prop where
  len : w.views.length + 1 = o.offsets.length
  w16 : ∀ x ∈ w.views, x.length = 16
  holds : ∀ (i : Nat) (x v : List Byte), w.views[i]? = some x → (o.nulls.getD (List.replicate w.views.length true))[i]? = some true →
    Row o i v → Holds w.buffers x v
  small : ∀ b ∈ w.buffers, b.length < 2 ^ 32
  nulls : w.nulls.getD (List.replicate w.views.length true) = o.nulls.getD (List.replicate w.views.length true)
  none : o.nulls = none → w.nulls = none

/-- Casting a string array keeps the rows, and succeeds when there are fewer than `2^32 - 1` bytes. -/
structure StringCast (cast : Cast) : Prop where
  sound : ∀ o w, o.utf8 = true → o.offsets.Pairwise (· ≤ ·) → (∀ x ∈ o.offsets, x ≤ o.data.length) → cast o = .ok w → SameRows o w
  total : ∀ o, o.utf8 = true → o.offsets ≠ [] → o.offsets.Pairwise (· ≤ ·) → (∀ x ∈ o.offsets, x ≤ o.data.length) → o.data.length < 2 ^ 32 - 1 →
    (∀ m, o.nulls = some m → m.length + 1 = o.offsets.length) → ∃ w, cast o = .ok w

end Vx.VarBinCanon.Spec
