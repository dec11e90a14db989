import Verif.Model.Validity
/-! # The mask a validity stands for -/

namespace Vx.Spec

/-- The per-row "is not null" mask of an array of `n` rows with the given validity. -/
def mask (n : Nat) : Validity → List Bool
  | .nonNullable => List.replicate n true
  | .allValid => List.replicate n true
  | .allInvalid => List.replicate n false
  | .array bits => bits

/-- A validity that fits an array of `n` rows. -/
def FitsLen (v : Validity) (n : Nat) : Prop := (mask n v).length = n

instance (v : Validity) (n : Nat) : Decidable (FitsLen v n) := inferInstanceAs (Decidable (_ = _))

/-- Combine stored values with a mask into rows: a row is `none` when it is null. -/
def rows (vals : List α) (m : List Bool) : List (Option α) := List.zipWith (fun x b => if b then some x else none) vals m

end Vx.Spec
