import Verif.Spec.Rows
/-! # What a sparse array means -/

namespace Vx.Spec

/-- The row at position `j`: the patch listed for `j`, or the fill value. -/
def patchOr (fill : α) (patches : List (Nat × α)) (j : Nat) : α := ((patches.find? (fun p => p.1 == j)).map (·.2)).getD fill

/-- `n` rows, the patch positions being counted from `offset`. -/
def patched (n offset : Nat) (fill : α) (patches : List (Nat × α)) : List α :=
  (List.range n).map (fun i => patchOr fill patches (offset + i))

end Vx.Spec
