import Verif.Spec.Rows
/-! # What run ends and values mean -/

namespace Vx.Spec

/-- Expand runs: value `i` fills the positions from the previous end up to `ends[i]`. -/
def expandFrom (start : Nat) : List Nat → List α → List α
  | e :: es, v :: vs => List.replicate (e - start) v ++ expandFrom e es vs
  | _, _ => []

def expand (ends : List Nat) (vals : List α) : List α := expandFrom 0 ends vals

end Vx.Spec

namespace Vx.Spec

/-- `n` alternating truth values beginning with `b`. -/
def alternating (b : Bool) : Nat → List Bool
  | 0 => []
  | n + 1 => b :: alternating (!b) n

end Vx.Spec
