/-! # Row-level specifications

What `slice`, `take` and `filter` mean for a sequence of rows. Nothing here mentions an encoding. -/

namespace Vx.Spec

/-- Rows `start..stop`. -/
def slice (xs : List α) (start stop : Nat) : List α := (xs.take stop).drop start

/-- Row `indices[k]` at position `k`; only meaningful when every index is in range. -/
def take (xs : List α) (indices : List Nat) : List α := indices.filterMap (fun i => xs[i]?)

/-- The rows whose mask bit is set. -/
def filter : List α → List Bool → List α
  | x :: xs, true :: bs => x :: filter xs bs
  | _ :: xs, false :: bs => filter xs bs
  | _, _ => []

/-- Slice bounds accepted by `slice` (vortex-array/src/compute/slice.rs:36-47). -/
def InBounds (n start stop : Nat) : Prop := start ≤ stop ∧ stop ≤ n

instance (n start stop : Nat) : Decidable (InBounds n start stop) := inferInstanceAs (Decidable (_ ∧ _))

end Vx.Spec
