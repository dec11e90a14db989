import Verif.Basic
/-! # Stratified sampling (vortex-sampling-compressor/src/sampling.rs) -/

namespace Vx.Sampling

/-- `(a..b).step_by(s)`: sampling.rs:46, 49-50; a zero step panics, also on an empty range. -/
def stepBy (a b s : Nat) : Res (List Nat) :=
  if s = 0 then .panic else .ok ((List.range ((b - a + s - 1) / s)).map fun k => a + k * s)

/-- `partition_indices`: sampling.rs:38-54; a division by zero panics. -/
def partitionIndices (length n : Nat) : Res (List (Nat × Nat)) :=
  if n = 0 then .panic else do
  let numLong := length % n
  let short := length / n
  let long := short + 1
  let longStop := numLong * long
  let l ← stepBy 0 longStop long
  let s ← stepBy longStop length short
  .ok (l.map (fun off => (off, off + long)) ++ s.map (fun off => (off, off + short)))

/-- The closure of sampling.rs:24-33: `pick i lo hi` is the random number of the `i`-th call of `gen_range(lo..=hi)`, which panics on an empty range. -/
def pickSlices (pick : Nat → Nat → Nat → Nat) : (i : Nat) → List ((Nat × Nat) × Nat) → Res (List (Nat × Nat))
  | _, [] => .ok []
  | i, ((start, stop), size) :: rest => do
    let width ← Res.sub stop start
    Res.assert (decide (width ≥ size))
    let hi ← Res.sub stop size
    Res.assert (decide (start ≤ hi))
    let r := pick i start hi
    let out ← pickSlices pick (i + 1) rest
    .ok ((r, r + size) :: out)

/-- `sample_count * sample_size` in `u16`: sampling.rs:10. With overflow checks an overflow panics, otherwise it wraps. -/
def mulU16 (checks : Bool) (x y : Nat) : Res Nat :=
  if checks && decide (2 ^ 16 ≤ x * y) then .panic else .ok (x * y % 2 ^ 16)

/-- `stop - start` for each partition: sampling.rs:18-21 -/
def sizes (ps : List (Nat × Nat)) : Res (List Nat) := Res.mapM (fun p => Res.sub p.2 p.1) ps

/-- `stratified_slices`: sampling.rs:4-34 -/
def stratifiedSlices (checks : Bool) (length sampleSize sampleCount : Nat) (pick : Nat → Nat → Nat → Nat) : Res (List (Nat × Nat)) := do
  let total ← mulU16 checks sampleCount sampleSize
  if total ≥ length then .ok [(0, length)] else do
  let parts ← partitionIndices length sampleCount
  let ss ← partitionIndices total sampleCount
  let ss ← sizes ss
  pickSlices pick 0 (parts.zip ss)

end Vx.Sampling
