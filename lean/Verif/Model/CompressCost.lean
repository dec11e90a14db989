import Verif.Model.Compress
/-! # Costs of the compressors -/
namespace Vx.Tree

/-- `EncodingCompressor::cost`, vortex-sampling-compressor/src/constants.rs:1-26, and compressors/chunked.rs:37-39, compressors/struct_.rs:21-23 where
the constant is not yet named. -/
def stdCost : CId → Nat
  | .sparse => 0
  | .bitPackedNoPatches => 0
  | .bitPacked => 0
  | .constant => 0
  | .zigzag => 0
  | .alp => 1
  | .alpRd => 1
  | .dateTimeParts => 1
  | .dict => 1
  | .for => 1
  | .fsst => 1
  | .roaringBool => 1
  | .roaringInt => 1
  | .runEnd => 1
  | .delta => 2
  | .struct => 0
  | .chunked => 0

/-- `CompressConfig::default().max_cost`, vortex-sampling-compressor/src/lib.rs:127. -/
def stdMaxCost : Nat := 3

end Vx.Tree
