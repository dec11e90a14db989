import Verif.Model.Compress
import Verif.Model.Registry
/-!
# The encodings a compressor says it uses

`used_encodings` of the sampling compressor (vortex-sampling-compressor/src/lib.rs:160-165) and of each compressor
(vortex-sampling-compressor/src/compressors/), from which a reader's context is built.

Simplifications: the two bit-packing compressors and the children of leaf encodings: those of `Model/Compress.lean`.
-/
namespace Vx.Tree
open Vx.Registry

/-- `EncodingCompressor::used_encodings` of the compressors: alp.rs:85-87, alp_rd.rs:72-74, bitpacked.rs:132-134, date_time_parts.rs:75-77,
delta.rs:63-65, runend.rs:78-80, dict.rs:90-92, for.rs:90-92, fsst.rs:136-138, roaring_bool.rs:56-58, roaring_int.rs:58-60, sparse.rs:54-56,
zigzag.rs:58-60, constant.rs:42-44, struct_.rs:63-65, chunked.rs:56-58 -/
def usedBy : CId → List Std
  | .alp => [.alp, .alprd]
  | .alpRd => [.alprd, .bitPacked]
  | .bitPacked | .bitPackedNoPatches => [.bitPacked]
  | .dateTimeParts => [.dateTimeParts]
  | .delta => [.delta]
  | .runEnd => [.runEnd]
  | .dict => [.dict]
  | .for => [.for]
  | .fsst => [.fsst]
  | .roaringBool => [.roaringBool]
  | .roaringInt => [.roaringInt]
  | .sparse => [.sparse]
  | .zigzag => [.zigzag]
  | .constant => [.constant]
  | .struct | .chunked => []

/-- `SamplingCompressor::used_encodings`: lib.rs:160-165 -/
def usedEncodings (compressors : List CId) : List Std := compressors.flatMap usedBy

/-- `DEFAULT_COMPRESSORS`: lib.rs:48-60 -/
def defaultCompressors : List CId := [.alp, .bitPacked, .dateTimeParts, .runEnd, .dict, .for, .fsst, .sparse, .zigzag]

/-- `FASTEST_COMPRESSORS`: lib.rs:62-70 -/
def fastestCompressors : List CId := [.bitPacked, .dateTimeParts, .runEnd, .dict, .for, .sparse, .zigzag]

/-- `SamplingCompressor::new(compressors)`: lib.rs:175-190 -/
def Ctx.new (compressors : List CId) : Ctx := ⟨compressors, 0, []⟩

/-- `Context::default().with_encodings(compressor.used_encodings())`, as in bench-vortex/src/lib.rs:48-52 -/
def readerContext (compressors : List CId) : Context := Context.default.withEncodings ((usedEncodings compressors).map .std)

end Vx.Tree
