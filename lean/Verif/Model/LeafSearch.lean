import Verif.Model.TreeSearch
import Verif.Model.Leaves
import Verif.Model.BitPackSearch
/-!
# The leaf encoding with a search of its own
Of the leaf encodings only bit-packing implements `SearchSortedFn`; delta, ALP-RD, FSST, roaring and date-time-parts arrays are searched through
`scalar_at`.
-/
namespace Vx.Tree

/-- `SearchSortedFn for BitPackedArray`, encodings/fastlanes/src/bitpacking/compute/search_sorted.rs:20-97: the native value of the probe is
searched for (`search_sorted_typed`, lines 83-97); the bulk forms search the packed words only, and the last truncates its probes. -/
def packedOwn {p : PType} (F : FloatOps) (fl : BitPack.FL p.bits) (a : BitPack.Arr p.bits) : OwnSearch where
  search t side := do
    let q ← probeOf F p (.prim p a.validity.nullable) t
    BitPack.searchNative fl a (BitVec.ofNat p.bits q.bits.toNat) side
  searchU64 v side := BitPack.searchU64 fl a v.toNat side
  searchMany ts sides := Res.mapM (fun (t : Scalar × Side) => do
    let q ← probeOf F p (.prim p a.validity.nullable) t.1
    BitPack.packedSearch fl a (BitVec.ofNat p.bits q.bits.toNat) t.2) (ts.zip sides)
  searchU64Many vs sides := BitPack.searchU64Many fl a ((vs.map BitVec.toNat).zip sides)

/-- Which leaves register a search: fastlanes/src/bitpacking/compute/mod.rs:11-27; none in delta/compute.rs:11, alp_rd/compute/mod.rs:11,
fsst/src/compute.rs:15, roaring boolean/compute.rs:10 and integer/compute.rs:11, datetime-parts/src/compute.rs:14. -/
def leafOwn (x : Outside) (F : FloatOps) : RLeaf → Option OwnSearch
  | .bitPacked p a => some (packedOwn F (x.fl p.bits) a)
  | _ => none

end Vx.Tree
