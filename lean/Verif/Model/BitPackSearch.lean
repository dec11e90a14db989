import Verif.Model.BitPack
import Verif.Model.FoR
/-! # Searching a bit-packed array (encodings/fastlanes/src/bitpacking/compute/search_sorted.rs) -/

namespace Vx.BitPack

/-- `first_null_idx`, search_sorted.rs:147-154 -/
def firstNull (v : Validity) (len : Nat) : Nat :=
  match v with
  | .nonNullable | .allValid => len
  | .allInvalid => 0
  | .array bits => bits.countP id

/-- `min_patch_offset`, search_sorted.rs:139-146 (patches without an index fall back to the length). -/
def minPatch (patches : Option (Sparse (BitVec T))) (len : Nat) : Res Nat :=
  match patches with
  | some p => if p.indices.isEmpty then .ok len else p.minIndex
  | none => .ok len

/-- `BitPackedSearch::index_cmp`, search_sorted.rs:169-184 -/
def searchCmp (fl : FL T) (a : Arr T) (firstInvalid : Nat) (v : BitVec T) (i : Nat) : Res (Option Ordering) :=
  if firstInvalid ≤ i then .ok (some .gt)
  else do
    let x ← unpackSingle fl a.packed a.w (i + a.offset)
    .ok (some (compare (intKey false x) (intKey false v)))

/-- `BitPackedSearch::new(array).search_sorted`, search_sorted.rs:137-166 -/
def packedSearch (fl : FL T) (a : Arr T) (v : BitVec T) (side : Side) : Res SearchResult := do
  let m ← minPatch a.patches a.len
  searchSorted (searchCmp fl a (min m (firstNull a.validity a.len)) v) a.len side

/-- `search_sorted_native`, search_sorted.rs:99-121; `max_packed_value` is mod.rs:210-212 (`1 << 64` overflows). -/
def searchNative (fl : FL T) (a : Arr T) (v : BitVec T) (side : Side) : Res SearchResult :=
  match a.patches with
  | some p =>
    if 64 ≤ a.w then .panic
    else if v.toNat > 2 ^ a.w - 1 then p.searchSorted (FoR.primSearch (intKey false)) v side
    else packedSearch fl a v side
  | none => packedSearch fl a v side

/-- `search_sorted_u64`, search_sorted.rs:27-39 -/
def searchU64 (fl : FL T) (a : Arr T) (v : Nat) (side : Side) : Res SearchResult :=
  if v < 2 ^ T then searchNative fl a (BitVec.ofNat T v) side else .ok (.notFound a.len)

/-- One probe of `search_sorted_many`, search_sorted.rs:41-59, after the cast to the element type: the patches are not searched. -/
def searchMany (fl : FL T) (a : Arr T) (vs : List (BitVec T × Side)) : Res (List SearchResult) :=
  Res.mapM (fun p => packedSearch fl a p.1 p.2) vs

/-- `search_sorted_u64_many`, search_sorted.rs:61-79: the cast truncates. -/
def searchU64Many (fl : FL T) (a : Arr T) (vs : List (Nat × Side)) : Res (List SearchResult) :=
  Res.mapM (fun p => packedSearch fl a (BitVec.ofNat T p.1) p.2) vs

end Vx.BitPack
