import Verif.Model.Primitive
/-! # Roaring encodings (encodings/roaring/src)

`croaring::Bitmap` is trusted: a set of `u32`s, represented here by its elements in increasing order. The operations below state the
contract of the calls the code makes. Serialising and reading back the bitmap is trusted to be the identity. -/

namespace Vx.Roaring

/-- 2^32: an `as u32` cast is `% u32`. -/
def u32 : Nat := 4294967296

/-- Add one element to a bitmap. -/
def insert (x : Nat) : List Nat → List Nat
  | [] => [x]
  | y :: ys => if x < y then x :: y :: ys else if x = y then y :: ys else y :: insert x ys

/-- `Bitmap::extend`. -/
def extend (xs : List Nat) (bm : List Nat) : List Nat := xs.foldl (fun b x => insert x b) bm

/-- `bitmap.and(&Bitmap::from_range(lo..hi))`. -/
def andRange (bm : List Nat) (lo hi : Nat) : List Nat := bm.filter (fun x => lo ≤ x && x < hi)

/-- `bitmap.add_offset(-(d as i64))`: elements that leave the `u32` range are dropped. -/
def subOffset (bm : List Nat) (d : Nat) : List Nat := (bm.filter (fun x => d ≤ x)).map (· - d)

/-- `bitmap.select(i)`: the `i`-th smallest element. -/
def select (bm : List Nat) (i : Nat) : Option Nat := bm[i]?

/-- `bitmap.maximum()`. -/
def maximum (bm : List Nat) : Option Nat := bm.getLast?

/-! ## Booleans -/

/-- `RoaringBoolArray` (boolean/mod.rs): always non-nullable. -/
structure BArr where
  bitmap : List Nat
  len : Nat
  deriving DecidableEq, Repr

/-- The statistics set at construction (boolean/mod.rs:47-62). -/
structure BStats where
  min : Bool
  max : Bool
  isConstant : Bool
  trueCount : Nat
  deriving DecidableEq, Repr

/-- `RoaringBoolArray::try_new` (boolean/mod.rs:42-78). -/
def bTryNew (bm : List Nat) (n : Nat) : Res BArr := if n < bm.length then .err else .ok ⟨bm, n⟩

/-- boolean/mod.rs:47-62 -/
def bStats (a : BArr) : BStats :=
  ⟨a.bitmap.length == a.len, decide (0 < a.bitmap.length), a.bitmap.length == a.len || a.bitmap.length == 0, a.bitmap.length⟩

/-- `boolean_buffer().set_indices()`: the positions of the set bits, nulls ignored. -/
def setIdx (bs : List Bool) : List Nat := (List.range bs.length).filter (fun i => bs[i]?.getD false)

/-- `roaring_bool_encode` (boolean/compress.rs:6-13). -/
def bEncode (a : PArr Bool) : Res BArr := bTryNew (extend ((setIdx a.vals).map (· % u32)) []) a.len

/-- Number of 64-bit words of `bitmap.to_bitset()` (CRoaring `roaring_bitmap_to_bitset`: `max / 64 + 1`, where the maximum of an
empty bitmap is 0). -/
def words (bm : List Nat) : Nat := (maximum bm).getD 0 / 64 + 1

/-- The bits of `bitmap.to_bitset()`. -/
def bitset (bm : List Nat) : List Bool := (List.range (64 * words bm)).map (fun i => bm.contains i)

/-- `BooleanBuffer::new(buffer, 0, len)`: asserts that the buffer has at least `len` bits. -/
def booleanBuffer (bits : List Bool) (n : Nat) : Res (List Bool) := if n ≤ bits.length then .ok (bits.take n) else .panic

/-- `into_canonical` (boolean/mod.rs:135-156). -/
def bIntoCanonical (a : BArr) : Res (PArr Bool) := do
  let bits := bitset a.bitmap
  let byteLength := (a.len + 7) / 8
  let sizeInBytes := 8 * words a.bitmap
  let bits := if byteLength > sizeInBytes then bits ++ List.replicate (8 * (byteLength - sizeInBytes)) false else bits
  let bs ← booleanBuffer bits a.len
  .ok ⟨bs, .nonNullable⟩

/-- `scalar_at` (boolean/compute.rs:17-25) behind the entry point. -/
def bScalarAt (a : BArr) (i : Nat) : Res (Option Bool) :=
  if i ≥ a.len then .err else .ok (some (a.bitmap.contains (i % u32)))

/-- `slice` (boolean/compute.rs:27-34) behind the entry-point bounds check. -/
def bSlice (a : BArr) (s e : Nat) : Res BArr :=
  if s > a.len then .err else if e > a.len then .err else if s > e then .err
  else bTryNew (subOffset (andRange a.bitmap (s % u32) (e % u32)) s) (e - s)

/-- Accumulator of the computed statistics (boolean/stats.rs:52-69). -/
structure Acc where
  prev : Bool
  isSorted : Bool
  runCount : Nat
  len : Nat
  deriving DecidableEq, Repr

/-- The loop body of `next_up_to_length` (boolean/stats.rs:74-84). -/
def step (s : Acc) (current : Bool) : Acc :=
  let s := if !current && s.prev then { s with isSorted := false } else s
  if current != s.prev then { s with runCount := s.runCount + 1, prev := current } else s

/-- `next_up_to_length(word, len)` (boolean/stats.rs:71-85); the bits of the word, least significant first. -/
def nextUpTo (s : Acc) (word : List Bool) (n : Nat) : Acc :=
  (word.take n).foldl step { s with len := s.len + n }

/-- The computed statistics (boolean/stats.rs:91-100). -/
structure CStats where
  isSorted : Bool
  isStrictSorted : Bool
  runCount : Nat
  deriving DecidableEq, Repr

/-- `bitset_slice[k]`: the `k`-th 64-bit word, a panic past the end. -/
def word (bits : List Bool) (k : Nat) : Res (List Bool) :=
  if 64 * (k + 1) ≤ bits.length then .ok ((bits.drop (64 * k)).take 64) else .panic

/-- The loop over whole words. -/
def wordLoop (bits : List Bool) : Nat → Nat → Acc → Res Acc
  | _, 0, s => .ok s
  | k, n + 1, s => do
    let w ← word bits k
    wordLoop bits (k + 1) n (nextUpTo s w 64)

/-- `compute_statistics` for a non-empty array (boolean/stats.rs:10-50). `bitset_slice[0..whole_chunks]` panics when the bitset has
fewer words; it is evaluated before the loop, with the same outcome. -/
def bCompute (a : BArr) : Res (Option CStats) :=
  if a.len = 0 then .ok none else do
    let bits := bitset a.bitmap
    let whole := a.len / 64
    let lastLen := a.len % 64
    let w0 ← word bits 0
    let s ← wordLoop bits 0 whole ⟨w0[0]?.getD false, true, 1, 0⟩
    let wl ← word bits whole
    let s := nextUpTo s wl lastLen
    .ok (some ⟨s.isSorted, s.isSorted && (decide (s.len < 2) || (s.len == 2 && a.bitmap.length == 1)), s.runCount⟩)

/-! ## Integers -/

/-- `RoaringIntArray` (integer/mod.rs): `w` is the width of the unsigned ptype; the length is the cardinality. -/
structure IArr where
  bitmap : List Nat
  w : Nat
  deriving DecidableEq, Repr

def IArr.len (a : IArr) : Nat := a.bitmap.length

/-- `RoaringIntArray::try_new` (integer/mod.rs:36-69) for an unsigned ptype. -/
def iTryNew (bm : List Nat) (w : Nat) : Res IArr :=
  match maximum bm with
  | some m => if m > 2 ^ w - 1 then .err else .ok ⟨bm, w⟩
  | none => .ok ⟨bm, w⟩

/-- `i.to_u32().ok_or_else(..)` (integer/compress.rs:26-29). -/
def toU32 (x : Nat) : Res Nat := if x < u32 then .ok x else .err

/-- `roaring_int_encode` (integer/compress.rs:8-35) on unsigned values of width `w`. -/
def iEncode (w : Nat) (vals : List Nat) : Res IArr := do
  let xs ← Res.mapM toU32 vals
  iTryNew (extend xs []) w

/-- `into_canonical` (integer/mod.rs:116-124): the elements in increasing order, cast from u32 to the ptype. -/
def iIntoCanonical (a : IArr) : List Nat := a.bitmap.map (· % 2 ^ a.w)

/-- `scalar_at` (integer/compute.rs:20-39) behind the entry point. -/
def iScalarAt (a : IArr) (i : Nat) : Res Nat :=
  if i ≥ a.len then .err else do
    let v ← Res.ofOption (select a.bitmap (i % u32))
    .ok (v % 2 ^ a.w)

/-- The inclusive end of the slice (integer/compute.rs:47-53). -/
def stopInclusive (a : IArr) (e : Nat) : Res Nat :=
  if e = a.len then .ok ((maximum a.bitmap).getD 0) else Res.ofOption (select a.bitmap ((e - 1) % u32))

/-- `slice` (integer/compute.rs:41-58) behind the entry-point bounds check. -/
def iSlice (a : IArr) (s e : Nat) : Res IArr :=
  if s > a.len then .err else if e > a.len then .err else if s > e then .err else do
    let lo ← Res.ofOption (select a.bitmap (s % u32))
    let hi ← stopInclusive a e
    iTryNew (andRange a.bitmap lo (hi + 1)) a.w

end Vx.Roaring
