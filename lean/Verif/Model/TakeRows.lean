import Verif.Model.SearchSorted
import Verif.Model.Stats
/-!
# Taking rows from a stream of arrays

vortex-array/src/stream/take_rows.rs (`TakeRows`, over any array stream) and vortex-serde/src/chunked_reader/{mod,take_rows}.rs
(`ChunkedArrayReader::take_rows`, over a stored chunked array with a table of row and byte offsets).

The index array is a primitive integer array; a batch of the stream is the list of its rows, and `take` on it picks rows (C05). `usize` is 64 bits.
-/
namespace Vx.TakeRows

/-- Integer type of the index array. -/
structure IdxTy where
  signed : Bool
  w : Nat

variable {α : Type}

/-- Index arrays. -/
abbrev Idx (t : IdxTy) := PArr (BitVec t.w)

/-- The first number the type cannot represent. -/
def IdxTy.limit (t : IdxTy) : Nat := if t.signed then 2 ^ (t.w - 1) else 2 ^ t.w

/-- `Scalar::from(n as u64).cast(indices.dtype())`: vortex-scalar/src/primitive.rs (integer casts succeed iff the value is representable). -/
def castScalar (t : IdxTy) (n : Nat) : Res (BitVec t.w) := if n < t.limit then .ok (BitVec.ofNat t.w n) else .err

/-- Order of the index type. -/
def cmp (t : IdxTy) (x y : BitVec t.w) : Ordering := compare (intKey t.signed x) (intKey t.signed y)

/-- `search_sorted(indices, n, side)?.to_index()`: vortex-array/src/compute/search_sorted.rs:134-158 and
array/primitive/compute/search_sorted.rs:14-28 -/
def searchIdx (t : IdxTy) (a : Idx t) (n : Nat) (side : Side) : Res Nat := do
  let v ← castScalar t n
  match a.validity with
  | .nonNullable => do let r ← searchSlice (cmp t) a.vals v side; .ok r.toIndex
  | .allValid => do let r ← searchSlice (cmp t) a.vals v side; .ok r.toIndex
  | .allInvalid => .ok 0
  | .array _ => do let r ← searchNullsLast (cmp t) a.rows v side; .ok r.toIndex

/-- `v - to_subtract` on the index type (array/primitive/compute/subtract_scalar.rs:64-71: plain `-`, overflow panics). -/
def subChecked (t : IdxTy) (x y : BitVec t.w) : Res (BitVec t.w) :=
  let r := intKey t.signed x - intKey t.signed y
  if (if t.signed then -(2 ^ (t.w - 1) : Int) else 0) ≤ r ∧ r < t.limit then .ok (x - y) else .panic

/-- Is the dtype nullable? -/
def nullable (v : Validity) : Bool := match v with | .nonNullable => false | _ => true

/-- `subtract_scalar` on a primitive integer array: array/primitive/compute/subtract_scalar.rs:12-74. `nl` is the nullability of the scalar's dtype.
An array of nulls only becomes a constant array of nulls, which both callers reject next (null count); here an error at once. -/
def subtractScalar (t : IdxTy) (a : Idx t) (y : BitVec t.w) (nl : Bool) : Res (Idx t) :=
  if nullable a.validity ≠ nl then .err else
  match a.validity.toLogical a.len with
  | .allInvalid _ => .err
  | .allValid _ =>
    if y = 0 then .ok a else do
    let vs ← Res.mapM (fun x => subChecked t x y) a.vals
    .ok ⟨vs, .nonNullable⟩
  | .array _ => if y = 0 then .ok a else .ok ⟨a.vals.map fun x => x - y, a.validity⟩

/-! ## `TakeRows` -/

/-- `TakeRows::try_new`: stream/take_rows.rs:25-60. The statistics are those of the primitive array (`primStats`). -/
def tryNew (t : IdxTy) (a : Idx t) : Res (Idx t) :=
  if a.len = 0 then .ok a else
  let s := primStats (intElem t.signed t.w) a
  if s.isSorted.getD false = false then .err else
  if (s.nullCount.map fun n => decide (n > 0)).getD true = true then .err else
  if t.signed = true ∧ (match s.min with | some (some m) => decide (intKey t.signed m < 0) | _ => true) = true then .err else
  .ok a

/-- `take(&batch, &shifted)`: rows by number; out of bounds is a panic. -/
def takeBatch (t : IdxTy) (batch : List α) (is : List (BitVec t.w)) : Res (List α) := Res.mapM (fun i => idx batch (i.toNat)) is

/-- The batches `poll_next` yields, from the batches of the underlying stream: stream/take_rows.rs:66-106. -/
def poll (t : IdxTy) (a : Idx t) (offset : Nat) : List (List α) → Res (List (List α))
  | [] => .ok []
  | b :: bs =>
    if a.len = 0 then .ok [] else do
    let left ← searchIdx t a offset .left
    let right ← searchIdx t a (offset + b.length) .left
    if left = right then poll t a (offset + b.length) bs else do
    let part ← a.slice left right
    -- `Scalar::from(curr_offset as $T)`: a truncating cast, non-nullable
    let shifted ← subtractScalar t part (BitVec.ofNat t.w offset) false
    let rows ← takeBatch t b shifted.vals
    let rest ← poll t a (offset + b.length) bs
    .ok (rows :: rest)

/-- `stream.take_rows(indices)` collected. -/
def takeRowsStream (t : IdxTy) (a : Idx t) (batches : List (List α)) : Res (List (List α)) := do
  let a ← tryNew t a
  poll t a 0 batches

/-! ## `ChunkedArrayReader::take_rows` -/

/-- The nullability check of array/primitive/compute/cast.rs:17-33 for a cast to a non-nullable type. -/
def castable (v : Validity) (n : Nat) : Bool := match v with
  | .nonNullable => true
  | v => match v.toLogical n with
    | .allValid _ => true
    | _ => false

/-- `try_cast(indices, u64)`: array/primitive/compute/cast.rs:9-63. -/
def castU64 (t : IdxTy) (a : Idx t) : Res (List Nat) :=
  if castable a.validity a.len then Res.mapM (fun x : BitVec t.w => if 0 ≤ intKey t.signed x then .ok (intKey t.signed x).toNat else .err) a.vals
  else .err

/-- The keys of a hash map, sorted (chunked_reader/take_rows.rs:193-199). -/
def insertKey (k : Nat) : List Nat → List Nat
  | [] => [k]
  | x :: xs => if k < x then k :: x :: xs else if k = x then x :: xs else x :: insertKey k xs

def sortedKeys : List Nat → List Nat
  | [] => []
  | k :: ks => insertKey k (sortedKeys ks)

/-- The chunk a row belongs to: chunked_reader/take_rows.rs:178-181 -/
def chunkOf (rowOffsets : List Nat) (i : Nat) : Res Nat := do
  let r ← searchSlice (compare : Nat → Nat → Ordering) rowOffsets i .right
  let e ← r.toEndsIndex rowOffsets.length
  .ok ((e - 1) % 2 ^ 32)

/-- `find_chunks`: chunked_reader/take_rows.rs:156-200; the positions recorded per chunk are not used afterwards. -/
def findChunks (t : IdxTy) (rowOffsets : List Nat) (a : Idx t) : Res (List Nat) := do
  let is ← castU64 t a
  let outOfBounds := match is.getLast?, rowOffsets.getLast? with
    | some l, some n => decide (l ≥ n)
    | _, _ => false
  if outOfBounds then .err else do
  let cs ← Res.mapM (chunkOf rowOffsets) is
  .ok (sortedKeys cs)

/-- `take_from_chunk`: chunked_reader/take_rows.rs:117-151. `read start stop` are the batches read from a byte range. -/
def takeFromChunk (t : IdxTy) (read : Nat → Nat → Res (List (List α))) (a : Idx t) (bytes rows : Nat × Nat) : Res (List (List α)) := do
  let _ ← Res.sub bytes.2 bytes.1
  let start ← searchIdx t a rows.1 .left
  let stop ← searchIdx t a rows.2 .right
  let rel ← a.slice start stop
  let y ← castScalar t rows.1
  let rel ← subtractScalar t rel y (nullable rel.validity)
  let batches ← read bytes.1 bytes.2
  takeRowsStream t rel batches

/-- One chunk range of `take_rows_strict_sorted` (no coalescing: every chunk is its own range), chunked_reader/take_rows.rs:51-101, 110-116 -/
def takeChunk (t : IdxTy) (read : Nat → Nat → Res (List (List α))) (byteOffsets rowOffsets : List Nat) (a : Idx t) (c : Nat) : Res (List (List α)) := do
  let r0 ← idx rowOffsets c
  let b0 ← idx byteOffsets c
  let r1 ← idx rowOffsets (c + 1)
  let b1 ← idx byteOffsets (c + 1)
  takeFromChunk t read a (b0, b1) (r0, r1)

/-- `take_rows`: chunked_reader/take_rows.rs:22-101. The result's chunks. -/
def takeRows (t : IdxTy) (read : Nat → Nat → Res (List (List α))) (byteOffsets rowOffsets : List Nat) (a : Idx t) : Res (List (List α)) := do
  -- chunked_reader/mod.rs:45-50
  if byteOffsets.length ≠ rowOffsets.length then .err else
  if (primStats (intElem t.signed t.w) a).isStrictSorted.getD false = false then .panic else do
  let cs ← findChunks t rowOffsets a
  let parts ← Res.mapM (takeChunk t read byteOffsets rowOffsets a) cs
  .ok parts.flatten

end Vx.TakeRows
