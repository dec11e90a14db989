import Verif.Model.Primitive
import Verif.Model.DType
import Verif.Model.ALP
/-! # Batched iteration and elementwise functions

vortex-array/src/iter/mod.rs (accessors, batches, the vectorised iterator), vortex-array/src/elementwise.rs,
vortex-array/src/array/primitive/mod.rs:202-466 (the accessor of primitive arrays, `unary`, `binary`),
vortex-array/src/array/constant/variants.rs:91-115 and encodings/alp/src/alp/array.rs:141-255 (two further accessors),
vortex-array/src/array/primitive/accessor.rs and vortex-array/src/array/bool/accessors.rs (`with_iterator`). -/

namespace Vx.Iter

/-- `ITER_BATCH_SIZE`, iter/mod.rs:14; also `CHUNK_SIZE`, array/primitive/mod.rs:336. -/
def batchSize : Nat := 1024

/-- The `Accessor` trait, iter/mod.rs:24-57, as the record of its methods. -/
structure Accessor (α : Type) where
  len : Nat
  isValid : Nat → Res Bool
  value : Nat → Res α
  validity : Validity
  decode : Nat → Res (List α)

/-- `batch_size`, iter/mod.rs:25-27: the subtraction underflows past the end. -/
def sizeAt (len start : Nat) : Res Nat := do
  let r ← Res.sub len start
  .ok (min batchSize r)

/-- The default `decode_batch`, iter/mod.rs:33-56. -/
def decodeDefault (len : Nat) (value : Nat → Res α) (start : Nat) : Res (List α) := do
  let n ← sizeAt len start
  Res.mapM (fun k => value (start + k)) (List.range n)

/-- `Batch`, iter/mod.rs:88-91 -/
structure Batch (α : Type) where
  data : List α
  validity : Validity

/-- `FlattenedBatch::next`, iter/mod.rs:146-158, from position `cur`; the new position is returned with the item. -/
def flatNext (b : Batch α) (cur : Nat) : Res (Option (Option α × Nat)) :=
  if cur = b.data.length then .ok none
  else do
    let v ← b.validity.isValid cur
    if !v then .ok (some (none, cur + 1))
    else do
      let x ← idx b.data cur
      .ok (some (some x, cur + 1))

/-- Collecting a `FlattenedBatch`; `fuel` bounds the number of items. -/
def flatCollect (b : Batch α) : (fuel cur : Nat) → Res (List (Option α))
  | 0, _ => .panic
  | fuel + 1, cur => do
    match ← flatNext b cur with
    | none => .ok []
    | some (x, cur') => do
      let xs ← flatCollect b fuel cur'
      .ok (x :: xs)

/-- `Batch::into_iter().collect()`, iter/mod.rs:169-179 -/
def Batch.items (b : Batch α) : Res (List (Option α)) := flatCollect b (b.data.length + 1) 0

/-- `VectorizedArrayIter::next`, iter/mod.rs:184-203, from position `cur`. -/
def next (a : Accessor α) (cur : Nat) : Res (Option (Batch α × Nat)) :=
  if cur = a.len then .ok none
  else do
    let data ← a.decode cur
    match a.validity.slice cur (cur + data.length) with
    | .ok v => .ok (some (⟨data, v⟩, cur + data.length))
    | _ => .panic

/-- Running a `VectorizedArrayIter` to its end; `fuel` bounds the number of calls to `next`. -/
def batchesFrom (a : Accessor α) : (fuel cur : Nat) → Res (List (Batch α))
  | 0, _ => .panic
  | fuel + 1, cur => do
    match ← next a cur with
    | none => .ok []
    | some (b, cur') => do
      let bs ← batchesFrom a fuel cur'
      .ok (b :: bs)

/-- All the batches of an array. -/
def batches (a : Accessor α) : Res (List (Batch α)) := batchesFrom a (a.len + 1) 0

/-- `size_hint` of a fresh iterator, iter/mod.rs:205-210: it claims to be exact (`ExactSizeIterator`, line 213). -/
def sizeHint (a : Accessor α) : Nat := a.len

/-- `iter.flatten().collect()` -/
def items (a : Accessor α) : Res (List (Option α)) := do
  let bs ← batches a
  let xss ← Res.mapM Batch.items bs
  .ok xss.flatten

/-! ### accessors -/

/-- array/primitive/mod.rs:202-235; the copy of `decode_batch` reads `batch_size` values from `start`. -/
def ofPrim (a : PArr α) : Accessor α where
  len := a.len
  isValid := a.validity.isValid
  value := idx a.vals
  validity := a.validity
  decode := fun s => do
    let n ← sizeAt a.len s
    .ok ((a.vals.drop s).take n)

/-- array/constant/variants.rs:91-115: `none` is the null scalar; converting it to a native value fails and is unwrapped. -/
def ofConst (n : Nat) (v : Option α) : Accessor α where
  len := n
  isValid := fun _ => .ok v.isSome
  value := fun _ => Res.unwrap v
  validity := if v.isNone then .allInvalid else .allValid
  decode := decodeDefault n (fun _ => Res.unwrap v)

/-- The patching loop of `ALPAccessor::decode_batch`, encodings/alp/src/alp/array.rs:188-197. -/
def patchLoop (p : Accessor F) (start : Nat) : List F → Res (List F)
  | [] => .ok []
  | x :: xs => do
    let v ← p.isValid start
    let y ← if v then p.value start else .ok x
    let ys ← patchLoop p (start + 1) xs
    .ok (y :: ys)

/-- `ALPAccessor`, encodings/alp/src/alp/array.rs:141-201 -/
def ofALP (dec : I → F) (enc : Accessor I) (patches : Option (Accessor F)) (validity : Validity) : Accessor F where
  len := enc.len
  isValid := validity.isValid
  value := fun i => do
    match patches with
    | some p => do
      let v ← p.isValid i
      if v then p.value i else do
        let e ← enc.value i
        .ok (dec e)
    | none => do
      let e ← enc.value i
      .ok (dec e)
  validity := validity
  decode := fun s => do
    let es ← enc.decode s
    match patches with
    | some p => patchLoop p s (es.map dec)
    | none => .ok (es.map dec)

/-- `f32_accessor`/`f64_accessor` of a sparse array are the trait's defaults: vortex-array/src/variants.rs:159-169,
vortex-array/src/array/sparse/variants.rs. -/
def ofSparse (_ : Sparse F) : Option (Accessor F) := none

/-- `f32_accessor`/`f64_accessor` of an ALP array whose patches are sparse (what the compressor builds) and whose encoded child is
a primitive array, encodings/alp/src/alp/array.rs:203-255; `and_then` drops patches without an accessor. -/
def alpAccessor (dec : I → F) (a : ALP.Arr F I) : Accessor F :=
  ofALP dec (ofPrim a.encoded) (a.patches.bind ofSparse) (a.encoded.validity.toLogical a.encoded.len).intoValidity

/-! ### elementwise functions -/

/-- A write into an output of possibly uninitialised slots; out of bounds is undefined behaviour (or a panic). -/
def write (out : List (Option β)) (i : Nat) (y : β) : Res (List (Option β)) :=
  if i < out.length then .ok (out.set i (some y)) else .panic

/-- Writing `f` of consecutive inputs from `pos` on: array/primitive/mod.rs:352-358, 367-369, 450-454, 457-463. -/
def writeFrom (f : α → β) (out : List (Option β)) (pos : Nat) : List α → Res (List (Option β))
  | [] => .ok out
  | x :: xs => do
    let out' ← write out pos (f x)
    writeFrom f out' (pos + 1) xs

/-- The loop over the whole chunks, array/primitive/mod.rs:360-372; `chunks` is how many are left. -/
def writeChunks (f : α → β) (data : List α) : (chunks offset : Nat) → List (Option β) → Res (List (Option β))
  | 0, _, out => .ok out
  | n + 1, offset, out => do
    let out' ← writeFrom f out offset ((data.drop offset).take batchSize)
    writeChunks f data n (offset + batchSize) out'

/-- Reading the output back as initialised memory; an uninitialised slot would be undefined behaviour. -/
def initialised (out : List (Option β)) : Res (List β) := Res.mapM Res.unwrap out

/-- `PrimitiveArray::from_vec`: the validity has to fit (validity.rs:69-87), a failure is unwrapped. -/
def fromVec (vals : List β) (v : Validity) : Res (PArr β) :=
  if (v.checkLen vals.length).isOk then .ok ⟨vals, v⟩ else .panic

/-- `UnaryFn for PrimitiveArray`, array/primitive/mod.rs:338-378: the remainder first, then the whole chunks. -/
def unary (f : α → β) (a : PArr α) : Res (PArr β) := do
  let n := a.vals.length
  let start := n - n % batchSize
  let out ← writeFrom f (List.replicate n none) start (a.vals.drop start)
  let out ← writeChunks f a.vals (n / batchSize) 0 out
  let vals ← initialised out
  fromVec vals a.validity

/-- The right-hand side of `binary`: any array, seen through its dtype (`none` when it is not primitive), its length, its logical
validity and the accessors it offers (vortex-array/src/variants.rs:126-214: most encodings offer none). -/
structure Rhs (γ : Type) where
  ptype : Option PType
  len : Nat
  validity : LogicalValidity
  accessor : PType → Option (Accessor γ)

/-- A primitive array as a right-hand side: one accessor, for its own ptype, and none at all for `f16`
(array/primitive/mod.rs:250-290). -/
def Rhs.ofPrim (p : PType) (a : PArr γ) : Rhs γ where
  ptype := some p
  len := a.len
  validity := a.validity.toLogical a.len
  accessor := fun q => if q = p ∧ p ≠ .f16 then some (Iter.ofPrim a) else none

/-- A constant array as a right-hand side, array/constant/variants.rs:117-200 -/
def Rhs.ofConst (p : PType) (n : Nat) (v : Option γ) : Rhs γ where
  ptype := some p
  len := n
  validity := if v.isNone then .allInvalid n else .allValid n
  accessor := fun q => if q = p ∧ p ≠ .f16 then some (Iter.ofConst n v) else none

/-- An array of an encoding without accessors (dictionary, sparse, chunked, run-end, bit-packed, frame-of-reference, …). -/
def Rhs.opaque (p : PType) (n : Nat) (v : LogicalValidity) : Rhs γ := ⟨some p, n, v, fun _ => none⟩

/-- `dyn_cast_array_iter`, elementwise.rs:24-92: the `f16` arm asks for the `u64` iterator. -/
def dynCast (rhs : Rhs γ) (p : PType) : Res (Accessor γ) :=
  Res.unwrap (rhs.accessor (if p = .f16 then .u64 else p))

/-- `process_batch`, array/primitive/mod.rs:431-466; both branches write `f` of the pairs from `offset` on. -/
def processBatch (f : α → γ → β) (lhs : List α) (b : Batch γ) (offset : Nat) (out : List (Option β)) : Res (List (Option β)) := do
  Res.assert (b.data.length == lhs.length)
  writeFrom (fun p => f p.1 p.2) out offset (lhs.zip b.data)

/-- The loop over the batches, array/primitive/mod.rs:410-423, with `Batch::as_` (iter/mod.rs:128-134) on each of them;
`lhs[a..b]` panics out of bounds. -/
def binaryLoop (f : α → γ → β) (sameSize : Bool) (lhs : List α) : List (Batch γ) → Nat → List (Option β) → Res (List (Option β))
  | [], _, out => .ok out
  | b :: bs, offset, out => do
    Res.assert sameSize
    Res.assert (decide (offset + b.data.length ≤ lhs.length))
    let out' ← processBatch f ((lhs.drop offset).take b.data.length) b offset out
    binaryLoop f sameSize lhs bs (offset + b.data.length) out'

/-- `BinaryFn for PrimitiveArray`, array/primitive/mod.rs:380-429. `lp` is the array's ptype, `ip` and `up` the type arguments `I`
and `U`; `f` works on bit patterns. `plain`: both validities are plain boolean arrays (see `Validity.and`). -/
def binary (lp ip up : PType) (plain : Bool) (f : α → γ → β) (lhs : PArr α) (rhs : Rhs γ) : Res (PArr β) := do
  Res.guard (lhs.len == rhs.len)
  Res.guard (rhs.ptype == some lp)
  Res.guard (lp == ip)
  let v ← Validity.and plain lhs.validity rhs.validity.intoValidity
  let acc ← dynCast rhs lp
  let bs ← batches acc
  let out ← binaryLoop f (lp.bits == up.bits) lhs.vals bs 0 (List.replicate lhs.len none)
  let vals ← initialised out
  fromVec vals v

/-! ### `with_iterator` -/

/-- array/primitive/accessor.rs:8-29; `to_null_buffer` (validity.rs:343-349) is `None` for an all-valid array. -/
def primItems (a : PArr α) : List (Option α) :=
  match a.validity.toLogical a.len with
  | .allValid _ => a.vals.map some
  | .allInvalid n => List.zipWith (fun x b => if b then some x else none) a.vals (List.replicate n false)
  | .array bits => List.zipWith (fun x b => if b then some x else none) a.vals bits

/-- array/bool/accessors.rs:11-33 -/
def boolItems (a : PArr Bool) : List (Option Bool) :=
  match a.validity with
  | .nonNullable | .allValid => a.vals.map (fun b => some (if b then true else false))
  | .allInvalid => (List.range a.len).map (fun _ => none)
  | .array valid => List.zipWith (fun v x => if v then some (if x then true else false) else none) valid a.vals

end Vx.Iter
