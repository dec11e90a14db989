import Verif.Model.RunEnd
/-! # Run-end encoding of booleans (encodings/runend-bool/src) -/

namespace Vx

/-- encodings/runend-bool/src/array.rs:20-27: run ends, the value of the first run, validity, window. -/
structure RunEndBool where
  ends : List Nat
  start : Bool
  validity : Validity
  length : Nat
  offset : Nat
  deriving DecidableEq, Repr

namespace RunEndBool

/-- `value_at_index`, compress.rs:89-95 -/
def valueAt (idx : Nat) (start : Bool) : Bool := if idx % 2 = 0 then start else !start

/-- `BooleanBuffer::set_slices` (arrow-buffer; trusted contract): the maximal `[start, end)` ranges of set bits, in order. -/
def setSlices (pos : Nat) (run : Option Nat) : List Bool → List (Nat × Nat)
  | [] => match run with
    | some s => [(s, pos)]
    | none => []
  | true :: bs => setSlices (pos + 1) (some (run.getD pos)) bs
  | false :: bs => match run with
    | some s => (s, pos) :: setSlices (pos + 1) none bs
    | none => setSlices (pos + 1) none bs

/-- `runend_bool_encode_slice`, compress.rs:16-41 -/
def encodeSlice (bs : List Bool) : List Nat × Bool :=
  match setSlices 0 none bs with
  | [] => ([bs.length], false)
  | (s, e) :: rest =>
    let ends := (if s = 0 then [] else [s]) ++ e :: rest.flatMap (fun p => [p.1, p.2])
    (if ends.getLast? = some bs.length then ends else ends ++ [bs.length], decide (s = 0))

/-- `with_offset_and_size`, array.rs:42-83 -/
def withOffsetAndSize (ends : List Nat) (start : Bool) (validity : Validity) (length offset : Nat) : Res RunEndBool := do
  Res.guard (RunEnd.strictSorted ends)
  Res.guard (!ends.isEmpty)
  validity.checkLen length
  .ok ⟨ends, start, validity, length, offset⟩

/-- `try_new`, array.rs:37-40; `ends.len() - 1` underflows without ends. -/
def tryNew (ends : List Nat) (start : Bool) (validity : Validity) : Res RunEndBool := do
  let k ← Res.sub ends.length 1
  let n ← idx ends k
  withOffsetAndSize ends start validity n 0

/-- Encoding as `sampling-compressor` does it: `runend_bool_encode` (compress.rs:11-14), then `try_new` with the array's validity. -/
def encode (a : PArr Bool) : Res RunEndBool := tryNew (encodeSlice a.vals).1 (encodeSlice a.vals).2 a.validity

/-- The loop of compress.rs:82-86 -/
def decodeLoop (start : Bool) : (idx : Nat) → (acc : List Bool) → List Nat → Res (List Bool)
  | _, acc, [] => .ok acc
  | i, acc, stop :: l => do
    let n ← Res.sub stop acc.length
    decodeLoop start (i + 1) (acc ++ List.replicate n (valueAt i start)) l

/-- `runend_bool_decode_slice`, compress.rs:56-87 -/
def decodeSlice (ends : List Nat) (start : Bool) (offset length : Nat) : Res (List Bool) := do
  let trimmed ← Res.mapM (fun e => do let d ← Res.sub e offset; .ok (min d length)) ends
  decodeLoop start 0 [] trimmed

/-- `into_canonical`, array.rs:145-157, compress.rs:43-54 (`BoolArray::try_new` re-checks the validity length). -/
def canonical (a : RunEndBool) : Res (PArr Bool) := do
  let bs ← decodeSlice a.ends a.start a.offset a.length
  a.validity.checkLen bs.length
  .ok ⟨bs, a.validity⟩

/-- `find_physical_index`, array.rs:85-88 -/
def findPhysicalIndex (a : RunEndBool) (i : Nat) : Res Nat := do
  let r ← searchSlice compare a.ends (i + a.offset) .right
  r.toEndsIndex a.ends.length

/-- vortex-array/src/compute/unary/scalar_at.rs:12-27 over compute.rs:27-33 -/
def scalarAt (a : RunEndBool) (i : Nat) : Res (Option Bool) :=
  if i ≥ a.length then .err else do
    let v ← a.validity.isValid i
    if !v then .ok none else do
      let p ← a.findPhysicalIndex i
      .ok (some (valueAt p a.start))

/-- compute.rs:46-70: `BoolArray::from(Vec<bool>)` is non-nullable. -/
def take (a : RunEndBool) (is : List Nat) : Res (PArr Bool) := do
  let ph ← Res.mapM (fun i => if i ≥ a.length then .err else a.findPhysicalIndex i) is
  .ok ⟨ph.map (fun p => valueAt p a.start), .nonNullable⟩

/-- compute.rs:72-86 behind the bounds check of vortex-array/src/compute/slice.rs:22-47. As in the code, the validity is sliced with
the run numbers and the new offset is `start`. -/
def slice (a : RunEndBool) (s e : Nat) : Res RunEndBool :=
  if s > a.length then .err
  else if e > a.length then .err
  else if s > e then .err
  else do
    let b ← a.findPhysicalIndex s
    let t ← a.findPhysicalIndex e
    let es ← sliceList a.ends b (t + 1)
    let v ← a.validity.slice b (t + 1)
    withOffsetAndSize es (valueAt b a.start) v (e - s) s

end RunEndBool
end Vx
