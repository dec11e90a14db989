import Verif.Model.Validity
import Verif.Model.BoolPred
import Verif.Spec.Validity
/-! # Variable-length binary arrays (vortex-array/src/array/varbin) -/

namespace Vx.VarBin

abbrev Byte := BitVec 8

/-- `VarBinArray`: `n + 1` offsets into a bytes buffer plus validity (mod.rs:32-88). The utf8/binary distinction only tags the dtype. -/
structure Arr where
  nullable : Bool
  offsets : List Nat
  bytes : List Byte
  validity : Validity
  deriving DecidableEq, Repr

/-- `VarBinArray::try_new` (mod.rs:46-88): nullability and validity must agree, the validity must fit; `offsets.len() - 1` underflows
on empty offsets. Contents of the offsets are not checked. -/
def tryNew (nullable : Bool) (offsets : List Nat) (bytes : List Byte) (v : Validity) : Res Arr := do
  Res.guard (nullable == v.nullable)
  let n ← Res.sub offsets.length 1
  v.checkLen n
  .ok ⟨nullable, offsets, bytes, v⟩

def Arr.len (a : Arr) : Nat := a.offsets.length - 1

/-- `&data[start..stop]`: a panic when out of range. -/
def sub (data : List Byte) (s e : Nat) : Res (List Byte) :=
  if s ≤ e ∧ e ≤ data.length then .ok ((data.drop s).take (e - s)) else .panic

/-! ## Builder (builder.rs) -/

/-- `VarBinBuilder` (builder.rs:12-16). -/
structure Builder where
  offsets : List Nat
  data : List Byte
  valid : List Bool
  deriving DecidableEq, Repr

/-- `with_capacity` (builder.rs:29-37). -/
def Builder.new : Builder := ⟨[0], [], []⟩

/-- `push_value` (builder.rs:48-61); `maxO` is the largest value of the offset type. -/
def pushValue (maxO : Nat) (b : Builder) (v : List Byte) : Res Builder :=
  if b.data.length + v.length ≤ maxO then .ok ⟨b.offsets ++ [b.data.length + v.length], b.data ++ v, b.valid ++ [true]⟩ else .panic

/-- `push_null` (builder.rs:63-67). -/
def pushNull (b : Builder) : Res Builder := do
  let n ← Res.sub b.offsets.length 1
  let o ← idx b.offsets n
  .ok ⟨b.offsets ++ [o], b.data, b.valid ++ [false]⟩

/-- `push` (builder.rs:40-46). -/
def push (maxO : Nat) (b : Builder) : Option (List Byte) → Res Builder
  | some v => pushValue maxO b v
  | none => pushNull b

/-- `push_values` (builder.rs:69-79); the addition of two offsets panics on overflow in a debug build. -/
def addO (maxO a b : Nat) : Res Nat := if a + b ≤ maxO then .ok (a + b) else .panic

def pushValues (maxO : Nat) (b : Builder) (values : List Byte) (endOffsets : List Nat) (num : Nat) : Res Builder := do
  let os ← Res.mapM (addO maxO b.data.length) endOffsets
  .ok ⟨b.offsets ++ os, b.data ++ values, b.valid ++ List.replicate num true⟩

/-- A sequence of pushes. -/
def pushAll (maxO : Nat) (b : Builder) : List (Option (List Byte)) → Res Builder
  | [] => .ok b
  | r :: rs => do
    let b ← push maxO b r
    pushAll maxO b rs

/-- `Err` turned into a panic by `vortex_expect`. -/
def expect : Res α → Res α
  | .ok a => .ok a
  | _ => .panic

/-- `finish` (builder.rs:81-96). arrow's `NullBufferBuilder::finish` is `None` when no null was appended. -/
def finish (b : Builder) (nullable : Bool) : Res Arr :=
  let nulls : Option (List Bool) := if b.valid.all (fun x => x) then none else some b.valid
  if nullable then
    expect (tryNew nullable b.offsets b.data (match nulls with | none => .allValid | some v => Validity.ofBooleanBuffer v))
  else match nulls with
    | none => expect (tryNew nullable b.offsets b.data .nonNullable)
    | some _ => .panic

/-- `from_iter` (mod.rs:150-161), with the offset type given by its largest value. -/
def fromIter (maxO : Nat) (nullable : Bool) (rs : List (Option (List Byte))) : Res Arr := do
  let b ← pushAll maxO .new rs
  finish b nullable

/-! ## Access -/

/-- `bytes_at` (mod.rs:193-198): `offset_at` indexes the offsets (panic), `slice` checks bounds (error). -/
def bytesAt (a : Arr) (i : Nat) : Res (List Byte) := do
  let s ← idx a.offsets i
  let e ← idx a.offsets (i + 1)
  sliceList a.bytes s e

/-- `scalar_at` (compute/mod.rs:35-43) behind the entry point. -/
def scalarAt (a : Arr) (i : Nat) : Res (Option (List Byte)) :=
  if i ≥ a.len then .err else do
    let v ← a.validity.isValid i
    if !v then .ok none else do
      let b ← bytesAt a i
      .ok (some b)

/-- `sliced_bytes` (mod.rs:124-131). -/
def slicedBytes (a : Arr) : Res (List Byte) := do
  let f ← Res.ofOption a.offsets[0]?
  let n ← Res.sub a.offsets.length 1
  let l ← Res.ofOption a.offsets[n]?
  sliceList a.bytes f l

/-- `LogicalValidity::to_null_buffer` (validity.rs): `None` when all valid. -/
def nullBuffer : LogicalValidity → Option (List Bool)
  | .allValid _ => none
  | .allInvalid n => some (List.replicate n false)
  | .array a => some a

/-- One element of `with_iterator` (accessor.rs:25-44). -/
def iterElem (bytes : List Byte) (p : (Nat × Nat) × Bool) : Res (Option (List Byte)) :=
  if p.2 then do
    let b ← sub bytes p.1.1 p.1.2
    .ok (some b)
  else .ok none

/-- `with_iterator` (accessor.rs:9-48): the rows handed to the callback. -/
def iter (a : Arr) : Res (List (Option (List Byte))) :=
  match nullBuffer (a.validity.toLogical a.len) with
  | none => Res.mapM (fun p => iterElem a.bytes (p, true)) (a.offsets.zip a.offsets.tail)
  | some v => Res.mapM (iterElem a.bytes) ((a.offsets.zip a.offsets.tail).zip v)

/-! ## Slice, take, filter -/

/-- `slice` (compute/slice.rs:7-17) behind the entry-point bounds check. -/
def slice (a : Arr) (s e : Nat) : Res Arr :=
  if s > a.len then .err else if e > a.len then .err else if s > e then .err else do
    let os ← sliceList a.offsets s (e + 1)
    let v ← a.validity.slice s e
    tryNew a.nullable os a.bytes v

/-- `&data[offsets[i]..offsets[i + 1]]` (compute/take.rs:41-52, :68-77; compute/filter.rs). -/
def spanAt (offsets : List Nat) (data : List Byte) (i : Nat) : Res (List Byte) := do
  let s ← idx offsets i
  let e ← idx offsets (i + 1)
  sub data s e

/-- The loop of `take` (compute/take.rs:41-54). -/
def takeLoop (maxO : Nat) (offsets : List Nat) (data : List Byte) (b : Builder) : List Nat → Res Builder
  | [] => .ok b
  | i :: is => do
    let v ← spanAt offsets data i
    let b ← push maxO b (some v)
    takeLoop maxO offsets data b is

/-- The loop body of `take_nullable` (compute/take.rs:64-80). -/
def nullElem (offsets : List Nat) (data : List Byte) (nb : List Bool) (i : Nat) : Res (Option (List Byte)) := do
  let v ← idx nb i
  if v then do
    let x ← spanAt offsets data i
    .ok (some x)
  else .ok none

/-- The loop of `take_nullable` (compute/take.rs:64-80). -/
def takeNullLoop (maxO : Nat) (offsets : List Nat) (data : List Byte) (nb : List Bool) (b : Builder) : List Nat → Res Builder
  | [] => .ok b
  | i :: is => do
    let r ← nullElem offsets data nb i
    let b ← push maxO b r
    takeNullLoop maxO offsets data nb b is

/-- `take` (compute/take.rs:11-83). -/
def take (maxO : Nat) (a : Arr) (is : List Nat) : Res Arr :=
  match nullBuffer (a.validity.toLogical a.len) with
  | some nb => do
    let b ← takeNullLoop maxO a.offsets a.bytes nb .new is
    finish b a.nullable
  | none => do
    let b ← takeLoop maxO a.offsets a.bytes .new is
    finish b a.nullable

/-- `update_non_nullable_slice` (compute/filter.rs:108-134). `offsets[start..end + 1]` panics out of range; the subtraction underflows
on decreasing offsets. -/
def updateSlice (maxO : Nat) (data : List Byte) (offsets : List Nat) (b : Builder) (start stop : Nat) : Res Builder := do
  let os ← idx offsets start
  let oe ← idx offsets stop
  let newData ← sub data os oe
  let window := (offsets.drop start).take (stop + 1 - start)
  let rel ← Res.mapM (fun o => Res.sub o os) window
  pushValues maxO b newData (rel.drop 1) (stop - start)

/-- The element loop of the nullable branch (compute/filter.rs:74-97): `null_sl.iter().enumerate()`. -/
def nullSliceLoop (maxO : Nat) (offsets : List Nat) (data : List Byte) (b : Builder) (i : Nat) : List Bool → Res Builder
  | [] => .ok b
  | true :: vs => do
    let x ← spanAt offsets data i
    let b ← pushValue maxO b x
    nullSliceLoop maxO offsets data b (i + 1) vs
  | false :: vs => do
    let b ← pushNull b
    nullSliceLoop maxO offsets data b (i + 1) vs

/-- arrow's `NullBuffer::slice(start, len)` panics out of range. -/
def nbSlice (nb : List Bool) (start n : Nat) : Res (List Bool) :=
  if start + n ≤ nb.length then .ok ((nb.drop start).take n) else .panic

/-- One run of the predicate in the nullable branch (compute/filter.rs:69-98). -/
def nullRun (maxO : Nat) (offsets : List Nat) (data : List Byte) (nb : List Bool) (b : Builder) (r : Nat × Nat) : Res Builder := do
  let sl ← nbSlice nb r.1 (r.2 - r.1)
  if sl.count false = 0 then updateSlice maxO data offsets b r.1 r.2
  else nullSliceLoop maxO offsets data b r.1 sl

def nullRuns (maxO : Nat) (offsets : List Nat) (data : List Byte) (nb : List Bool) (b : Builder) : List (Nat × Nat) → Res Builder
  | [] => .ok b
  | r :: rs => do
    let b ← nullRun maxO offsets data nb b r
    nullRuns maxO offsets data nb b rs

def plainRuns (maxO : Nat) (offsets : List Nat) (data : List Byte) (b : Builder) : List (Nat × Nat) → Res Builder
  | [] => .ok b
  | r :: rs => do
    let b ← updateSlice maxO data offsets b r.1 r.2
    plainRuns maxO offsets data b rs

/-- `filter_select_var_bin_by_slice` (compute/filter.rs:37-106). -/
def filterBySlice (maxO : Nat) (a : Arr) (p : BoolPred) : Res Arr :=
  match nullBuffer (a.validity.toLogical a.len) with
  | some nb => do
    let b ← nullRuns maxO a.offsets a.bytes nb .new p.slices
    finish b a.nullable
  | none => do
    let b ← plainRuns maxO a.offsets a.bytes .new p.slices
    finish b a.nullable

/-- The loop body of the by-index filter (compute/filter.rs:162-178). -/
def idxElem (a : Arr) (i : Nat) : Res (Option (List Byte)) := do
  let v ← a.validity.isValid i
  if v then do
    let x ← spanAt a.offsets a.bytes i
    .ok (some x)
  else .ok none

def idxLoop (maxO : Nat) (a : Arr) (b : Builder) : List Nat → Res Builder
  | [] => .ok b
  | i :: is => do
    let r ← idxElem a i
    let b ← push maxO b r
    idxLoop maxO a b is

/-- `filter_select_var_bin_by_index` (compute/filter.rs:136-181). -/
def filterByIndex (maxO : Nat) (a : Arr) (p : BoolPred) : Res Arr := do
  let b ← idxLoop maxO a .new p.indices
  finish b a.nullable

/-- `filter` (compute/filter.rs:13-35) behind the entry-point length check (compute/filter.rs:34-40 of vortex-array/src/compute). -/
def filter (maxO : Nat) (a : Arr) (p : BoolPred) : Res Arr :=
  if p.len ≠ a.len then .err
  else if p.trueCount * 2 > p.len then filterBySlice maxO a p else filterByIndex maxO a p

end Vx.VarBin
