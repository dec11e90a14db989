import Verif.Model.Sparse
/-! # Run-end encoding (encodings/runend/src) -/

namespace Vx

/-- encodings/runend/src/array.rs:22-28 and children (96-110). `ends` is the unsigned ends child (logical content), `values` one
value per run, `validity` one bit per row, `offset`/`length` the logical window. -/
structure RunEnd (α : Type) where
  ends : List Nat
  values : PArr α
  validity : Validity
  offset : Nat
  length : Nat
  deriving DecidableEq, Repr

namespace RunEnd

/-- The loop of `runend_encode_primitive`, compress.rs:81-90, from the element after `last`; `stop` is the Rust `end`. `ne` is the
element type's `!=`. -/
def encodeLoop (ne : α → α → Bool) : List α → (last : α) → (stop : Nat) → List Nat × List α
  | [], last, stop => ([stop], [last])
  | e :: es, last, stop =>
    let r := encodeLoop ne es e (stop + 1)
    if ne e last then (stop :: r.1, last :: r.2) else r

/-- `runend_encode_primitive`, compress.rs:70-94 -/
def encodePrimitive (ne : α → α → Bool) : List α → List Nat × List α
  | [] => ([], [])
  | x :: xs => encodeLoop ne xs x 1

/-- `compute_is_strict_sorted` on the ends (exact for a non-nullable integer child: C25). -/
def strictSorted : List Nat → Bool
  | [] => true
  | [_] => true
  | a :: b :: l => decide (a < b) && strictSorted (b :: l)

/-- The first-end test of array.rs:60-65 -/
def checkFirst (ends : List Nat) (offset : Nat) : Res Unit :=
  if offset ≠ 0 then
    match ends.head? with
    | none => .ok ()
    | some e => if e ≤ offset then .err else .ok ()
  else .ok ()

/-- `with_offset_and_length`, array.rs:46-92. The dtype test of the ends (unsigned, non-nullable) is fixed by the type here. -/
def withOffsetAndLength (ends : List Nat) (values : PArr α) (validity : Validity) (offset length : Nat) : Res (RunEnd α) := do
  Res.guard (values.validity.nullable == validity.nullable)
  checkFirst ends offset
  Res.guard (strictSorted ends)
  validity.checkLen length
  .ok ⟨ends, values, validity, offset, length⟩

/-- `try_new`, array.rs:37-44 -/
def tryNew (ends : List Nat) (values : PArr α) (validity : Validity) : Res (RunEnd α) :=
  withOffsetAndLength ends values validity 0 (ends.getLast?.getD 0)

/-- `RunEndArray::encode`, array.rs:118-125, with `runend_encode`, compress.rs:12-68 (statistics hints are not modelled here). -/
def encode (ne : α → α → Bool) (a : PArr α) : Res (RunEnd α) :=
  let ev := encodePrimitive ne a.vals
  tryNew ev.1 ⟨ev.2, if a.validity.nullable then .allValid else .nonNullable⟩ a.validity

/-- The fold of `runend_decode_primitive`, compress.rs:143-148: `decoded.len()` grows to each trimmed end. -/
def decodeLoop (acc : List α) : List (Nat × α) → Res (List α)
  | [] => .ok acc
  | (stop, v) :: l => do
    let n ← Res.sub stop acc.length
    decodeLoop (acc ++ List.replicate n v) l

/-- `runend_decode_primitive`, compress.rs:113-149; `zip_eq` panics on different lengths, and so does an end before the offset. -/
def decodePrimitive (ends : List Nat) (values : List α) (offset length : Nat) : Res (List α) := do
  let trimmed ← Res.mapM (fun e => do let d ← Res.sub e offset; .ok (min d length)) ends
  Res.assert (trimmed.length == values.length)
  decodeLoop [] (trimmed.zip values)

/-- `into_canonical`, array.rs:187-194 with compress.rs:96-111 (the validity of the values child is not looked at). -/
def canonical (a : RunEnd α) : Res (PArr α) := do
  let xs ← decodePrimitive a.ends a.values.vals a.offset a.length
  .ok ⟨xs, a.validity⟩

/-- One search of the ends, array.rs:95-98 / 104-116 -/
def physical (a : RunEnd α) (v : Nat) : Res Nat := do
  let r ← searchSlice compare a.ends v .right
  r.toEndsIndex a.ends.length

/-- `find_physical_index`, array.rs:95-98 -/
def findPhysicalIndex (a : RunEnd α) (i : Nat) : Res Nat := a.physical (i + a.offset)

/-- compute/unary/scalar_at.rs:12-27 over compute.rs:26-29 -/
def scalarAt (a : RunEnd α) (i : Nat) : Res (Option α) :=
  if i ≥ a.length then .err else do
    let v ← a.validity.isValid i
    if !v then .ok none else do
      let p ← a.findPhysicalIndex i
      a.values.scalarAt p

/-- compute.rs:94-108 behind the bounds check of vortex-array/src/compute/slice.rs:22-47 -/
def slice (a : RunEnd α) (s e : Nat) : Res (RunEnd α) :=
  if s > a.length then .err
  else if e > a.length then .err
  else if s > e then .err
  else do
    let b ← a.findPhysicalIndex s
    let t ← a.findPhysicalIndex e
    let es ← sliceList a.ends b (t + 1)
    let vs ← a.values.slice b (t + 1)
    let v ← a.validity.slice s e
    withOffsetAndLength es vs v (s + a.offset) (e - s)

/-- The array `take` returns: a plain array, a constant null array or a sparse array (compute.rs:63-91). -/
inductive Taken (α : Type) where
  | dense (a : PArr α)
  | nulls (n : Nat)
  | sparse (a : Sparse α)
  deriving DecidableEq, Repr

/-- The index translation of compute.rs:40-56 -/
def takePhysical (a : RunEnd α) (is : List Nat) : Res (List Nat) := do
  let adj ← Res.mapM (fun i => if i ≥ a.length then .err else .ok (i + a.offset)) is
  Res.mapM a.physical adj

/-- `set_indices` of a boolean buffer: the positions of the set bits. -/
def setIndices (bs : List Bool) : List Nat := (List.range bs.length).filter (fun i => bs[i]?.getD false)

/-- The null handling of compute.rs:63-91 -/
def takeNulls (a : RunEnd α) (dense : PArr α) (is : List Nat) : Res (Taken α) :=
  match a.validity with
  | .nonNullable => .ok (.dense dense)
  | .allValid => .ok (.dense dense)
  | .allInvalid => .ok (.nulls is.length)
  | .array bits => do
    let dv ← takeList bits is
    let fv ← dense.filter dv
    let s ← Sparse.tryNew (setIndices dv) fv dv.length none
    .ok (.sparse s)

/-- compute.rs:38-92 -/
def take (a : RunEnd α) (is : List Nat) : Res (Taken α) := do
  let ph ← a.takePhysical is
  let dense ← a.values.take ph
  a.takeNulls dense is

end RunEnd
end Vx
