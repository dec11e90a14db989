import Verif.Model.VarBin
/-! # Variable-length binary views (vortex-array/src/array/varbinview) -/

namespace Vx.VarBinView
open VarBin (Byte sub expect nullBuffer)

/-- A `u32` in little-endian bytes (the layout of the `repr(C)` structs `Inlined` and `Ref`, mod.rs:31-66, on a little-endian machine). -/
def le32 (n : Nat) : List Byte := [BitVec.ofNat 8 n, BitVec.ofNat 8 (n / 256), BitVec.ofNat 8 (n / 65536), BitVec.ofNat 8 (n / 16777216)]

def get32 : List Byte → Nat
  | [a, b, c, d] => a.toNat + 256 * b.toNat + 65536 * c.toNat + 16777216 * d.toNat
  | _ => 0

/-- `BinaryView::MAX_INLINED_SIZE` (mod.rs:106). -/
def maxInlined : Nat := 12

/-- `VIEW_SIZE_BYTES` (mod.rs:172). -/
def viewSize : Nat := 16

/-- `BinaryView::new_inlined` (mod.rs:108-118, :37-51): size then the bytes padded with zeros. -/
def newInlined (v : List Byte) : Res (List Byte) := do
  Res.assert (decide (v.length ≤ maxInlined))
  .ok (le32 v.length ++ (v ++ List.replicate (maxInlined - v.length) 0))

/-- `BinaryView::new_view` (mod.rs:121-125, :67-75). -/
def newView (len : Nat) (pre : List Byte) (block offset : Nat) : List Byte := le32 len ++ (pre ++ (le32 block ++ le32 offset))

/-- `BinaryView::len` (mod.rs:127-130). -/
def viewLen (view : List Byte) : Nat := get32 (view.take 4)

/-- `BinaryView::is_empty` (mod.rs:132-135), as written. -/
def viewIsEmpty (view : List Byte) : Bool := decide (viewLen view > 0)

/-- `BinaryView::is_inlined` (mod.rs:137-140). -/
def isInlined (view : List Byte) : Bool := decide (viewLen view ≤ maxInlined)

/-- `Ref::buffer_index`, `Ref::offset` (mod.rs:77-85). -/
def bufIndex (view : List Byte) : Nat := get32 ((view.drop 8).take 4)
def bufOffset (view : List Byte) : Nat := get32 ((view.drop 12).take 4)

/-- `VarBinViewArray`: 16 bytes per view, the data buffers, the validity (mod.rs:174-183). -/
structure Arr where
  nullable : Bool
  views : List Byte
  buffers : List (List Byte)
  validity : Validity
  deriving DecidableEq, Repr

def Arr.len (a : Arr) : Nat := a.views.length / viewSize

/-- `try_new` (mod.rs:211-263). -/
def tryNew (nullable : Bool) (views : List Byte) (buffers : List (List Byte)) (v : Validity) : Res Arr := do
  Res.guard (nullable == v.nullable)
  Res.guard (buffers.all fun b => decide (b.length < 2 ^ 32))
  v.checkLen (views.length / viewSize)
  .ok ⟨nullable, views, buffers, v⟩

/-- `view_at` (mod.rs:287-298); the children are read with `len * 16` bytes. -/
def viewAt (a : Arr) (i : Nat) : Res (List Byte) := sliceList (a.views.take (a.len * viewSize)) (i * viewSize) ((i + 1) * viewSize)

/-- `bytes_at` (mod.rs:439-456): `view.len() + offset` is a `u32` addition. -/
def bytesAt (a : Arr) (i : Nat) : Res (List Byte) := do
  let view ← viewAt a i
  if isInlined view then sub (view.drop 4) 0 (viewLen view)
  else do
    let buf ← idx a.buffers (bufIndex view)
    Res.assert (decide (viewLen view + bufOffset view < 2 ^ 32))
    sliceList buf (bufOffset view) (viewLen view + bufOffset view)

/-- `scalar_at` behind the entry point (compute/unary/scalar_at.rs:12-27, varbinview/compute.rs:38-47). -/
def scalarAt (a : Arr) (i : Nat) : Res (Option (List Byte)) :=
  if i ≥ a.len then .err else do
    let v ← a.validity.isValid i
    if !v then .ok none else do
      let b ← bytesAt a i
      .ok (some b)

/-- The bytes of a view in the accessor (accessor.rs:26-36): `usize` arithmetic and panicking slices. -/
def accBytes (buffers : List (List Byte)) (view : List Byte) : Res (List Byte) :=
  if isInlined view then sub (view.drop 4) 0 (viewLen view)
  else do
    let buf ← idx buffers (bufIndex view)
    sub buf (bufOffset view) (bufOffset view + viewLen view)

/-- `Views::next` (mod.rs:465-483). -/
def viewsFrom (views : List Byte) : Nat → Nat → Res (List (List Byte))
  | 0, _ => .ok []
  | n + 1, i => do
    let v ← sub views (i * viewSize) (i * viewSize + viewSize)
    let vs ← viewsFrom views n (i + 1)
    .ok (v :: vs)

def iterElem (buffers : List (List Byte)) (p : List Byte × Bool) : Res (Option (List Byte)) :=
  if p.2 then do
    let b ← accBytes buffers p.1
    .ok (some b)
  else .ok none

/-- `with_iterator` (accessor.rs:11-61). -/
def iter (a : Arr) : Res (List (Option (List Byte))) := do
  let views ← viewsFrom a.views a.len 0
  match nullBuffer (a.validity.toLogical a.len) with
  | none => Res.mapM (fun v => iterElem a.buffers (v, true)) views
  | some nb => Res.mapM (iterElem a.buffers) (views.zip nb)

/-- `slice` (compute.rs:49-66) behind the entry-point bounds check. -/
def slice (a : Arr) (s e : Nat) : Res Arr :=
  if s > a.len then .err else if e > a.len then .err else if s > e then .err else do
    let vs ← sliceList (a.views.take (a.len * viewSize)) (s * viewSize) (e * viewSize)
    let v ← a.validity.slice s e
    tryNew a.nullable vs a.buffers v

/-! ## Building through arrow

`from_iter*` (mod.rs:358-436) drives arrow's `GenericByteViewBuilder`; that builder is a trusted contract, modelled with an arbitrary
policy `flush` for when the block being filled is completed. -/

/-- Views so far, completed blocks, the block being filled, validity bits. -/
structure Builder where
  views : List (List Byte)
  done : List (List Byte)
  cur : List Byte
  valid : List Bool
  deriving DecidableEq, Repr

def Builder.new : Builder := ⟨[], [], [], []⟩

/-- arrow's `append_value`: inline up to 12 bytes, else append to a block; a block index or offset past `u32` panics. -/
def appendValue (flush : List Byte → List Byte → Bool) (b : Builder) (v : List Byte) : Res Builder :=
  if v.length ≤ 12 then do
    let w ← newInlined v
    .ok ⟨b.views ++ [w], b.done, b.cur, b.valid ++ [true]⟩
  else
    let done := if flush b.cur v then b.done ++ [b.cur] else b.done
    let cur := if flush b.cur v then [] else b.cur
    if done.length < 2 ^ 32 ∧ cur.length + v.length < 2 ^ 32 then
      .ok ⟨b.views ++ [newView v.length (v.take 4) done.length cur.length], done, cur ++ v, b.valid ++ [true]⟩
    else .panic

/-- arrow's `append_null`: an all-zero view. -/
def appendNull (b : Builder) : Builder := ⟨b.views ++ [List.replicate 16 0], b.done, b.cur, b.valid ++ [false]⟩

def appendAll (flush : List Byte → List Byte → Bool) (b : Builder) : List (Option (List Byte)) → Res Builder
  | [] => .ok b
  | some v :: rs => do
    let b ← appendValue flush b v
    appendAll flush b rs
  | none :: rs => appendAll flush (appendNull b) rs

/-- `nulls` (vortex-array/src/arrow/array.rs:189-204). -/
def fromArrowNulls (nulls : Option (List Bool)) (nullable : Bool) : Res Validity :=
  if nullable then
    match nulls with
    | none => .ok .allValid
    | some nb => if nb.count false = nb.length then .ok .allInvalid else .ok (Validity.ofBooleanBuffer nb)
  else do
    Res.assert nulls.isNone
    .ok .nonNullable

/-- `from_arrow` for view arrays (arrow/array.rs:129-149). -/
def fromArrow (views : List Byte) (buffers : List (List Byte)) (nulls : Option (List Bool)) (nullable : Bool) : Res Arr := do
  let v ← fromArrowNulls nulls nullable
  expect (tryNew nullable views buffers v)

/-- `from_iter` (mod.rs:358-394). -/
def fromIter (flush : List Byte → List Byte → Bool) (nullable : Bool) (rs : List (Option (List Byte))) : Res Arr := do
  let b ← appendAll flush .new rs
  fromArrow b.views.flatten (b.done ++ [b.cur]) (if b.valid.all (fun x => x) then none else some b.valid) nullable

/-- `take` (compute.rs:69-79) through `arrow_select::take` (trusted contract: views copied, out-of-range index panics; the result has a
null buffer when the source has a null, even if no taken row is null) and `is_nullable` (arrow: the result has a null). -/
def take (a : Arr) (is : List Nat) : Res Arr := do
  let views ← viewsFrom a.views a.len 0
  let vs ← Res.mapM (idx views) is
  match nullBuffer (a.validity.toLogical a.len) with
  | none => fromArrow vs.flatten a.buffers none false
  | some nb =>
    if nb.count false = 0 then fromArrow vs.flatten a.buffers none false
    else do
      let ns ← Res.mapM (idx nb) is
      fromArrow vs.flatten a.buffers (some ns) (decide (ns.count false ≠ 0))

end Vx.VarBinView
