import Verif.Model.SelfDescribe
/-!
# Walking over an array

What `accept` shows a visitor (`AcceptArrayVisitor`, vortex-array/src/array/visitor.rs:7-9) for every encoding, and what is built on it: the children
of a view (vortex-array/src/view.rs:150-156), taking ownership of a view (vortex-array/src/implementation.rs:206-254), the size in bytes
(vortex-array/src/lib.rs:282-315), the depth-first traversal (lib.rs:126-128, 231-254) and writing a view back to a message
(vortex-serde/src/messages.rs:104-163).

Simplifications: those of `Model/SelfDescribe.lean`; all encodings are known to the reader; the
views requested by `accept` are visited in child order, which is the order of the requests. The buffer, which every encoding that has one
shows its visitor, is handed over as it is.
-/
namespace Vx.Own
open Vx

/-- The children an array shows a visitor, by encoding, as requests to `child`. -/
def visits (offs : Nat → Nat → Res Nat) (nch : Nat) (e : Enc) (d : DType) (len : Nat) : Res (List Slot) :=
  match e with
  -- null/mod.rs:62-66 (`AllInvalid` has no child), constant/mod.rs:96-100, roaring boolean/mod.rs:107-115, integer/mod.rs:124-132
  | .null | .constant _ | .roaringBool | .roaringInt _ => .ok []
  -- bool/mod.rs:155-160, bytebool/src/array.rs:143-148, primitive/mod.rs:321-326; `visit_validity`: visitor.rs:19-25
  | .bool v _ | .byteBool v | .prim v => .ok (vslot v 0 len)
  -- struct_/mod.rs:180-190: the fields, and not the validity
  | .struct _ =>
    match d with
    | .struct _ ds _ => .ok (fieldSlots len 0 ds)
    | _ => .panic
  -- extension/mod.rs:86-90
  | .ext s => .ok [⟨0, s, len⟩]
  -- chunked/mod.rs:202-210
  | .chunked n => do
    let cs ← Res.mapM (chunkSlot d (offs (n + 1))) (List.range n)
    .ok (⟨0, u64, n + 1⟩ :: cs)
  -- sparse/mod.rs:175-180
  | .sparse _ il _ => .ok [⟨0, u64, il⟩, ⟨1, d, il⟩]
  -- varbin/array.rs:17-23
  | .varbin v op bl => .ok ([⟨0, .prim op false, len + 1⟩, ⟨1, bytesD, bl⟩] ++ vslot v 2 len)
  -- varbinview/mod.rs:575-583
  | .varbinview v bls => .ok (⟨0, bytesD, len * 16⟩ :: (bufferSlots 1 bls ++ vslot v (bls.length + 1) len))
  -- encodings/dict/src/array.rs:107-112
  | .dict cp vl => .ok [⟨0, d, vl⟩, ⟨1, .prim cp false, len⟩]
  -- encodings/runend/src/array.rs:200-206
  | .runEnd v ep n _ => .ok ([⟨0, .prim ep false, n⟩, ⟨1, d, n⟩] ++ vslot v 2 len)
  -- encodings/runend-bool/src/array.rs:159-164
  | .runEndBool _ v ep n _ => .ok (⟨0, .prim ep false, n⟩ :: vslot v 1 len)
  -- encodings/alp/src/alp/array.rs:275-283
  | .alp _ => do
    let ed ← alpEncoded d
    .ok (⟨0, ed, len⟩ :: (if nch > 1 then [⟨1, d.withNullability true, len⟩] else []))
  -- encodings/alp/src/alp_rd/array.rs:248-258
  | .alprd lp ex _ _ =>
    match d with
    | .prim p n => .ok ([⟨0, .prim lp n, len⟩, ⟨1, .prim (if p = .f32 then .u32 else .u64) false, len⟩] ++
        (if ex then [⟨2, .prim lp true, len⟩] else []))
    | _ => .panic
  -- encodings/fastlanes/src/bitpacking/mod.rs:231-239
  | .bitPacked v _ _ hp => .ok ((if hp then [⟨0, d.withNullability true, len⟩] else []) ++ vslot v (if hp then 1 else 0) len)
  -- encodings/fastlanes/src/delta/mod.rs:238-243: the bases and the deltas, and not the validity
  | .delta _ dl _ => do
    let bl ← basesLen d dl
    .ok [⟨0, d, bl⟩, ⟨1, d, dl⟩]
  -- encodings/fastlanes/src/for/mod.rs:111-115
  | .for _ _ =>
    match d with
    | .prim p n => .ok [⟨0, if p.isSigned then .prim (toUnsigned p) n else d, len⟩]
    | _ => .panic
  -- encodings/zigzag/src/array.rs:91-95
  | .zigzag =>
    match d with
    | .prim p n => .ok [⟨0, .prim (toUnsigned p) n, len⟩]
    | _ => .panic
  -- encodings/fsst/src/array.rs:192-199
  | .fsst n cn ul => .ok [⟨0, u64, n⟩, ⟨1, bytesD, n⟩, ⟨2, .binary cn, len⟩, ⟨3, .prim ul false, len⟩]
  -- encodings/datetime-parts/src/array.rs:153-159
  | .dateTimeParts p q r => .ok [⟨0, .prim p d.isNullable, len⟩, ⟨1, .prim q false, len⟩, ⟨2, .prim r false, len⟩]

/-- `ArrayView`: vortex-array/src/view.rs:20-32, of a serialised node. -/
structure View where
  dtype : DType
  len : Nat
  node : Node

/-- One request of `accept` on a view: `ArrayView::child` (view.rs:113-139) under `vortex_expect`, view.rs:150-156. -/
def childView (cs : List Node) (s : Slot) : Res View := do
  let c ← Res.unwrap cs[s.idx]?
  .ok ⟨s.dtype, s.len, c⟩

/-- `ArrayView::children`: view.rs:150-156, 174-184 -/
def View.children (C : Compute) : View → Res (List View)
  | ⟨d, len, .mk e _ cs⟩ => do
    let slots ← visits (viewOffs C cs) cs.length e d len
    Res.mapM (childView cs) slots

/-- An `ArrayData` whose children are views. -/
structure Owned where
  enc : Enc
  dtype : DType
  len : Nat
  data : List Nat
  children : List View

/-- `ArrayData::from` a view, `to_array_data`: vortex-array/src/data.rs:125-132, implementation.rs:206-254 -/
def View.own (C : Compute) : View → Res Owned
  | ⟨d, len, .mk e b cs⟩ => do
    let kids ← View.children C ⟨d, len, .mk e b cs⟩
    .ok ⟨e, d, len, b, kids⟩

/-- `ArrayData::child`: data.rs:82-104 -/
def Owned.child (o : Owned) (idx : Nat) (dtype : DType) (len : Nat) : Res View :=
  match o.children[idx]? with
  | none => .err
  | some c => do
    Res.assert (decide (c.dtype = dtype))
    Res.assert (decide (c.len = len))
    .ok c

/-- Read the chunk offsets of an owned copy. -/
def Owned.offs (C : Compute) (o : Owned) (n i : Nat) : Res Nat := do
  let c ← expect (o.child 0 u64 n)
  C.viewAt c.dtype c.len c.node i

/-- All the accessors of an owned copy. -/
def Owned.openAll (C : Compute) (o : Owned) : Res (List View) := do
  let slots ← accessors (o.offs C) o.children.length o.enc o.dtype o.len
  Res.mapM (fun s => expect (o.child s.idx s.dtype s.len)) slots

mutual
/-- `IPCArray::write_flatbuffer` of a view: vortex-serde/src/messages.rs:104-163 (at the level of trees). -/
def rewrite (C : Compute) (d : DType) (len : Nat) : Node → Res Node
  | .mk e b cs => do
    let slots ← visits (viewOffs C cs) cs.length e d len
    let _ ← Res.mapM (childView cs) slots
    let cs' ← rewriteAll C slots 0 cs
    .ok (.mk e b cs')
def rewriteAll (C : Compute) (slots : List Slot) (i : Nat) : List Node → Res (List Node)
  | [] => .ok []
  | c :: cs => do
    let rest ← rewriteAll C slots (i + 1) cs
    match slots.find? (·.idx == i) with
    | none => .ok rest
    | some s => do
      let c' ← rewrite C s.dtype s.len c
      .ok (c' :: rest)
end

mutual
/-- `depth_first_traversal` of a view: lib.rs:126-128, 231-254 -/
def walk (C : Compute) (d : DType) (len : Nat) : Node → Res (List View)
  | .mk e b cs => do
    let slots ← visits (viewOffs C cs) cs.length e d len
    let _ ← Res.mapM (childView cs) slots
    let rest ← walkAll C slots 0 cs
    .ok (⟨d, len, .mk e b cs⟩ :: rest)
def walkAll (C : Compute) (slots : List Slot) (i : Nat) : List Node → Res (List View)
  | [] => .ok []
  | c :: cs => do
    let rest ← walkAll C slots (i + 1) cs
    match slots.find? (·.idx == i) with
    | none => .ok rest
    | some s => do
      let vs ← walk C s.dtype s.len c
      .ok (vs ++ rest)
end

/-- The bytes `nbytes` counts for the array itself: its buffer (lib.rs:311-314), but for a bit-packed array, which counts the bits of its values
(encodings/fastlanes/src/bitpacking/mod.rs:243-249). The overrides of null (null/mod.rs:68-72) and frame-of-reference arrays
(fastlanes/src/for/mod.rs:119-123) agree with the default. -/
def ownBytes (size : Enc → List Nat → Nat) (e : Enc) (len : Nat) (b : List Nat) : Nat :=
  match e with
  | .bitPacked _ width _ _ => (width * len + 7) / 8
  | e => size e b

/-- The children `nbytes` counts: those shown to a visitor, but for a bit-packed array, which counts its patches only (bitpacking/mod.rs:247). -/
def sizeSlots (e : Enc) (slots : List Slot) : List Slot :=
  match e with
  | .bitPacked _ _ _ hp => slots.take (if hp then 1 else 0)
  | _ => slots

mutual
/-- `nbytes`: lib.rs:99-101, 282-315, in memory; `size` is the number of bytes of an array's own buffer. Numbers do not overflow. -/
def nbytes (C : Compute) (size : Enc → List Nat → Nat) : Arr → Res Nat
  | .mk e d len b cs => do
    let shown ← visits (memOffs C (.mk e d len b cs)) cs.length e d len
    let slots := sizeSlots e shown
    let _ ← Res.mapM (fun s => expect ((Arr.mk e d len b cs).child s.idx s.dtype s.len)) slots
    let n ← nbytesAll C size slots 0 cs
    .ok (ownBytes size e len b + n)
def nbytesAll (C : Compute) (size : Enc → List Nat → Nat) (slots : List Slot) (i : Nat) : List Arr → Res Nat
  | [] => .ok 0
  | c :: cs => do
    let rest ← nbytesAll C size slots (i + 1) cs
    match slots.find? (·.idx == i) with
    | none => .ok rest
    | some _ => do
      let n ← nbytes C size c
      .ok (n + rest)
end

end Vx.Own
