import Verif.Model.Walk
/-!
# Printing an array as a tree

`Array::tree_display`, vortex-array/src/tree.rs:1-107. Lines are kept as data: names of children, the text of the metadata and the units of sizes
(`humansize`) are left out. The percentage is 100 · bytes / total as floating point, so the model keeps both numbers.
-/
namespace Vx.Own
open Vx

/-- A printed line. -/
inductive Line where
  /-- `{indent}{name}: {array} nbytes={} ({}%)`, tree.rs:46-54: encoding, type and length are what `{array}` prints -/
  | array (indent : Nat) (enc : Enc) (dtype : DType) (len bytes total : Nat)
  /-- tree.rs:55-58 -/
  | metadata (indent : Nat) (enc : Enc)
  /-- tree.rs:78-85 -/
  | buffer (indent : Nat) (bytes : Nat)

/-- The encodings whose `accept` shows a buffer, always before the children: array/bool/mod.rs:157, primitive/mod.rs:323,
encodings/bytebool/src/array.rs:145, roaring/src/integer/mod.rs:126, roaring/src/boolean/mod.rs:113, fastlanes/src/bitpacking/mod.rs:233 -/
def showsBuffer : Enc → Bool
  | .bool .. | .prim .. | .byteBool .. | .roaringInt .. | .roaringBool .. | .bitPacked .. => true
  | _ => false

/-- The lines of an array itself. -/
def ownLines (size : Enc → List Nat → Nat) (indent : Nat) (e : Enc) (d : DType) (len n total : Nat) (b : List Nat) : List Line :=
  .array indent e d len n total :: .metadata (indent + 1) e :: (if showsBuffer e then [.buffer (indent + 1) (size e b)] else [])

mutual
/-- `TreeFormatter::visit_child`, tree.rs:41-76; `st` is `self.total_size`, which is returned as it is left. -/
def display (C : Compute) (size : Enc → List Nat → Nat) (indent : Nat) (st : Option Nat) : Arr → Res (List Line × Option Nat)
  | .mk e d len b cs => do
    let n ← nbytes C size (.mk e d len b cs)
    let total := st.getD n
    let slots ← visits (memOffs C (.mk e d len b cs)) cs.length e d len
    let _ ← Res.mapM (fun s => expect ((Arr.mk e d len b cs).child s.idx s.dtype s.len)) slots
    let inner := match e with
      | .chunked _ => none
      | _ => some total
    let r ← displayAll C size (indent + 1) slots 0 inner cs
    .ok (ownLines size indent e d len n total b ++ r.1, st)
/-- The children one after the other. -/
def displayAll (C : Compute) (size : Enc → List Nat → Nat) (indent : Nat) (slots : List Slot) (i : Nat) (st : Option Nat) :
    List Arr → Res (List Line × Option Nat)
  | [] => .ok ([], st)
  | c :: cs =>
    match slots.find? (·.idx == i) with
    | none => displayAll C size indent slots (i + 1) st cs
    | some _ => do
      let r ← display C size indent st c
      let rest ← displayAll C size indent slots (i + 1) r.2 cs
      .ok (r.1 ++ rest.1, rest.2)
end

/-- `array.tree_display()`, tree.rs:11-36: from the left margin, without a total. -/
def treeDisplay (C : Compute) (size : Enc → List Nat → Nat) (a : Arr) : Res (List Line) := do
  let r ← display C size 0 none a
  .ok r.1

end Vx.Own
