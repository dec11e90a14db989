import Verif.Model.SelfDescribe
import Verif.Model.LayoutFile
/-!
# Writing arrays into a file by columns, and reading the arrays in it

`LayoutWriter::write_array_columns` takes an array apart into the chunks `StructBatch` lists (Model/LayoutFile.lean starts from these); the
reader of a flat layout gets a view of serialised bytes and reads it with the accessors of each encoding (Model/SelfDescribe.lean).

Simplifications: the writer takes the stream apart before writing it (no I/O error happens in between in the model); statistics are opaque
bytes nobody reads back.
-/
namespace Vx.Own
open Ipc (Bytes)

/-- How one array's own metadata and buffer are stored, and read with the dtype and length of the view: flexbuffers metadata
(vortex-array/src/metadata.rs:29-60) and `into_primitive` &c. on the raw buffer; `at` reads row `i` of a view (`scalar_at_unchecked`). -/
structure OwnCodec where
  ser : Arr → Nat × Bytes × Bytes × Option Bytes
  de : DType → Nat → Nat → Bytes → Option Bytes → Option (Enc × List Nat)
  at_ : DType → Nat → Ipc.Node → Nat → Res Nat

mutual
/-- `IPCArray::write_flatbuffer`: vortex-serde/src/messages.rs:104-163; neither dtype nor length of any array is written. -/
def toIpc (M : OwnCodec) : Arr → Ipc.Node
  | .mk e d l b cs => .mk (M.ser (.mk e d l b cs)).1 (M.ser (.mk e d l b cs)).2.1 (M.ser (.mk e d l b cs)).2.2.1 (M.ser (.mk e d l b cs)).2.2.2 (toIpcs M cs)
def toIpcs (M : OwnCodec) : List Arr → List Ipc.Node
  | [] => []
  | c :: cs => toIpc M c :: toIpcs M cs
end

/-- Chunk offsets of a view: array/chunked/mod.rs:75-97, view.rs:113-139 -/
def ipcOffs (M : OwnCodec) (cs : List Ipc.Node) (n i : Nat) : Res Nat := do
  let c ← Res.unwrap cs[0]?
  M.at_ u64 n c i

mutual
/-- Read everything in an `ArrayView` of dtype `d` and length `len`: vortex-array/src/view.rs:45-139 – metadata, buffer, and the children the
accessors ask for, with the type and length they ask for. -/
def readIpc (M : OwnCodec) (d : DType) (len : Nat) : Ipc.Node → Res Arr
  | .mk id md _ buf cs => do
    let own ← Res.ofOption (M.de d len id md buf)
    let slots ← accessors (ipcOffs M cs) cs.length own.1 d len
    let cs' ← readIpcs M slots 0 cs
    .ok (.mk own.1 d len own.2 cs')
def readIpcs (M : OwnCodec) (slots : List Slot) (i : Nat) : List Ipc.Node → Res (List Arr)
  | [] => .ok []
  | c :: cs => do
    let s ← Res.ofOption (slots.find? (·.idx == i))
    let c' ← readIpc M s.dtype s.len c
    let cs' ← readIpcs M slots (i + 1) cs
    .ok (c' :: cs')
end

/-- `ChunkedArray::chunk(idx)`, unwrapped by `chunks()`: array/chunked/mod.rs:75-86,123-133 -/
def chunkAt (C : Compute) (a : Arr) (n idx : Nat) : Res Arr := do
  let s ← expect (chunkSlot a.dtype (memOffs C a (n + 1)) idx)
  expect (a.child s.idx s.dtype s.len)

/-- `array_stream()` of a chunked array (array/chunked/mod.rs:140-142), `into_array_stream()` of any other (one item). -/
def streamOf (C : Compute) (a : Arr) : Res (List Arr) :=
  match a.enc with
  | .chunked n => Res.mapM (chunkAt C a n) (List.range n)
  | _ => .ok [a]

/-- `StructArray::children()`: array/struct_/mod.rs:39-45 – the fields, without the validity. `try_from` looks at the encoding only;
`nfields` panics on a dtype that is not a struct. -/
def structFields (a : Arr) : Res (List Arr) :=
  match a.enc with
  | .struct _ =>
    match a.dtype with
    | .struct _ ds _ => Res.mapM (fun s => expect (a.child s.idx s.dtype s.len)) (fieldSlots a.len 0 ds)
    | _ => .panic
  | _ => .err

/-- The chunks of one field as serialised: vortex-serde/src/layouts/write/writer.rs:70-77 -/
def fieldChunks (C : Compute) (M : OwnCodec) (f : Arr) : Res (List (Ipc.Node × Nat)) := do
  let cs ← streamOf C f
  .ok (cs.map fun c => (toIpc M c, c.len))

/-- One array of the stream: writer.rs:66-79 -/
def batchOf (C : Compute) (M : OwnCodec) (a : Arr) : Res Layout.StructBatch := do
  let fs ← structFields a
  let cols ← Res.mapM (fieldChunks C M) fs
  .ok ⟨a.len, cols⟩

/-- `LayoutWriter::write_array_columns`: writer.rs:40-48 -/
def writeArrayColumns (C : Compute) (M : OwnCodec) (msgs : Ipc.Codec) (w : Layout.LayoutWriter) (a : Arr) : Res Layout.LayoutWriter := do
  let parts ← streamOf C a
  let bs ← Res.mapM (batchOf C M) parts
  w.writeStream msgs a.dtype bs

/-- What a flat layout's reader makes of a serialised array: the rows of the array it reads (the layout reader never sees an array of another
length than the message says; where the bytes are not an array, rows of no meaning). -/
def viewRows {α : Type} (M : OwnCodec) (rows : Arr → Layout.Rows α) (d : DType) (len : Nat) (n : Ipc.Node) : Layout.Rows α :=
  match readIpc M d len n with
  | .ok a => if (rows a).length = len then rows a else List.replicate len (.struct [])
  | _ => List.replicate len (.struct [])

end Vx.Own
