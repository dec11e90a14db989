import Verif.Model.DType
/-!
# IPC: array trees, messages, the stream writer and reader, the incremental buffer reader

vortex-serde/src/{messages,message_writer,message_reader}.rs, vortex-serde/src/stream_writer/mod.rs, vortex-array/src/{lib,view}.rs.

Flatbuffers are trusted: `Codec` is the pair "build the table / read it back". Metadata and statistics of an array are opaque bytes here.
Sizes are unbounded naturals except where the wire format narrows them (`u32` message length, `u32` page size, `u16` padding).
-/
namespace Vx.Ipc

abbrev Bytes := List UInt8

/-- An in-memory array as the serialiser sees it: `Array::Data` (vortex-array/src/data.rs) — encoding code, serialised metadata, statistics,
at most one own buffer, children. -/
inductive Node where
  | mk (encoding : Nat) (metadata stats : Bytes) (buffer : Option Bytes) (children : List Node)

namespace Node
def encoding : Node → Nat | mk e _ _ _ _ => e
def metadata : Node → Bytes | mk _ m _ _ _ => m
def stats : Node → Bytes | mk _ _ s _ _ => s
def buffer : Node → Option Bytes | mk _ _ _ b _ => b
def children : Node → List Node | mk _ _ _ _ cs => cs
end Node

mutual
/-- `cumulative_nbuffers`: vortex-array/src/lib.rs:130-137 -/
def nbuffers : Node → Nat
  | .mk _ _ _ b cs => nbuffersAll cs + if b.isSome then 1 else 0
def nbuffersAll : List Node → Nat
  | [] => 0
  | c :: cs => nbuffers c + nbuffersAll cs
end

mutual
def size : Node → Nat
  | .mk _ _ _ _ cs => 1 + sizeAll cs
def sizeAll : List Node → Nat
  | [] => 0
  | c :: cs => size c + sizeAll cs
end

theorem sizeAll_append (xs ys : List Node) : sizeAll (xs ++ ys) = sizeAll xs + sizeAll ys := by
  induction xs with
  | nil => simp [sizeAll]
  | cons x xs ih => simp [sizeAll, ih]; omega

/-- `ArrayChildrenIterator`: vortex-array/src/lib.rs:230-252. The stack's top is the head of the list: pop one array, push its children in
reverse order, so that the first child is on top. -/
def traverse : List Node → List Node
  | [] => []
  | .mk e m s b cs :: stack => .mk e m s b cs :: traverse (cs ++ stack)
termination_by stack => sizeAll stack
decreasing_by simp [sizeAll, sizeAll_append, size]

/-- The buffers in traversal order: message_writer.rs:58-60 -/
def buffersOf (n : Node) : List Bytes := (traverse [n]).filterMap Node.buffer

/-- vortex-serde/src/lib.rs: `ALIGNMENT` -/
def ALIGNMENT : Nat := 64

/-- `(n + (ALIGNMENT - 1)) & !(ALIGNMENT - 1)`: rounding up; clearing the six low bits is subtracting the remainder (`alignUp_bits`). -/
def alignUp (n : Nat) : Nat := (n + (ALIGNMENT - 1)) - (n + (ALIGNMENT - 1)) % ALIGNMENT

/-- `all_buffer_offsets`: vortex-array/src/lib.rs:141-157 -/
def bufferOffsets (offset : Nat) : List Bytes → List Nat
  | [] => [offset]
  | b :: bs => offset :: bufferOffsets (offset + alignUp b.length) bs

/-! ## Flatbuffer tables -/

/-- `fba::Array`: messages.rs:155-166. `children` may be absent in a hand-made message. -/
inductive FbArray where
  | mk (encoding : Nat) (metadata stats : Option Bytes) (bufferIndex : Option Nat) (children : List FbArray)

namespace FbArray
def encoding : FbArray → Nat | mk e _ _ _ _ => e
def metadata : FbArray → Option Bytes | mk _ m _ _ _ => m
def stats : FbArray → Option Bytes | mk _ _ s _ _ => s
def bufferIndex : FbArray → Option Nat | mk _ _ _ b _ => b
def children : FbArray → List FbArray | mk _ _ _ _ cs => cs
end FbArray

/-- `fb::Buffer` (message.fbs): the padding is a `u16`. -/
structure FbBuffer where
  offset : Nat
  padding : Nat
  deriving DecidableEq, Repr

/-- `fb::Message` (message.fbs). -/
inductive FbMsg where
  | schema (dtype : Option FbDType)
  | batch (array : Option FbArray) (length : Nat) (buffers : List FbBuffer) (bufferSize : Nat)
  | page (bufferSize padding : Nat)

/-- The flatbuffers library: `finish_minimal`/`collapse` and `root`. -/
structure Codec where
  enc : FbMsg → Bytes
  dec : Bytes → Option FbMsg

/-- What is trusted of it: a table is read back from its bytes also when zero padding follows (offsets are relative to the start), and
no table is empty. -/
structure Codec.Lawful (C : Codec) : Prop where
  dec_enc : ∀ m k, C.dec (C.enc m ++ List.replicate k 0) = some m
  dec_nil : C.dec [] = none

mutual
/-- `IPCArray::write_flatbuffer`: messages.rs:106-167; the second component of `IPCArray` is `start`. -/
def writeArray (start : Nat) : Node → FbArray
  | .mk e m s b cs => .mk e (some m) (some s) (if b.isSome then some start else none) (writeChildren (start + if b.isSome then 1 else 0) cs)
/-- The `scan` over the children: messages.rs:138-148 -/
def writeChildren (offset : Nat) : List Node → List FbArray
  | [] => []
  | c :: cs => writeArray offset c :: writeChildren (offset + nbuffers c) cs
end

/-- The loop of `IPCBatch::write_flatbuffer`: messages.rs:74-89; returns the entries and the final offset. -/
def batchBuffers (offset : Nat) : List Bytes → List FbBuffer × Nat
  | [] => ([], offset)
  | b :: bs =>
    let aligned := alignUp b.length
    let (rest, total) := batchBuffers (offset + aligned) bs
    (⟨offset, (aligned - b.length) % 2 ^ 16⟩ :: rest, total)

/-- `IPCBatch::write_flatbuffer`: messages.rs:62-101 -/
def batchMsg (n : Node) (length : Nat) : FbMsg :=
  let (bufs, total) := batchBuffers 0 (buffersOf n)
  .batch (some (writeArray 0 n)) length bufs total

/-- `IPCSchema`: messages.rs:50-60 -/
def schemaMsg (d : DType) : FbMsg := .schema (some d.toFb)

/-- `IPCPage`: messages.rs:169-184; `as u32`, `as u16`. -/
def pageMsg (b : Bytes) : FbMsg := .page (b.length % 2 ^ 32) ((alignUp b.length - b.length) % 2 ^ 16)

/-! ## Writer -/

/-- `u32::to_le_bytes` -/
def le32 (n : Nat) : Bytes :=
  [UInt8.ofNat (n % 256), UInt8.ofNat (n / 256 % 256), UInt8.ofNat (n / 65536 % 256), UInt8.ofNat (n / 16777216 % 256)]

/-- `&ZEROS[0..n]`: message_writer.rs:14, an out-of-bounds panic above 512. -/
def zeros (n : Nat) : Res Bytes := if n ≤ 512 then .ok (List.replicate n 0) else .panic

/-- `MessageWriter`: message_writer.rs:16-23. `pos` counts the bytes written, so it is the length of what was written. -/
structure Writer where
  out : Bytes
  deriving DecidableEq, Repr

namespace Writer

/-- `MessageWriter::new`: message_writer.rs:26-34 -/
def new : Writer := ⟨[]⟩

/-- `tell`: message_writer.rs:41-43 -/
def pos (w : Writer) : Nat := w.out.length

/-- `write_all`: message_writer.rs:128-132 (the sink accepts everything) -/
def writeAll (w : Writer) (bs : Bytes) : Writer := ⟨w.out ++ bs⟩

/-- `write_message`: message_writer.rs:88-126 -/
def writeMessage (C : Codec) (w : Writer) (m : FbMsg) : Res Writer := do
  let buffer := C.enc m
  let unaligned := 4 + buffer.length
  let aligned := alignUp unaligned
  let len ← Res.sub aligned 4
  let pad ← Res.sub aligned unaligned
  let z ← zeros pad
  let w := ((w.writeAll (le32 (len % 2 ^ 32))).writeAll buffer).writeAll z
  if w.pos % ALIGNMENT = 0 then .ok w else .panic

/-- The buffer loop of `write_batch`: message_writer.rs:56-69, `zip_eq` panics when the lengths differ. -/
def writeBuffers (w : Writer) (current : Nat) : List Bytes → List Nat → Res Writer
  | [], [] => .ok w
  | b :: bs, bend :: ends => do
    let w := w.writeAll b
    let p ← Res.sub bend current
    let pad ← Res.sub p b.length
    let z ← zeros pad
    writeBuffers (w.writeAll z) bend bs ends
  | _, _ => .panic

/-- `write_batch`: message_writer.rs:50-72 -/
def writeBatch (C : Codec) (w : Writer) (n : Node) (length : Nat) : Res Writer := do
  let offsets := bufferOffsets 0 (buffersOf n)
  let w ← w.writeMessage C (batchMsg n length)
  w.writeBuffers 0 (buffersOf n) (offsets.drop 1)

/-- `write_page`: message_writer.rs:74-86 -/
def writePage (C : Codec) (w : Writer) (b : Bytes) : Res Writer := do
  let w ← w.writeMessage C (pageMsg b)
  let w := w.writeAll b
  let pad ← Res.sub (alignUp b.length) b.length
  let z ← zeros pad
  .ok (w.writeAll z)

/-- `write_dtype`: message_writer.rs:45-48 -/
def writeDtype (C : Codec) (w : Writer) (d : DType) : Res Writer := w.writeMessage C (schemaMsg d)

/-- `StreamArrayWriter::write_array_chunks`: stream_writer/mod.rs:52-70. Returns the byte offsets and row offsets too. -/
def writeChunks (C : Codec) (w : Writer) (rows : Nat) : List (Node × Nat) → Res (Writer × List Nat × List Nat)
  | [] => .ok (w, [w.pos], [rows])
  | (n, len) :: cs => do
    let w' ← w.writeBatch C n len
    let (w'', bs, rs) ← writeChunks C w' (rows + len) cs
    .ok (w'', w.pos :: bs, rows :: rs)

end Writer

/-! ## Array views -/

/-- `ArrayView`: vortex-array/src/view.rs:18-31, without the context. -/
structure View where
  fb : FbArray
  len : Nat
  dtype : DType
  buffers : List Bytes

namespace View

/-- `ArrayView::try_new`: view.rs:43-81. `ctx` says which encoding codes are known; the metadata check is not modelled. -/
def tryNew (ctx : Nat → Bool) (dtype : DType) (len : Nat) (fb : FbArray) (buffers : List Bytes) : Res View :=
  if ctx fb.encoding then .ok ⟨fb, len, dtype, buffers⟩ else .err

/-- `child`: view.rs:107-134 -/
def child (v : View) (i : Nat) (dtype : DType) (len : Nat) : Res View := do
  let c ← Res.ofOption v.fb.children[i]?
  .ok ⟨c, len, dtype, v.buffers⟩

/-- view.rs:157-161, on the buffers and the index; an index without a buffer panics. -/
def getBuffer (buffers : List Bytes) : Option Nat → Res (Option Bytes)
  | none => .ok none
  | some i => (Res.unwrap buffers[i]?).bind (fun b => .ok (some b))

/-- `buffer`: view.rs:157-161 -/
def buffer (v : View) : Res (Option Bytes) := getBuffer v.buffers v.fb.bufferIndex

/-- `nchildren`: view.rs:141-143 -/
def nchildren (v : View) : Nat := v.fb.children.length

end View

mutual
/-- Everything that can be read through a view, as a tree: each node's encoding, metadata, statistics, buffer, children. -/
def readTree (buffers : List Bytes) : FbArray → Res Node
  | .mk e m s i cs => do
    let b ← View.getBuffer buffers i
    let cs' ← readTrees buffers cs
    let m' ← Res.ofOption m
    let s' ← Res.ofOption s
    .ok (.mk e m' s' b cs')
def readTrees (buffers : List Bytes) : List FbArray → Res (List Node)
  | [] => .ok []
  | c :: cs => do
    let c' ← readTree buffers c
    let cs' ← readTrees buffers cs
    .ok (c' :: cs')
end

/-- The children found by a visitor that visits the given positions (view.rs:145-151); a missing child is an `expect` panic. -/
def pick (cs : List Node) : List Nat → Res (List Node)
  | [] => .ok []
  | i :: is => do
    let c ← Res.unwrap cs[i]?
    let rest ← pick cs is
    .ok (c :: rest)

mutual
/-- What the serialiser sees of an array that is itself a view (`Array::View`): its children are those its encoding's visitor visits
(`ArrayView::children`, view.rs:145-151; `visits` gives the positions), its metadata and buffer are read from the view
(messages.rs:117-124, lib.rs:159-164). -/
def visible (visits : FbArray → List Nat) (buffers : List Bytes) : FbArray → Res Node
  | .mk e m s i cs => do
    let b ← View.getBuffer buffers i
    let cs' ← visibles visits buffers cs
    let cs'' ← pick cs' (visits (.mk e m s i cs))
    let m' ← Res.unwrap m
    let s' ← Res.unwrap s
    .ok (.mk e m' s' b cs'')
def visibles (visits : FbArray → List Nat) (buffers : List Bytes) : List FbArray → Res (List Node)
  | [] => .ok []
  | c :: cs => do
    let c' ← visible visits buffers c
    let cs' ← visibles visits buffers cs
    .ok (c' :: cs')
end

/-! ## The incremental buffer reader -/

/-- message_reader.rs:202-208 -/
inductive RState where
  | init | readingLength | readingFb | readingBuffers | finished
  deriving DecidableEq, Repr

def RState.rank : RState → Nat
  | init => 4 | readingLength => 3 | readingFb => 2 | readingBuffers => 1 | finished => 0

/-- `ArrayBufferReader`: message_reader.rs:210-214 -/
structure BufReader where
  state : RState
  fbMsg : Option Bytes
  buffers : List Bytes
  deriving DecidableEq, Repr

/-- `Buf::get_u32_le`: panics when fewer than four bytes remain. -/
def getU32 : Bytes → Res Nat
  | a :: b :: c :: d :: _ => .ok (a.toNat + 256 * b.toNat + 65536 * c.toNat + 16777216 * d.toNat)
  | _ => .panic

/-- `Bytes::split_to` / `advance`: panic beyond the end. -/
def splitTo (n : Nat) (bs : Bytes) : Res (Bytes × Bytes) := if n ≤ bs.length then .ok (bs.take n, bs.drop n) else .panic

/-- The offset after a buffer: the next entry's, or the total size (message_reader.rs:264-271, `skip(1).chain([all_buffers_size])`). -/
def nextOffset (total : Nat) : List FbBuffer → Nat
  | [] => total
  | c :: _ => c.offset

/-- The buffer splitting of message_reader.rs:262-285. -/
def splitBuffers (total : Nat) (bytes : Bytes) : List FbBuffer → Res (List Bytes)
  | [] => .ok []
  | b :: bs => do
    let l ← Res.sub (nextOffset total bs) b.offset
    let l ← Res.sub l b.padding
    let (data, rest) ← splitTo l bytes
    let (_, rest) ← splitTo b.padding rest
    let more ← splitBuffers total rest bs
    .ok (data :: more)

/-- `header_as_batch` -/
def FbMsg.asBatch : FbMsg → Option (Option FbArray × Nat × List FbBuffer × Nat)
  | .batch a l bs n => some (a, l, bs, n)
  | _ => none

/-- `root_unchecked` on bytes that are no message is undefined behaviour; it counts as a panic. -/
def rootUnchecked (C : Codec) (bs : Bytes) : Res FbMsg := Res.unwrap (C.dec bs)

namespace BufReader

/-- message_reader.rs:223-229 -/
def new : BufReader := ⟨.init, none, []⟩

/-- `from_fb_bytes`: message_reader.rs:231-237 -/
def fromFb (bs : Bytes) : BufReader := ⟨.readingBuffers, some bs, []⟩

/-- `fb_bytes_as_batch`: message_reader.rs:293-303 -/
def asBatch (C : Codec) (r : BufReader) : Res (Option FbArray × Nat × List FbBuffer × Nat) := do
  let bs ← Res.ofOption r.fbMsg
  let m ← rootUnchecked C bs
  Res.ofOption m.asBatch

/-- `read`: message_reader.rs:239-291 -/
def read (C : Codec) (r : BufReader) (bytes : Bytes) : Res (Option Nat × BufReader) :=
  match r.state with
  | .init => .ok (some 4, { r with state := .readingLength })
  | .readingLength => do
    let n ← getU32 bytes
    .ok (some n, { r with state := .readingFb })
  | .readingFb => do
    let m ← rootUnchecked C bytes
    let (_, _, _, size) ← Res.ofOption m.asBatch
    .ok (some size, { r with fbMsg := some bytes, state := .readingBuffers })
  | .readingBuffers => do
    let (_, _, bufs, total) ← r.asBatch C
    let bs ← splitBuffers total bytes bufs
    .ok (none, { r with buffers := bs, state := .finished })
  | .finished => .err

/-- `into_array`: message_reader.rs:306-329 -/
def intoArray (C : Codec) (ctx : Nat → Bool) (dtype : DType) (r : BufReader) : Res View := do
  let (arr, length, _, _) ← r.asBatch C
  let a ← Res.ofOption arr
  View.tryNew ctx dtype length a r.buffers

end BufReader

theorem BufReader.read_rank {C : Codec} {r r' : BufReader} {bytes : Bytes} {u : Option Nat} (h : r.read C bytes = .ok (u, r')) :
    r'.state.rank < r.state.rank := by
  obtain ⟨st, fb, bufs⟩ := r
  cases st with
  | init => simp only [BufReader.read, Res.ok.injEq, Prod.mk.injEq] at h; rw [← h.2]; simp [RState.rank]
  | readingLength =>
    simp only [BufReader.read, Res.bind_eq_ok] at h
    obtain ⟨_, _, h⟩ := h
    simp only [Res.ok.injEq, Prod.mk.injEq] at h; rw [← h.2]; simp [RState.rank]
  | readingFb =>
    simp only [BufReader.read, Res.bind_eq_ok] at h
    obtain ⟨_, _, _, _, h⟩ := h
    simp only [Res.ok.injEq, Prod.mk.injEq] at h; rw [← h.2]; simp [RState.rank]
  | readingBuffers =>
    simp only [BufReader.read, Res.bind_eq_ok] at h
    obtain ⟨_, _, _, _, h⟩ := h
    simp only [Res.ok.injEq, Prod.mk.injEq] at h; rw [← h.2]; simp [RState.rank]
  | finished => simp [BufReader.read] at h

/-- `FlatLayout::array_from_bytes`, the loop: layouts/read/layouts/flat.rs:84-89 -/
def feed (C : Codec) (r : BufReader) (buf readBuf : Bytes) : Res BufReader :=
  match _h : r.read C readBuf with
  | .ok (some u, r') => (splitTo u buf).bind (fun p => feed C r' p.2 p.1)
  | .ok (none, r') => .ok r'
  | .err => .err
  | .panic => .panic
termination_by r.state.rank
decreasing_by exact BufReader.read_rank _h

/-- `FlatLayout::array_from_bytes`: flat.rs:84-91 -/
def arrayFromBytes (C : Codec) (ctx : Nat → Bool) (dtype : DType) (buf : Bytes) : Res View :=
  (feed C .new buf []).bind (fun r => r.intoArray C ctx dtype)

/-! ## The message reader -/

/-- `MessageReader`: message_reader.rs:18-23. `rest` is what the source still has. -/
structure Reader where
  rest : Bytes
  message : Bytes
  finished : Bool
  deriving DecidableEq, Repr

namespace Reader

/-- `VortexRead::read_into`: io/read.rs:51-62; reads exactly `n` bytes or reports `UnexpectedEof` (`none`). -/
def readInto (rest : Bytes) (n : Nat) : Option (Bytes × Bytes) := if n ≤ rest.length then some (rest.take n, rest.drop n) else none

/-- `load_next_message`: message_reader.rs:37-69 -/
def load (C : Codec) (r : Reader) : Res (Bool × Reader) :=
  match readInto r.rest 4 with
  | none => .ok (false, { r with message := [] })
  | some (l, rest) => do
    let n ← getU32 l
    if n = 2 ^ 32 - 1 then .ok (false, { r with message := [], rest := rest }) else
    if n = 0 then .err else do
    let (msg, rest) ← Res.ofOption (readInto rest n)
    let _ ← Res.ofOption (C.dec msg)
    .ok (true, { r with message := msg, rest := rest })

/-- `try_new`: message_reader.rs:26-35; the `bool` is ignored. -/
def tryNew (C : Codec) (src : Bytes) : Res Reader := do
  let (_, r) ← load C ⟨src, [], false⟩
  .ok r

/-- `peek`: message_reader.rs:71-77 -/
def peek (C : Codec) (r : Reader) : Res (Option FbMsg) :=
  if r.finished then .ok none else do
  let m ← rootUnchecked C r.message
  .ok (some m)

/-- `next`: message_reader.rs:79-88; returns the previous message's bytes. -/
def next (C : Codec) (r : Reader) : Res (Bytes × Reader) :=
  if r.finished then .err else do
  let (more, r') ← load C { r with message := [] }
  .ok (r.message, if more then r' else { r' with finished := true })

/-- `read_dtype`: message_reader.rs:90-109 -/
def readDtype (C : Codec) (r : Reader) : Res (DType × Reader) := do
  match ← r.peek C with
  | some (.schema _) =>
    let (buf, r') ← r.next C
    match ← rootUnchecked C buf with
    | .schema d =>
      let fb ← Res.ofOption d
      let dt ← fb.read
      .ok (dt, r')
    | _ => .err
  | _ => .err

/-- `maybe_read_chunk`: message_reader.rs:111-137 -/
def maybeReadChunk (C : Codec) (ctx : Nat → Bool) (dtype : DType) (r : Reader) : Res (Option View × Reader) := do
  match ← r.peek C with
  | some (.batch _ _ _ size) =>
    let (bytes, rest) ← Res.ofOption (readInto r.rest size)
    let (more, ar) ← (BufReader.fromFb r.message).read C bytes
    if more.isSome then .panic else
    let (_, r') ← ({ r with rest := rest } : Reader).next C
    let v ← ar.intoArray C ctx dtype
    .ok (some v, r')
  | _ => .ok (none, r)

/-- `maybe_read_page`: message_reader.rs:180-195 -/
def maybeReadPage (C : Codec) (r : Reader) : Res (Option Bytes × Reader) := do
  match ← r.peek C with
  | some (.page size padding) =>
    let (bytes, rest) ← Res.ofOption (readInto r.rest (size + padding))
    let (_, r') ← ({ r with rest := rest } : Reader).next C
    .ok (some (bytes.take size), r')
  | _ => .ok (none, r)

end Reader

end Vx.Ipc
