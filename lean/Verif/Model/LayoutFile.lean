import Verif.Model.Layout
/-!
# The file: layout writer, footer, postscript

vortex-serde/src/layouts/write/{writer,layouts,footer}.rs, layouts/read/{footer,builder}.rs, layouts/mod.rs.

A chunk is the array tree the serialiser sees (`Ipc.Node`) together with its length. Errors of the input stream and of the sink are not modelled.
-/
namespace Vx.Layout
open Ipc (Bytes)

mutual
/-- How many flatbuffer tables a layout consists of. -/
def FbLayout.tables : FbLayout → Nat
  | .mk _ _ none _ => 1
  | .mk _ _ (some cs) _ => 1 + FbLayout.tablesAll cs
def FbLayout.tablesAll : List FbLayout → Nat
  | [] => 0
  | c :: cs => FbLayout.tables c + FbLayout.tablesAll cs
end

/-- The flatbuffers library for messages, `fb::Footer` and `fb::Postscript` (footer.fbs). -/
structure FileCodec where
  msgs : Ipc.Codec
  encFooter : FbLayout → Nat → Bytes
  decFooter : Bytes → Option (Option FbLayout × Nat)
  encPs : Nat → Nat → Bytes
  decPs : Bytes → Option (Nat × Nat)

/-- What is trusted of it. The verifier run by `root` accepts at most 1000000 tables (a footer has one more than its layout). A postscript is 32
bytes long when no field has its default value 0 (such fields are not stored); offsets are `u64`. -/
structure FileCodec.Lawful (F : FileCodec) : Prop where
  msgs : F.msgs.Lawful
  footer : ∀ l n k, l.tables < 1000000 → F.decFooter (F.encFooter l n ++ List.replicate k 0) = some (some l, n)
  ps : ∀ s f, 0 < s → s < 2 ^ 64 → 0 < f → f < 2 ^ 64 → F.decPs (F.encPs s f) = some (s, f) ∧ (F.encPs s f).length = 32

/-! ## Writing -/

/-- layouts/write/layouts.rs:22-30 -/
def FbLayout.flatL (r : ByteRange) : FbLayout := .mk FLAT (some [r]) none none
/-- layouts/write/layouts.rs:32-43 -/
def FbLayout.chunkedL (cs : List FbLayout) (hasMeta : Bool) : FbLayout := .mk CHUNKED none (some cs) (some [if hasMeta then 1 else 0])
/-- layouts/write/layouts.rs:45-52 -/
def FbLayout.columnL (cs : List FbLayout) : FbLayout := .mk COLUMN none (some cs) none
/-- layouts/write/layouts.rs:54-61 -/
def FbLayout.inlineL (cs : List FbLayout) (dtype : ByteRange) : FbLayout := .mk INLINE (some [dtype]) (some cs) none

/-- `BatchOffsets`: writer.rs:203-216 -/
structure BatchOffsets where
  rowOffsets : List Nat
  byteOffsets : List (List Nat)

/-- `LayoutWriter`: writer.rs:22-28 -/
structure LayoutWriter where
  msgs : Ipc.Writer
  rowCount : Nat
  dtype : Option DType
  columns : List BatchOffsets

/-- One struct array of the input stream: its length and, for every child, the chunks it is written in (writer.rs:70-77: the chunks of a chunked
child, any other child as one chunk). -/
structure StructBatch where
  len : Nat
  fields : List (List (Ipc.Node × Nat))

namespace LayoutWriter

/-- writer.rs:31-38 -/
def new : LayoutWriter := ⟨.new, 0, none, []⟩

/-- `write_column_chunks`: writer.rs:84-118. The loop over the chunks is the one of `StreamArrayWriter::write_array_chunks`, except that the first
row offset is pushed only for a new column. -/
def writeColumnChunks (C : Ipc.Codec) (w : LayoutWriter) (chunks : List (Ipc.Node × Nat)) (i : Nat) : Res LayoutWriter :=
  match w.columns[i]? with
  | none => do
    let p ← w.msgs.writeChunks C 0 chunks
    .ok { w with msgs := p.1, columns := w.columns ++ [⟨p.2.2, [p.2.1]⟩] }
  | some x => do
    let n ← Res.unwrap x.rowOffsets.getLast?
    let p ← w.msgs.writeChunks C n chunks
    .ok { w with msgs := p.1, columns := w.columns.set i ⟨x.rowOffsets ++ p.2.2.drop 1, x.byteOffsets ++ [p.2.1]⟩ }

/-- The loop over the children: writer.rs:70-78 -/
def writeFields (C : Ipc.Codec) (w : LayoutWriter) (i : Nat) : List (List (Ipc.Node × Nat)) → Res LayoutWriter
  | [] => .ok w
  | f :: fs => do
    let w' ← w.writeColumnChunks C f i
    w'.writeFields C (i + 1) fs

/-- The loop over the stream: writer.rs:67-79 -/
def writeBatches (C : Ipc.Codec) (w : LayoutWriter) : List StructBatch → Res LayoutWriter
  | [] => .ok w
  | b :: bs => do
    let w' ← writeFields C { w with rowCount := w.rowCount + b.len } 0 b.fields
    w'.writeBatches C bs

/-- `write_array_columns_stream`: writer.rs:50-82 -/
def writeStream (C : Ipc.Codec) (w : LayoutWriter) (dtype : DType) (batches : List StructBatch) : Res LayoutWriter :=
  match w.dtype with
  | none => { w with dtype := some dtype }.writeBatches C batches
  | some d => if d = dtype then w.writeBatches C batches else .err

end LayoutWriter

/-- Consecutive pairs: writer.rs:127-129 -/
def windows : List Nat → List (Nat × Nat)
  | [] => []
  | x :: xs => (x :: xs).zip xs

/-- dtype of the metadata table: writer.rs:138-143 -/
def metaDType : DType := .struct ["row_offset".toList] [.prim .u64 false] false

/-- The flat layouts of a column's chunks: writer.rs:123-132 -/
def chunkLayouts (bo : BatchOffsets) : Res (List FbLayout) :=
  Res.mapM (fun p : Nat × Nat => do let r ← ByteRange.new p.1 p.2; .ok (FbLayout.flatL r)) (bo.byteOffsets.flatMap windows)

/-- One turn of the loop of `write_metadata_arrays`: writer.rs:122-154. `metaNode` is the struct array with the single column `row_offset`, as the
serialiser sees it. -/
def finishColumn (C : Ipc.Codec) (metaNode : List Nat → Ipc.Node) (w : Ipc.Writer) (bo : BatchOffsets) : Res (Ipc.Writer × FbLayout) := do
  let chunks ← chunkLayouts bo
  let len ← Res.sub bo.rowOffsets.length 1
  let rowOffsets := bo.rowOffsets.take len
  if chunks.length = rowOffsets.length then do
    let w1 ← w.writeDtype C metaDType
    let w2 ← w1.writeBatch C (metaNode rowOffsets) len
    let m ← ByteRange.new w1.pos w2.pos
    let d ← ByteRange.new w.pos w1.pos
    .ok (w2, .chunkedL (.inlineL [.flatL m] d :: chunks) true)
  else .panic

/-- `write_metadata_arrays`, the loop: writer.rs:120-157 -/
def finishColumns (C : Ipc.Codec) (metaNode : List Nat → Ipc.Node) (w : Ipc.Writer) : List BatchOffsets → Res (Ipc.Writer × List FbLayout)
  | [] => .ok (w, [])
  | bo :: bos => do
    let p ← finishColumn C metaNode w bo
    let q ← finishColumns C metaNode p.1 bos
    .ok (q.1, p.2 :: q.2)

/-- layouts/mod.rs:9-10 and writer.rs:183-185: `VERSION` as little-endian `u16`, two zero bytes, "VRTX". -/
def MAGIC : Bytes := [86, 82, 84, 88]
def EOF : Bytes := [1, 0, 0, 0] ++ MAGIC

/-- `write_message` for a table that is not a message (the footer): message_writer.rs:88-126 with the table's bytes. -/
def writeTable (w : Ipc.Writer) (table : Bytes) : Res Ipc.Writer := w.writeMessage ⟨fun _ => table, fun _ => none⟩ (.page 0 0)

/-- `finalize`: writer.rs:159-189 -/
def finalize (F : FileCodec) (metaNode : List Nat → Ipc.Node) (w : LayoutWriter) : Res Bytes := do
  let p ← finishColumns F.msgs metaNode w.msgs w.columns
  let schemaOffset := p.1.pos
  let dtype ← Res.ofOption w.dtype
  let w1 ← p.1.writeDtype F.msgs dtype
  let footerOffset := w1.pos
  let w2 ← writeTable w1 (F.encFooter (.columnL p.2) w.rowCount)
  .ok ((w2.out ++ F.encPs schemaOffset footerOffset) ++ EOF)

/-! ## Opening -/

/-- layouts/read/mod.rs:33 -/
def INITIAL_READ_SIZE : Nat := 8 * 1024 * 1024

/-- `LayoutDescriptor`: read/footer.rs:51-58 -/
structure Descriptor where
  schemaOffset : Nat
  footerOffset : Nat
  initialRead : Bytes
  initialReadOffset : Nat

/-- `bytes.slice(a..b)`: panics unless `a ≤ b ≤ len`. -/
def sliceBytes (bs : Bytes) (a b : Nat) : Res Bytes := if a ≤ b ∧ b ≤ bs.length then .ok ((bs.drop a).take (b - a)) else .panic

/-- `read_footer`: read/footer.rs:141-187. `init` is `INITIAL_READ_SIZE`; `size` the size the caller gives or the source reports. Subtractions on
`usize` panic when they would be negative (in a build without overflow checks the following slice panics). -/
def readFooter (F : FileCodec) (init : Nat) (file : Bytes) (size : Nat) : Res Descriptor :=
  if size < 8 then .err else do
  let readSize := min init size
  let offset ← Res.sub size readSize
  let buf ← if offset + readSize ≤ file.length then .ok ((file.drop offset).take readSize) else .err
  let eof ← Res.sub readSize 8
  let magic ← sliceBytes buf (eof + 4) buf.length
  if magic ≠ MAGIC then .err else do
  let version ← sliceBytes buf eof (eof + 2)
  if version ≠ [1, 0] then .err else do
  let psLoc ← Res.sub eof 32
  let psBytes ← sliceBytes buf psLoc eof
  let ps ← Res.ofOption (F.decPs psBytes)
  .ok ⟨ps.1, ps.2, buf, offset⟩

/-- `layout`, up to reading the table: read/footer.rs:61-88 -/
def Descriptor.layout (F : FileCodec) (d : Descriptor) : Res FbLayout := do
  let start ← Res.sub d.footerOffset d.initialReadOffset
  let stop ← Res.sub d.initialRead.length 40
  let bytes ← sliceBytes d.initialRead (start + 4) stop
  let f ← Res.ofOption (F.decFooter bytes)
  Res.ofOption f.1

/-- `fb_schema` and `dtype_bytes`, read as a table: read/footer.rs:90-127 -/
def Descriptor.schema (F : FileCodec) (d : Descriptor) : Res FbDType := do
  let start ← Res.sub d.schemaOffset d.initialReadOffset
  let stop ← Res.sub d.footerOffset d.initialReadOffset
  let bytes ← sliceBytes d.initialRead (start + 4) stop
  let m ← Res.ofOption (F.msgs.dec bytes)
  match m with
  | .schema d => Res.ofOption d
  | _ => .err

/-- The dtype of the stream: builder.rs:81-84, footer.rs:101-117 -/
def projectedDType (schema : FbDType) : Projection → Res DType
  | .all => schema.read
  | .flat p => deserializeAndProject schema p

/-- `LayoutReaderBuilder::build` without a filter, then `read_all`: builder.rs:66-123, stream.rs:186-200. -/
def readFile (F : FileCodec) (env : Env α) (init : Nat) (file : Bytes) (size : Nat) (proj : Projection) (batch : Nat)
    (order : List Message → List Message) (fuel : Nat) : Res (DType × List (Rows α)) := do
  let d ← readFooter F init file size
  let schema ← d.schema F
  let dtype ← projectedDType schema proj
  let root ← d.layout F
  let batches ← readAll env file root schema proj batch order fuel
  .ok (dtype, batches)

/-- How a flat layout's bytes become rows: `FlatLayout::array_from_bytes` (flat.rs:84-91) builds an array view of the given dtype; `meaning` gives
the rows of the array tree seen through it. -/
def fileEnv (C : Ipc.Codec) (ctx : Nat → Bool) (meaning : DType → Nat → Ipc.Node → Rows α) (registered : Nat → Bool) : Env α where
  decode d b := (Ipc.arrayFromBytes C ctx d b).bind fun v => (Ipc.readTree v.buffers v.fb).bind fun n => .ok (meaning d v.len n)
  decodeDType b := do
    -- inline_dtype.rs:79-95
    let m ← Res.ofOption (C.dec b)
    match m with
    | .schema d => do let fb ← Res.ofOption d; fb.read
    | _ => .err
  registered := registered

end Vx.Layout
