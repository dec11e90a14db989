import Verif.Model.Ipc
/-!
# The file reader: layouts, message cache, batch stream

vortex-serde/src/layouts/read/{mod,cache,context,batch,buffered,stream}.rs and layouts/read/layouts/{flat,chunked,column,inline_dtype}.rs.

`Box<dyn LayoutReader>` is a state machine `R → Res (Option ReadResult × R)`. A layout tree of depth `d` has the state type `St α d`; one level
of the tree is `Node α R`, whose children have type `R`. An array is represented by its rows (`List (Row α)`); what a layout does with
arrays is slice them, concatenate them and combine them into structs. Loops whose length is not bounded by their arguments carry fuel; running out
of fuel counts as a panic, so that a theorem concluding `ok` for all large enough fuel also shows termination.
When `read_next` fails, the state left behind is not modelled (the stream's consumer stops at the first error).
-/
namespace Vx.Layout
open Ipc (Bytes)

/-- `MessageId` (layouts/read/mod.rs:50-52): a vector of `u16`. -/
abbrev Path := List Nat

/-- `ByteRange`: stream_writer/mod.rs:131-135 -/
structure ByteRange where
  start : Nat
  stop : Nat
  deriving DecidableEq, Repr

/-- `ByteRange::new`: stream_writer/mod.rs:144-147, asserting `end > begin`. -/
def ByteRange.new (b e : Nat) : Res ByteRange := if b < e then .ok ⟨b, e⟩ else .panic

/-- layouts/read/mod.rs:53 -/
abbrev Message := Path × ByteRange

/-- `fb::Layout` (footer.fbs); every vector may be absent. -/
inductive FbLayout where
  | mk (encoding : Nat) (buffers : Option (List ByteRange)) (children : Option (List FbLayout)) (metadata : Option Bytes)

namespace FbLayout
def encoding : FbLayout → Nat | mk e _ _ _ => e
def buffers : FbLayout → Option (List ByteRange) | mk _ b _ _ => b
def children : FbLayout → Option (List FbLayout) | mk _ _ c _ => c
def metadata : FbLayout → Option Bytes | mk _ _ _ m => m
end FbLayout

/-- One row: an opaque value of a column, or a struct row put together by a column layout. -/
inductive Row (α : Type) where
  | leaf (a : α)
  | struct (fields : List (Str × Row α))

/-- The rows of an array. -/
abbrev Rows (α : Type) := List (Row α)

/-! ## Message cache -/

/-- `LayoutMessageCache`: cache.rs:17-34, a hash map from paths to bytes. -/
abbrev Cache := Path → Option Bytes

/-- `set`: cache.rs:31-33 -/
def Cache.set (c : Cache) (p : Path) (b : Bytes) : Cache := fun q => if q = p then some b else c q

/-- vortex-schema/src/projection.rs:5-10 -/
inductive Projection where
  | all
  | flat (fields : List RowExpr.Field)

/-- `Scan`: layouts/read/mod.rs:42-48. `indices` and `filter` are not consulted by any reader. -/
structure Scan where
  projection : Projection
  batchSize : Nat

/-- `LazyDeserializedDType`: cache.rs:36-45. The serialised form is the decoded flatbuffer table; the memoising cell is not modelled. -/
inductive LazyDType where
  | value (d : DType)
  | serialized (fb : FbDType) (proj : Projection)

namespace LazyDType

/-- `project`: cache.rs:60-85 -/
def project (l : LazyDType) (p : List RowExpr.Field) : Res LazyDType :=
  match l with
  | .value (.struct names dtypes n) => do
    let (ns, ds) ← DType.project names dtypes p
    .ok (.value (.struct ns ds n))
  | .value _ => .err
  | .serialized fb .all => .ok (.serialized fb (.flat p))
  | .serialized _ (.flat _) => .err

/-- `value`: cache.rs:88-102 -/
def dtype : LazyDType → Res DType
  | .value d => .ok d
  | .serialized fb .all => fb.read
  | .serialized fb (.flat p) => deserializeAndProject fb p

/-- `resolve_field`: cache.rs:105-128 -/
def resolve (l : LazyDType) (f : RowExpr.Field) : Res Nat :=
  match l with
  | .value (.struct names _ _) =>
    match f with
    | .name n => Res.ofOption (DType.findName names n)
    | .index i => .ok i
  | .value _ => .err
  | .serialized (.struct names _ _) _ => resolveField names f
  | .serialized _ _ => .err

end LazyDType

/-- `RelativeLayoutCache`: cache.rs:138-143, without the shared root (the `Cache` is passed to `next`). -/
structure Rel where
  path : Path
  dtype : LazyDType

namespace Rel
/-- `relative`: cache.rs:154-162; the part id is a `u16`. -/
def relative (r : Rel) (i : Nat) (d : LazyDType) : Rel := ⟨r.path ++ [i % 2 ^ 16], d⟩

/-- `absolute_id`: cache.rs:191-196 -/
def absoluteId (r : Rel) (p : Path) : Path := r.path ++ p

/-- `get`: cache.rs:164-175 -/
def get (r : Rel) (c : Cache) (p : Path) : Option Bytes := c (r.absoluteId p)
end Rel

/-- `ReadResult`: layouts/read/mod.rs:55-59 -/
inductive ReadResult (α : Type) where
  | readMore (messages : List Message)
  | batch (rows : Rows α)

/-- One level of the tree of `LayoutReader`s. `chunked`, `column` and `inline` are the states before the first read (`reader: None`),
`buffered`, `batch` and `inlined` the states after it. -/
inductive Node (α R : Type) where
  /-- `FlatLayout`: flat.rs:52-60 -/
  | flat (range : ByteRange) (scan : Scan) (cache : Rel) (done : Bool) (cached : Option (Rows α))
  /-- `ChunkedLayout`: chunked.rs:43-50 -/
  | chunked (fb : FbLayout) (scan : Scan) (cache : Rel)
  /-- `BufferedReader`: buffered.rs:11-15 -/
  | buffered (layouts : List R) (arrays : List (Rows α)) (batchSize : Nat)
  /-- `ColumnLayout`: column.rs:45-53 -/
  | column (fb : FbLayout) (scan : Scan) (cache : Rel)
  /-- `BatchReader`: batch.rs:10-15 -/
  | batch (names : List Str) (children : List R) (arrays : List (Option (Rows α)))
  /-- `InlineDTypeLayout`: inline_dtype.rs:41-48 -/
  | inline (fb : FbLayout) (scan : Scan) (cache : Rel)
  | inlined (child : R)

/-- What the readers are given: how the bytes of a flat layout become rows of a dtype (`FlatLayout::array_from_bytes`, flat.rs:84-91), how the
bytes of a schema message become a dtype (inline_dtype.rs:79-95), and which layout ids are registered (`LayoutContext`, context.rs:38-65). -/
structure Env (α : Type) where
  decode : DType → Bytes → Res (Rows α)
  decodeDType : Bytes → Res DType
  registered : Nat → Bool

/-- layouts/mod.rs:14-17 -/
def FLAT : Nat := 1
def CHUNKED : Nat := 2
def COLUMN : Nat := 3
def INLINE : Nat := 4

variable {α R : Type}

/-- The first buffer of a layout: flat.rs:40-44, inline_dtype.rs:98-105 (`get(0)` of an empty vector panics). -/
def firstBuffer (bs : List ByteRange) : Res ByteRange := do
  let b ← Res.unwrap bs[0]?
  ByteRange.new b.start b.stop

/-- `LayoutDeserializer::read_layout` with the four `LayoutSpec::layout`: context.rs:79-98, flat.rs:26-50, chunked.rs:22-37, column.rs:24-39,
inline_dtype.rs:24-38. -/
def Node.ofFb (env : Env α) (fb : FbLayout) (scan : Scan) (cache : Rel) : Res (Node α R) :=
  if env.registered fb.encoding = false then .err else
  if fb.encoding = FLAT then do
    let bs ← Res.unwrap fb.buffers
    let r ← firstBuffer bs
    .ok (.flat r scan cache false none)
  else if fb.encoding = CHUNKED then .ok (.chunked fb scan cache)
  else if fb.encoding = COLUMN then .ok (.column fb scan cache)
  else if fb.encoding = INLINE then .ok (.inline fb scan cache)
  else .err

/-- Read result of a flat layout holding an array: flat.rs:100-112. -/
def flatEmit (range : ByteRange) (scan : Scan) (cache : Rel) (a : Rows α) : Option (ReadResult α) × Node α R :=
  if scan.batchSize < a.length then
    (some (.batch (a.take scan.batchSize)), .flat range scan cache false (some (a.drop scan.batchSize)))
  else (some (.batch a), .flat range scan cache true none)

/-- `FlatLayout::read_next`: flat.rs:94-120 -/
def flatNext (env : Env α) (c : Cache) (range : ByteRange) (scan : Scan) (cache : Rel) (done : Bool) (cached : Option (Rows α)) :
    Res (Option (ReadResult α) × Node α R) :=
  if done then .ok (none, .flat range scan cache done cached) else
  match cached with
  | some a => .ok (flatEmit range scan cache a)
  | none =>
    match cache.get c [] with
    | some buf => do
      let d ← cache.dtype.dtype
      let a ← env.decode d buf
      .ok (flatEmit range scan cache a)
    | none => .ok (some (.readMore [(cache.absoluteId [], range)]), .flat range scan cache done none)

/-- `buffered_row_count`: buffered.rs:30-32 -/
def rowCount (arrays : List (Rows α)) : Nat := (arrays.map List.length).sum

/-- `BufferedReader::buffer`: buffered.rs:34-53. `f` is the children's `read_next`. -/
def bufferLoop (f : R → Res (Option (ReadResult α) × R)) (bs : Nat) :
    Nat → List R → List (Rows α) → Res (Option (List Message) × List R × List (Rows α))
  | 0, _, _ => .panic
  | k + 1, layouts, arrays =>
    if rowCount arrays < bs then
      match layouts with
      | [] => .ok (none, [], arrays)
      | l :: ls => (f l).bind fun p =>
        match p with
        | (none, _) => bufferLoop f bs k ls arrays
        | (some (.readMore ms), l') => .ok (some ms, l' :: ls, arrays)
        | (some (.batch a), l') => bufferLoop f bs k (l' :: ls) (arrays ++ [a])
    else .ok (none, layouts, arrays)

/-- The loop of `BufferedReader::read`: buffered.rs:77-94; returns the arrays taken and those left. -/
def takeRows : Nat → List (Rows α) → List (Rows α) × List (Rows α)
  | 0, arrays => ([], arrays)
  | _ + 1, [] => ([], [])
  | n + 1, a :: as =>
    if n + 1 < a.length then ([a.take (n + 1)], a.drop (n + 1) :: as)
    else
      let p := takeRows (n + 1 - a.length) as
      (a :: p.1, p.2)

/-- buffered.rs:96-104: no array — end; one — itself; several — a chunked array, whose rows are the concatenation. -/
def packed (result : List (Rows α)) : Option (ReadResult α) := if result.isEmpty then none else some (.batch result.flatten)

/-- `BufferedReader::read`: buffered.rs:55-105 -/
def bufferedRead (f : R → Res (Option (ReadResult α) × R)) (fuel : Nat) (layouts : List R) (arrays : List (Rows α)) (bs : Nat) :
    Res (Option (ReadResult α) × Node α R) :=
  if layouts.isEmpty && arrays.isEmpty then .ok (none, .buffered layouts arrays bs) else
  (bufferLoop f bs fuel layouts arrays).bind fun p =>
    match p with
    | (some ms, ls, as) => .ok (some (.readMore ms), .buffered ls as bs)
    | (none, ls, as) =>
      let n := if ls.isEmpty then min bs (rowCount as) else bs
      .ok (packed (takeRows n as).1, .buffered ls (takeRows n as).2 bs)

/-- The loop of `BatchReader::read`: batch.rs:30-51. `none` means that a child has ended; `seen` says whether an earlier child already holds an
array (the `debug_assert!` of batch.rs:44-47 counts as a panic). -/
def batchLoop (f : R → Res (Option (ReadResult α) × R)) :
    Bool → List R → List (Option (Rows α)) → Res (Option (List Message) × List R × List (Option (Rows α)))
  | _, [], [] => .ok (some [], [], [])
  | _, c :: cs, some a :: as =>
    (batchLoop f true cs as).bind fun q => .ok (q.1, c :: q.2.1, some a :: q.2.2)
  | seen, c :: cs, none :: as => (f c).bind fun p =>
    match p with
    | (none, c') => if seen || as.any Option.isSome then .panic else .ok (none, c' :: cs, none :: as)
    | (some (.readMore ms), c') =>
      (batchLoop f seen cs as).bind fun q => .ok (q.1.map (ms ++ ·), c' :: q.2.1, none :: q.2.2)
    | (some (.batch a), c') =>
      (batchLoop f true cs as).bind fun q => .ok (q.1, c' :: q.2.1, some a :: q.2.2)
  | _, _, _ => .panic

/-- The `k`-th row of a struct array with these columns. -/
def structRow (cols : List (Str × Rows α)) (k : Nat) : Row α :=
  .struct (cols.filterMap fun c => (c.2[k]?).map fun v => (c.1, v))

/-- `StructArray::from_fields` and `try_new`: vortex-array/src/array/struct_/mod.rs:45-101 — no fields or unequal lengths are errors. -/
def fromFields : List (Str × Rows α) → Res (Rows α)
  | [] => .err
  | c :: cs =>
    if cs.all (fun d => d.2.length == c.2.length) then .ok ((List.range c.2.length).map (structRow (c :: cs))) else .err

/-- `BatchReader::read`: batch.rs:28-65 -/
def batchRead (f : R → Res (Option (ReadResult α) × R)) (names : List Str) (children : List R) (arrays : List (Option (Rows α))) :
    Res (Option (ReadResult α) × Node α R) :=
  (batchLoop f false children arrays).bind fun p =>
    match p with
    | (none, cs, as) => .ok (none, .batch names cs as)
    | (some [], cs, as) => do
      let cols ← Res.mapM Res.ofOption as
      let rows ← fromFields (names.zip cols)
      .ok (some (.batch rows), .batch names cs (cs.map fun _ => none))
    | (some ms, cs, as) => .ok (some (.readMore ms), .batch names cs as)

/-- `has_metadata`: chunked.rs:76-81; `bytes()[0]` panics on empty metadata. -/
def hasMetadata (fb : FbLayout) : Res Bool :=
  match fb.metadata with
  | none => .ok false
  | some m => do
    let b ← Res.unwrap m[0]?
    .ok (b != 0)

/-- The children of a chunked layout: chunked.rs:88-105. `build` is `read_layout` for the children. -/
def expandChunked (build : FbLayout → Scan → Rel → Res R) (fb : FbLayout) (scan : Scan) (cache : Rel) : Res (Node α R) := do
  let cs ← Res.ofOption fb.children
  let skip ← hasMetadata fb
  let rs ← Res.mapM (fun p : Nat × FbLayout => build p.2 scan (cache.relative p.1 cache.dtype))
    (((List.range cs.length).zip cs).drop (if skip then 1 else 0))
  .ok (.buffered rs [] scan.batchSize)

/-- `read_child`: column.rs:81-105; `Vector::get` panics out of bounds. -/
def readChild (build : FbLayout → Scan → Rel → Res R) (scan : Scan) (cache : Rel) (cs : List FbLayout) (i : Nat) (d : DType) : Res R := do
  let c ← Res.unwrap cs[i]?
  build c { scan with projection := .all } (cache.relative i (.value d))

/-- `lazy_dtype`: column.rs:107-112 -/
def columnDType (scan : Scan) (cache : Rel) : Res LazyDType :=
  match scan.projection with
  | .all => .ok cache.dtype
  | .flat p => cache.dtype.project p

/-- column.rs:131-143: which children are read, with which dtype. -/
def columnChildren (build : FbLayout → Scan → Rel → Res R) (scan : Scan) (cache : Rel) (l : LazyDType) (cs : List FbLayout) (dtypes : List DType) :
    Res (List R) :=
  match scan.projection with
  | .all =>
    if cs.length = dtypes.length then
      Res.mapM (fun p : Nat × DType => readChild build scan cache cs p.1 p.2) ((List.range cs.length).zip dtypes)
    else .panic
  | .flat proj =>
    Res.mapM (fun p : RowExpr.Field × DType => do
      let i ← l.resolve p.1
      readChild build scan cache cs i p.2) (proj.zip dtypes)

/-- The children of a column layout: column.rs:120-146 -/
def expandColumn (build : FbLayout → Scan → Rel → Res R) (fb : FbLayout) (scan : Scan) (cache : Rel) : Res (Node α R) := do
  let l ← columnDType scan cache
  let d ← l.dtype
  match d with
  | .struct names dtypes _ => do
    let cs ← Res.ofOption fb.children
    let rs ← columnChildren build scan cache l cs dtypes
    .ok (.batch names rs (rs.map fun _ => none))
  | _ => .err

/-- The child of an inline-dtype layout once the dtype is known: inline_dtype.rs:118-134 -/
def expandInline (build : FbLayout → Scan → Rel → Res R) (fb : FbLayout) (scan : Scan) (cache : Rel) (d : DType) : Res R := do
  let cs ← Res.ofOption fb.children
  let c ← Res.unwrap cs[0]?
  build c scan (cache.relative 1 (.value d))

/-- `InlineDTypeLayout::dtype`, the request: inline_dtype.rs:97-106 -/
def inlineRequest (fb : FbLayout) (cache : Rel) : Res (List Message) := do
  let bs ← Res.ofOption fb.buffers
  let r ← firstBuffer bs
  .ok [(cache.absoluteId [0], r)]

/-- `read_next` of one level. -/
def Node.next (env : Env α) (fuel : Nat) (c : Cache) (build : FbLayout → Scan → Rel → Res R) (f : R → Res (Option (ReadResult α) × R)) :
    Node α R → Res (Option (ReadResult α) × Node α R)
  | .flat range scan cache done cached => flatNext env c range scan cache done cached
  | .buffered layouts arrays bs => bufferedRead f fuel layouts arrays bs
  | .chunked fb scan cache => do
    -- chunked.rs:83-112
    let n ← expandChunked build fb scan cache
    match n with
    | .buffered ls as bs => bufferedRead f fuel ls as bs
    | _ => .panic
  | .batch names children arrays => batchRead f names children arrays
  | .column fb scan cache => do
    -- column.rs:115-149
    let n ← expandColumn build fb scan cache
    match n with
    | .batch names cs as => batchRead f names cs as
    | _ => .panic
  | .inlined child => (f child).bind fun p => .ok (p.1, .inlined p.2)
  | .inline fb scan cache =>
    -- inline_dtype.rs:111-139
    match cache.get c [0] with
    | none => do
      let ms ← inlineRequest fb cache
      .ok (some (.readMore ms), .inline fb scan cache)
    | some bytes => do
      let d ← env.decodeDType bytes
      let child ← expandInline build fb scan cache d
      let p ← f child
      .ok (p.1, .inlined p.2)

/-- Readers of depth at most `d`. -/
def St (α : Type) : Nat → Type
  | 0 => Empty
  | d + 1 => Node α (St α d)

/-- `read_layout` (context.rs:79-98) for readers of depth `d`; deeper layouts than `d` count as a panic. -/
def readLayout (env : Env α) : (d : Nat) → FbLayout → Scan → Rel → Res (St α d)
  | 0, _, _, _ => .panic
  | _ + 1, fb, scan, cache => Node.ofFb env fb scan cache

/-- `LayoutReader::read_next`. -/
def readNext (env : Env α) (fuel : Nat) (c : Cache) : (d : Nat) → St α d → Res (Option (ReadResult α) × St α d)
  | 0, r => nomatch r
  | d + 1, r => Node.next env fuel c (readLayout env d) (readNext env fuel c d) r

/-! ## The batch stream -/

/-- `StreamingState`: stream.rs:74-83 -/
inductive StreamState (α : Type) where
  | init
  | filterInit
  | reading (messages : List Message)
  | filterReading (messages : List Message)
  | decoding (rows : Rows α)

/-- `LayoutBatchStream`: stream.rs:22-31; the filter is kept with its reader, the input is the file's bytes. -/
structure Stream (α R : Type) where
  data : R
  filter : Option (R × (Rows α → Res (List Bool)))
  cache : Cache
  state : StreamState α
  mask : Option (List Bool)

/-- `LayoutBatchStream::new`: stream.rs:34-58 -/
def Stream.new (data : R) (filter : Option (R × (Rows α → Res (List Bool)))) : Stream α R :=
  ⟨data, filter, fun _ => none, if filter.isSome then .filterInit else .init, none⟩

/-- `read_at_into`: a read of exactly the range or an I/O error; `ByteRange::len` underflows when the ends are swapped. -/
def readAt (file : Bytes) (r : ByteRange) : Res Bytes := do
  let n ← Res.sub r.stop r.start
  if r.stop ≤ file.length then .ok ((file.drop r.start).take n) else .err

/-- `read_ranges` and `store_messages`: stream.rs:64-72, 207-227. The completion order of the reads is that of the given list. -/
def fetch (file : Bytes) (c : Cache) : List Message → Res Cache
  | [] => .ok c
  | (p, r) :: ms => do
    let b ← readAt file r
    fetch file (c.set p b) ms

/-- `filter`: vortex-array/src/compute/filter.rs:23-57, on rows. -/
def filterRows (rows : Rows α) (mask : List Bool) : Res (Rows α) :=
  if mask.length = rows.length then .ok (((rows.zip mask).filter (·.2)).map (·.1)) else .err

/-- Result of one transition: keep looping, or return from `poll_next` (`none`: end of stream). -/
inductive Polled (α : Type) where
  | again
  | ready (item : Option (Rows α))

/-- One turn of the loop in `poll_next`: stream.rs:88-183. `next` is `read_next`, `order` gives the order in which the reads of a request
complete. An error or panic ends the collection of the stream. -/
def Stream.turn (next : Cache → R → Res (Option (ReadResult α) × R)) (order : List Message → List Message) (file : Bytes) (s : Stream α R) :
    Res (Polled α × Stream α R) :=
  match s.state with
  | .init => (next s.cache s.data).bind fun p =>
    match p with
    | (none, r) => .ok (.ready none, { s with data := r })
    | (some (.readMore ms), r) => .ok (.again, { s with data := r, state := .reading ms })
    | (some (.batch a), r) => .ok (.again, { s with data := r, state := .decoding a })
  | .filterInit =>
    match s.filter with
    | none => .panic
    | some (fr, eval) => (next s.cache fr).bind fun p =>
      match p with
      | (none, r) => .ok (.ready none, { s with filter := some (r, eval) })
      | (some (.readMore ms), r) => .ok (.again, { s with filter := some (r, eval), state := .filterReading ms })
      | (some (.batch a), r) => (eval a).bind fun m =>
        .ok (.again, { s with filter := some (r, eval), mask := some m, state := .init })
  | .decoding a =>
    match s.mask with
    | some m =>
      if m.count true = 0 then .ok (.again, { s with mask := none, state := .init })
      else (filterRows a m).bind fun b =>
        .ok (.ready (some b), { s with mask := none, state := if s.filter.isSome then .filterInit else .init })
    | none => .ok (.ready (some a), { s with state := if s.filter.isSome then .filterInit else .init })
  | .reading ms => do
    let c ← fetch file s.cache (order ms)
    .ok (.again, { s with cache := c, state := .init })
  | .filterReading ms => do
    let c ← fetch file s.cache (order ms)
    .ok (.again, { s with cache := c, state := .filterInit })

/-- `try_collect` of the stream (stream.rs:189): the batches until the end, or the first error. -/
def Stream.collect (next : Cache → R → Res (Option (ReadResult α) × R)) (order : List Message → List Message) (file : Bytes) :
    Nat → Stream α R → Res (List (Rows α))
  | 0, _ => .panic
  | n + 1, s => (s.turn next order file).bind fun p =>
    match p with
    | (.again, s') => collect next order file n s'
    | (.ready none, _) => .ok []
    | (.ready (some b), s') => (collect next order file n s').bind fun bs => .ok (b :: bs)

mutual
/-- How many levels a layout tree has. -/
def FbLayout.depth : FbLayout → Nat
  | .mk _ _ none _ => 1
  | .mk _ _ (some cs) _ => 1 + FbLayout.depths cs
def FbLayout.depths : List FbLayout → Nat
  | [] => 0
  | c :: cs => max (FbLayout.depth c) (FbLayout.depths cs)
end

/-- `LayoutReaderBuilder::build` and `LayoutBatchStream::read_all` for an unfiltered scan (builder.rs:66-123, stream.rs:186-200), after the footer
has been located: the root reader gets the serialised schema and the scan's projection. The batches stay separate here. `with_indices` has no
effect on what is read (builder.rs:46-54: `Scan::indices` is never consulted). -/
def readAll (env : Env α) (file : Bytes) (root : FbLayout) (schema : FbDType) (proj : Projection) (batch : Nat)
    (order : List Message → List Message) (fuel : Nat) : Res (List (Rows α)) := do
  let r ← readLayout env root.depth root ⟨proj, batch⟩ ⟨[], .serialized schema .all⟩
  Stream.collect (fun c r => readNext env fuel c root.depth r) order file fuel (Stream.new r none)

/-- The same with a row filter: a second reader over the columns the filter mentions, sharing the cache (builder.rs:75-79, 103-115). -/
def readFiltered (env : Env α) (file : Bytes) (root : FbLayout) (schema : FbDType) (proj : Projection) (batch : Nat) (references : List RowExpr.Field)
    (eval : Rows α → Res (List Bool)) (order : List Message → List Message) (fuel : Nat) : Res (List (Rows α)) := do
  let r ← readLayout env root.depth root ⟨proj, batch⟩ ⟨[], .serialized schema .all⟩
  let fr ← readLayout env root.depth root ⟨.flat references, batch⟩ ⟨[], .serialized schema .all⟩
  Stream.collect (fun c r => readNext env fuel c root.depth r) order file fuel (Stream.new r (some (fr, eval)))

end Vx.Layout
