# A Lean 4 model of spiraldb/vortex

## 1. What this is

`/verif/lean/Verif` contains an executable model of the logic of vortex, written function by function
from the Rust text in `/repo`, and theorems about it. Every model definition cites `file:lines`.

* `Verif/Spec/*`   small, independent specifications (what a user would write down).
* `Verif/Model/*`  the model of the code (definitions only, each citing the source).
* `Verif/Lemmas/*` helper lemmas and proofs.
* `Verif/Props/*`  the property theorems `C01_…`, each beside an `example` showing that a concrete,
  non-trivial case satisfies its hypotheses.

### Conventions

* A `VortexResult<T>` is `Res T` with three outcomes: `ok`, `err` (a `VortexError` value) and `panic`
  (index out of bounds, integer underflow, `unwrap`, `unreachable!`, `todo!`). "Fails" in a theorem means `err`;
  "never panics" means not `panic`.
* `&mut` becomes a returned value, loops become folds, structural recursion or recursion on a measure.
* Sizes and positions (`usize`) are `Nat`; subtraction on `usize` that the code does not guard is modelled by a checked
  subtraction that yields `panic` on underflow (debug/`overflow-checks` semantics). We do not model a machine whose
  memory holds more than 2^64 elements, so `usize` additions of positions do not overflow.
* Fixed-width *data* (the values in arrays) is modelled by `BitVec w`, or by `Int` with explicit wrap where noted.
* Floats are bit patterns. Where the code uses IEEE operations the model takes the operation as a parameter (an arbitrary
  function), so theorems hold for any floating point behaviour; where the code's `==` on floats matters, it is a
  parameter `eqF` with no assumption or with exactly the assumption stated in the theorem.
* A child array of an encoding is either modelled by its logical content (list of optional values) or, in the array-tree
  model, by a nested tree.

## 2. Trusted base

* Lean's kernel (4.33.0). Axioms: every property theorem depends on at most `propext`, `Classical.choice`, `Quot.sound`
  (checked with `#print axioms`; table at the end). No axioms are added; nothing rests on compiled evaluation.
* Reading of the Rust text (there is no mechanical extraction). The model is tied to the code only through the citations.
* Third-party code is not modelled, but replaced by its contract, stated at the definition: arrow-rs kernels
  (`filter`, `take`, `cast`, boolean `and/or`, `compare`), croaring bitmaps (finite sets of u32), fsst-rs compressor
  (any code stream that the symbol table decodes back), fastlanes (packing of 1024-blocks: the lane/transposition permutation),
  hashbrown maps, flatbuffers/prost encoders (field-wise encoders), tokio/monoio/object_store IO (returns the bytes of the range).
  The contracts are Lean structures (`Kern`, `FL`, `Codec`, …) that the theorems take as hypotheses; for each there is a concrete
  instance (`plainKern_lawful`, `plainFL_lawful`, `Demo.codec_lawful`, …), so no theorem is vacuous for want of an implementation.
* Not modelled: memory safety of `unsafe`, allocation failure, threads and async wake-ups (only the poll-level state machines),
  performance, Display/Debug, Python bindings other than reading files (C95) and single values (C96), benchmarks.

## 3. The three layers of the model

1. *Kernels.* For each encoding the encoder, decoder, `scalar_at`, `slice`, `take`, `filter`, validity and statistics, with plain
   (uncompressed) children: `ALP`, `ALPCompare`, `ALPRD`, `BitPack`, `BitPackSearch`, `ByteBool`, `Chunked`, `Compare`,
   `DateTimeParts`, `Delta`, `Dict`, `FSST`, `FoR`, `Kernels`, `Patch`, `Primitive`, `Roaring`, `RunEnd`, `RunEndBool`, `Sparse`,
   `Validity`, `VarBin`, `VarBinView`, `ZigZag`, `Stats`, `StatsMerge`, `SearchSorted`, `BoolPred`, `Sampling`, `Buffer`.
2. *Trees.* `Tree` is an inductive type of nested encoded arrays (leaf, constant, chunked, struct, extension, dictionary, run-end,
   sparse, frame of reference, zigzag, date-time parts, ...) with `rows` (the logical content, written independently of the code),
   `scalarAt`, `slice`, `canon` (`Model/Tree`), `take`, `filter` (`Model/TreeBulk`), `project`, `Column` (`Model/TreeStruct`)
   and the sampling compressor (`Model/Compress`), each dispatching exactly as the code does: entry point checks, kernel if the encoding
   registers one, otherwise decode and retry. Leaves are arbitrary: a leaf is given by its operations and the laws `LeafLaws`/`LeafBulk`
   ask of them. Recursion between the entry points is by a depth argument (`ops n`, `bulks n`).
3. *Files, streams, expressions.* `Ipc` (framing, messages, array tree views), `Layout`, `LayoutFile` (writer, footer, readers, batch
   stream), `TakeRows`, `Expr`, `Pruning`, `DataFusion`, `Scalar`, `DType`.

## 4. Plan per property

(The authoritative status is `MANIFEST.json`.)

| id | modelled | how proved |
|----|----------|------------|
| C01 | `search_sorted_side_idx` / `search_sorted_by` loops over an abstract comparator | loop invariant (partition point), well-founded induction; spec = `countP` |
| C02 | FoR / bit-packed / sparse `search_sorted` | counter-example to the full claim where the code is wrong, partial theorem on the rest |
| C03–C06 | array tree (`Arr`) of nested encodings with `scalar_at`, `slice`, `take`, `filter`, `canonical` | structural induction over the tree; per-encoding kernels |
| C07 | zigzag on `BitVec w` for every `w` | bit-vector reasoning through `toInt`/`toNat` |
| C08 | FoR compress/decompress on `BitVec w`, stats `min`, trailing zeros | modular arithmetic, divisibility by 2^shift |
| C09 | Delta: per-lane deltas on transposed 1024-blocks plus remainder | prefix-sum inverse over wrapping arithmetic; lane permutation from fastlanes modelled explicitly |
| C10 | Bit packing: 1024-blocks, patches, slice offsets, scalar_at | pack/unpack of a block as bit streams; arithmetic on offsets |
| C11–C13 | ALP / ALP-RD with float arithmetic as parameters | induction over chunks and values |
| C14–C16 | Dict, RunEnd, RunEndBool encoders, decoders, compute | induction over the encode loop with loop invariant |
| C17 | date-time split/join on `Int` with truncating division | omega-style arithmetic |
| C18–C19 | Sparse, ByteBool, Roaring | induction over patch lists / finite sets as sorted lists |
| C20 | FSST symbol-table decoder, compressor abstracted by contract | decoder is a monoid morphism on escape-complete streams |
| C21 | VarBin builder, offsets, compute; VarBinView views as 16 bytes | invariants over pushes; byte-level round trip |
| C22 | chunked addressing, rechunk | induction over chunk lists, C01 |
| C23 | Validity representations | pointwise refinement to `List Bool` |
| C24 | Operators, blocked compare, boolean kernels | case analysis, block decomposition |
| C25–C27 | stats accumulators, merge, pruning | soundness predicate "statistic true of data", induction; counter-examples |
| C28 | expressions, `split_conjunction`, `RowFilter` | induction over expression trees |
| C29–C30 | scalars, dtype & scalar serde | induction over trees |
| C31–C34 | framing, message reader/writer, array buffers, file writer/reader | byte-list parsers, round-trip by induction |
| C35–C38, C44 | buffered reader, flat/chunked/column layouts, batch stream, take_rows, cache | state machines, refinement to list concatenation |
| C39 | primitive kernels | induction |
| C40–C41 | sampling partitions; compressor as a rewriting on array trees with arbitrary choices | arithmetic; induction over fuel/depth |
| C42–C43 | projection, DataFusion plan | list reasoning |
| C45 | buffer ranges | list reasoning |
| C46 | array views: re-serialising a deserialised array | tree induction; witness where a visitor omits a child |
| C47 | temporal metadata bytes, temporal constructors | direct; zone names as Lean `String` with its UTF-8 bytes, `from_utf8_lossy` a contract |
| C48 | Arrow type trees and dtype trees, both conversions, schemas | mutual structural induction over type trees |
| C49 | Arrow array trees, canonical arrays, record batches, packed bits | mutual structural induction over array trees; arrow constructors as contracts |
| C85 | scalar values as flexbuffers: widths chosen by value, reading at a type, constants, merged minima | mutual structural induction over values; flexbuffers a contract (an integer is written in the least of 8/16/32/64 bits that holds it, a vector in one width holding all its elements, a float in 32 bits exactly when it survives `f32`), `f32`/`f64` conversion a contract (`ExactFloats`) |
| C86 | statistics tables in messages: writing, reading through a view, every typed accessor | direct, over C85; what producers put into a set is the hypothesis `ProperStats` |
| C87 | the statistics encoded arrays claim about themselves (dict, run-end, constant, null, roaring-int) | direct, over the meaning of claims in Spec/Stats; the children's claims are hypotheses, discharged for plain children by C26's `primStats_sound` |
| C88 | the statistics map behind its read-write lock, calls nested through chunked and dictionary arrays, as an interleaving machine (Model/StatsCache) | invariants over all reachable states (holders of locks, order of nested locks, truth of maps and answers), progress by induction on the order of arrays, termination by accessibility; truth for integer and chunked arrays from C25/C26 |
| C89 | both conversions and the Arrow datum, with the temporal metadata of C47 and the exported types of C49 (Model/ScalarConv) | a separate `Mean`ing of scalars on both sides (relation `Says`, functions `DV.says`, `Datum.says`); case analysis over dtypes, values and units using the metadata round trip |
| C90 | `can_compress` and `compress` of the seven leaf compressors (Model/LeafCompress) as the `leafEnc` of the search of C41; trained parameters are a contract (`Trained.Lawful`) | each encoder's round trip (C09, C10, C13, C17, C19, C20) read through the tree's rows, then `compress_sound` with separate invariants for input and output leaves; C03 on the output for access |
| C91 | every encoding's constructor (`Call.run`: checks, metadata, children) and its child accessors (`accessors`), in-memory `child` with its assertions, views that believe the request (`readBack`); contents only where the code reads them (chunk offsets, last ends) | per constructor: the requests computed from the metadata are exactly the children's types and lengths; mutual induction over the tree for reading back |
| C92 | the same model; the obligations are stated per constructor in Spec/SelfDescribe.lean | equivalence by cases on the constructor; the tree version is C91's |
| C93 | the column splitter of the writer on arrays of C91's model (`writeArrayColumns`), serialisation of a tree (`toIpc`), reading a view's tree (`readIpc`); the bytes of one array's own metadata and buffer are a contract (`OwnCodec`, `Keeps`), the meaning of arrays is any function that respects lengths, chunks and struct fields (`Meaning`) | C34 and the view version of C92 composed; the chunks of a column are the parts of its field; rows of concatenated columns are concatenated rows |
| C94 | `scan`, `openFile` (projection by position, conjunction of the filters as row filter, default batch size), `readFileFiltered` (footer, both readers, the filter evaluated on the columns it mentions) on top of the models of C34, C36, C37, C28 and C43; DataFusion's own scheduling of files is a contract (in order, first error ends) | C34 opens the file, C37 says which rows the stream emits, C28 what the row filter keeps, C43 that this is SQL truth; the filter reader's rows have the table's cells |
| C95 | `PyExpr`'s operators under Python's dispatch (`Src.build`, contracts of PyO3 in the header), `scalarValue`, the projection argument, `read`/`to_array`/record batches on top of `buildAndRead` (C94); the SQL reading of a Python expression is a separate spec (`Spec.sqlOf`), the proof goes through the expression with reflected operands (`norm`), which has the same SQL value, type, columns and conjuncts |
| C96 | `valueIntoPy` (mutual recursion over lists and structs, copy flag), `intoPython` of the four view classes, `scalarAt` on trees, `scalarValue`/`literal`/`coerce`; the spec `Shows` says which plain Python object a typed value is and `Unwraps` is the user calling `into_python` on every view; proved by mutual induction on the value; literals by cases on the type, with `intCast` for the ranges |
| C97 | `toArrow` with the limits of the offset types, the cast to `Utf8View` as a contract (`StringCast`, met by the buffer-sharing cast `shareCast`), `viewCanonical`, `fsstCanonical`, and `packViews` with its rewriting of buffer numbers byte for byte; the rows of a view array are those of C21 (`Denotes`); packing by induction on the chunks with the invariant that every view so far holds its row |
| C98 | `Model/PlanStats.lean` (column arrays with their statistics sets, the report); spec `Spec/PlanStats.lean` on the returned batches | case analysis over the projection; the field of a chunked array is a new array without statistics |
| C99 | `Model/PyArrow.lean` over the Arrow conversions of C49; spec `Spec/PyArrow.lean` (rows of PyArrow objects, what reaches Rust) | lifts C49's round trip over chunks and batches; nulls in chunks, zones, no chunks are witnesses |
| C100 | `Model/Io` (positioned reads, sequential readers, writers) | structural induction over adapters; induction over read lengths and write operations |
| C101 | crash points of a file write: the writer of C34 (append-only lemma for every step), `readFooter` on every prefix; specification `Crash.Mark`, `left`, `torn` | `C101_append_only` by induction over the batches, fields, chunks and buffers; `C101_cut_refused`/`C101_every_crash_point` from the end-mark checks; `C101_data_can_forge` builds the table whose buffer is a forged end (the message does not depend on the buffer's content) |
| C102 | `Model/Stored`, `Model/StoredBytes`, `Model/StoredLeaves` (bit-packed, delta, ALP-RD, FSST, roaring, date-time parts as children + metadata): the stored form (`phys`: buffers, packed bits, string views, scalars in metadata, little-endian bytes) of a tree and what a reader makes of it (`view`) | `phys` is built by the constructors, `view ∘ read ∘ serialise ∘ phys = id` by mutual induction on trees; composed with C41, C92, C93 for a compressed table in a file |
| C103 | `Model/FilterBy`: the predicate as an encoded array with its length, true-count statistic, index and slice iterators, canonical form and arrow mask; `filterBy` for every tree encoding, byte strings and the leaf encodings | soundness by induction on the tree against the plain filter of C06; completeness for plain and constant predicates; witnesses for the rest |
| C104 | `Model/TreeCompare`: the entry point with its length and type checks, the constant swap, every encoding's own comparison (native loops, arrow kernels as a contract, chunk loop over slices of the other side, extension storage, ALP scalars, leaf hook for FSST), the second try with swapped sides and the arrow fallback | soundness by induction on the fuel over both trees (`compareF_sound`), success for arrays without constants (`compareF_total`), witnesses for the pairs left out |
| C105 | `Model/TreeExpr`: the entry points with their checks, the plain, constant and decoding paths and the swap; arrow's kernels are a contract | soundness by cases on the path (`boolOp_sound`), success where neither side is a constant (`boolOp_total`) or one is plain (`boolOp_const`), witnesses for the rest |
| C106 | `Model/TreeExpr`: expression evaluation over tree columns, `split_conjunction`, the true-count statistic of trees, the mask loop with its early exit, `null_as_false`, the scan step | induction on the expression (`eval_sound`) and the conjuncts (`maskLoop_sound`), then C103 for the filter; success by `eval_total`; witness for the missing count |
| C107 | `Model/TreeViews`: `invert`, `true_count`, `field_by_name`, `storage_array` of trees (`field` is in `Model/TreeStruct`) | decoding lemma for `invert`, `tcount_true` for the count, induction on the tree for fields (`field_ok`) and storage (`storage_ok`); witnesses |
| C108 | `Model/TreeSearch`: the four search entry points over trees, own searches of primitive, constant, sparse and frame-of-reference arrays over their children's entry points | induction on the tree; binary search lemma over the order of scalars (C29), the FoR step by reduction to C02; witnesses |
| C109 | `Spec/FileQuery`: the answer in terms of the tables' rows only; no new model code: composes `Model/Compress`, `Model/Own*`, `Model/Layout*`, `Model/FileScan` | composition of C41, C102 and C94: the columns the writer stores are the fields of the table's rows |
| C110 | `Model/OpenFile` (building a stream, sessions of requests) over `Model/LayoutFile`, `Model/Ipc`, `Model/DType`; flatbuffer verification is the partial function `dec`; allocation failure for absurd claimed sizes is not modelled | case analysis giving exact conditions for every abort; an invariant of the message reader over sessions; witnesses |
| C111 | `Model/ExprEq`: all five kinds of expression over trees of arrays, their references and `PartialEq<dyn Any>` with a count of nested calls | induction over expressions; not returning is: no count of calls is enough; witnesses |
| C112 | `Display` of scalars, values and numbers as a function to bytes (Model/Display); floats, `jiff` and UTF-8 decoding are contracts | decimal and hexadecimal digits read back; a struct's text is decoded field by field, since no leaf contains a colon or a closing brace |
| C113 | `Display for DType`, `python_repr` and the constructors of `vortex.dtype` as functions to characters (Model/DTypeText) | the text is read back from the left: first the word, then the body up to the punctuation that ends it; escapes are tokens that can be told apart |
| C114 | what `accept` shows for each of the 24 encodings, and views' `children`, ownership, rewriting, `nbytes` and the traversal on top of it (Model/Walk) | the visited children of a built array are a prefix of its children, missing only a hidden validity; then induction over the tree |
| C115 | the registry as an association list, ids of all 24 encodings, views that look up their encodings, opaque arrays, and what walks them (Model/Registry) | lookups by induction over registrations; known trees read as in C91, walks as in C114; one unknown encoding in a tree aborts every walk, by induction over the tree |
| C116 | `Model/UsedEncodings.lean` on top of `Model/Compress.lean` and `Model/Registry.lean`: `used_encodings` of the compressor and of every compressor, the reader's context | by induction on the driver as for C41, for every choice function: the set of compressors that can run is closed under what compressors add, trees name only these, and every array passed to or returned by a compressor has only encodings of the declared set (`combine` of chunks included). Partial: the children of leaf encodings (bit-packed, FSST, delta, ALP-RD, date-time parts) and the positions of sparse and run-end arrays are inside the leaves, whose declaration is a hypothesis; the statement as it stands is false, see section 5 |
| C117 | The compressor of C41 (`compress`, all decisions a parameter), the costs of constants.rs (`stdCost`, compared with a separate table `weight`); cost of an array is the largest sum of costs on a path (`nestCost`), of a tree likewise. | Induction over the fuel and the compressors with the invariant: depth plus cost of the tree given and returned is at most `max_cost`, and depth plus nested cost of the output at most `max_cost` plus that of the input. Partial: what leaf encodings (FSST, date-time parts, ALP-RD, delta, roaring) nest inside themselves is in the leaf, whose cost is a hypothesis; arrays must be rechunkable. |
| C118 | `TreeFormatter` with its total threaded as state, on the trees of C91/C114 and their `accept` and `nbytes`; lines are data (names of children, the text of the metadata and units of sizes left out) (Model/TreeDisplay). | Simultaneous induction over the tree: the state is left as found, the array lines are the pre-order listing with depth and whole (`placed`, a separate recursive spec), buffer lines sum up; shares by monotonicity of sums. Partial: arrays that hide a bitmap (C114) are excluded, shares need that no bitmap is left out of the size. |
| C52–C84 | narrower properties: the parts of C02–C49 that hold of the code without exception | the theorems of those properties; C80–C84 restated in `Props/Restated.lean` |
| C50–C51 | accessors, batch iterator, `unary`/`binary` with uninitialised output slots | induction over batches with fuel; slots as `Option`, reading an unset slot is a panic |

## 5. Where the code does not have the property

The guide's third case: the model agrees with the code and the property is false of both. Each line names the theorem that proves it by a
concrete witness; the corresponding `_partial` theorem carries the remaining part.

| property | what the code does | theorem |
|---|---|---|
| C02 | FoR search wraps around for probes below the reference | `C02_for_search_wraps` |
| C02 | sparse search ignores the fill value; an empty sparse array is an error | `C02_sparse_search_ignores_fill`, `C02_sparse_search_empty_err` |
| C02 | bit-packed `search_sorted_many` ignores patches; the `u64` variant truncates probes | `C02_bitpack_many_ignores_patches`, `C02_bitpack_u64_many_truncates`, `C02_bitpack_u64_behind_nulls` |
| C03, C18 | decoding a sparse array loses a bool fill value, and null patches over a non-null fill | `C03_canonical_sparse_bool`, `C03_canonical_sparse_null`, `C18_null_patch_lost`, `C18_bool_fill_lost`, `C18_validity_of_fill_wrong` |
| C04, C15 | the legal empty slice at the end of a run-end array is an error (panic on an empty array) | `C04_runEnd_end`, `C04_sparse_runEnd`, `C15_slice_at_end_err`, `C15_slice_empty_panics` |
| C04, C22 | slicing a chunked array without chunks is an error | `C04_no_chunks`, `C22_slice_no_chunks` |
| C05, C22 | taking no rows from a chunked array panics | `C05_chunked_empty`, `C05_sparse_chunked`, `C22_take_empty_panics` |
| C06 | filtering an extension array that is not temporal is an error; the time zone of a timestamp is lost | `C06_extension`, `C06_time_zone` |
| C09 | `DeltaArray::try_from_primitive_array` loses nulls; decoding a slice of a nullable delta array panics | `C09_from_primitive_loses_nulls`, `C09_sliced_nullable_panics` |
| C10 | `take` on a bit-packed array applies patches at the wrong output rows | `C10_take_patches_misplaced` |
| C11, C15, C41 | the sign of -0.0 is lost by ALP, run-end and constant encodings | `C11_negative_zero_lost`, `C15_float_zero_sign_lost`, `C41_negative_zero` |
| C12 | comparing an ALP array with a constant: five wrong cases | `C12_patched_row_wrong`, `C12_unpatched_row_null`, `C12_unrepresentable_order_wrong`, `C12_null_row_false`, `C12_null_constant_false` |
| C13 | an empty sample panics; nullability changes | `C13_empty_sample_panics`, `C13_nullability_lost` |
| C14 | logical validity of a dictionary array without a null code | `C14_validity_wrong_without_null_code` |
| C14 | a variable-length dictionary of 4 GiB or more: the `u32` offsets wrap and values are lost; the dictionary of a byte column held as views becomes text | `C14_bytes_offsets_wrap`, `C14_bytes_view_becomes_text` |
| C16 | run-end-bool take drops nulls; slices of slices and slices with a validity bitmap are wrong | `C16_take_drops_nulls`, `C16_slice_of_slice_wrong`, `C16_slice_validity_wrong` |
| C19 | empty slices of a roaring integer array are wrong; statistics of a roaring bool array can panic; nulls dropped; nullability changed by byte-bool take | `C19_roaring_int_empty_slice_wrong`, `C19_roaring_bool_stats_panic`, `C19_roaring_bool_empty_min`, `C19_roaring_bool_drops_nulls`, `C19_bytebool_take_changes_nullability` |
| C20 | FSST equality against a constant is wrong for codes other than the compressor's own | `C20_compare_const_other_codes` |
| C21 | filter with a predicate that has a bit offset selects wrong rows; VarBinView take panics; `BinaryView::is_empty` is inverted | `C21_filter_sliced_predicate_wrong`, `C21_view_take_panics`, `C21_view_is_empty_inverted` |
| C23 | `Validity::and` fails for compressed validity children | `C23_and_compressed_child_fails` |
| C24 | null constants, result nullability, empty constants, other encodings | `C24_primitive_null_const_fails`, `C24_const_eq_nullability`, `C24_empty_constants_panic`, `C24_and_const_other_fails` |
| C25, C26 | bool Min ignores nulls; float is_constant; merging constants without Min; Max lost on an all-null chunk | `C25_bool_min_not_attained`, `C25_float_is_constant_unsound`, `C26_is_constant_without_min`, `C26_max_lost_on_null_chunk` |
| C27 | seven expression shapes prune chunks that contain matching rows; the fetch plan loses entries | `C27_gte_boundary_unsound` … `C27_fetch_plan_loses_entries` |
| C28 | an intermediate mask without a TrueCount drops rows | `C28_unavailable_true_count_drops_rows` |
| C29 | casting a null to another primitive type panics; `==` and `cmp` disagree on floats | `C29_null_cast_panics`, `C29_eq_and_cmp_disagree_on_floats` |
| C30 | 8/16-bit integer scalars and extension scalars do not survive protobuf | `C30_small_signed_not_equal`, `C30_small_unsigned_fails`, `C30_extension_fails` |
| C31, C33 | empty stream crashes the writer; a cut inside a length prefix ends cleanly; a body of 4 GiB or more is cut; truncated bodies panic | `C31_empty_stream_crashes`, `C31_huge_page`, `C33_truncated_panics` |
| C34 | files of 8 to 39 bytes panic; schema before the initial read panics; empty stream written cannot be read | `C34_short_file_panics`, `C34_schema_outside_initial_read_panics`, `C34_empty_stream_panics` |
| C36 | the empty projection is an error | `C36_empty_projection_fails` |
| C37 | a batch whose mask is all false: the next batch is returned unfiltered and the masks lag behind | `C37_wrong_rows` |
| C38 | narrow index types, nullable indices, out-of-range and unsorted requests | `C38_stream_narrow_index`, `C38_stream_nullable`, `C38_stream_out_of_range`, `C38_reader_unsorted` |
| C39 | cast reads garbage under nulls; subtract_scalar overflow, dtype, float nulls; patch ignores validity | `C39_cast_garbage_under_null`, `C39_cast_empty`, `C39_subtract_overflow`, `C39_subtract_float_loses_nulls`, `C39_subtract_changes_dtype`, `C39_patch_null_stays` |
| C40 | fewer rows than partitions; 16-bit product overflow; zero counts | `C40_partition_crashes`, `C40_samples_overflow`, `C40_samples_zero` |
| C41 | the sparse compressor drops the index offset | `C41_sparse_offset` |
| C42 | unknown indices panic; exclusion with repeated or unknown names; `Column` on chunked arrays and null rows | `C42_unknown_index`, `C42_exclude_repeated_names`, `C42_exclude_unknown_name`, `C42_column_chunked`, `C42_column_of_null_row`, `C42_field_of_null_constant` |
| C43 | rows whose filter is unknown are returned; null literals; ill-typed filters accepted; `or` not three-valued | `C43_unknown_rows_returned`, `C43_null_literal_fails`, `C43_ill_typed_accepted`, `C43_file_or_null` |
| C44 | layouts with more than 65536 children per node share message paths | `C44_part_ids_wrap`, `C44_wrapped_child_reads_other_bytes` |
| C45 | empty ranges out of bounds accepted; `slice_owned` checks nothing | `C45_empty_range_accepted`, `C45_owned_out_of_bounds`, `C45_owned_leaks` |
| C46 | the validity of struct and delta arrays is lost when a deserialised array is serialised again | `C46_struct_validity_lost` |
| C47 | an empty zone name reads back as no zone; short metadata panics; timestamps in days are accepted but nothing can read them | `C47_short_metadata_panics`, `C47_timestamp_days_accepted` |
| C48 | bad temporal metadata panics in `infer_data_type`; a non-nullable Null field becomes nullable; an empty zone is lost | `C48_bad_metadata_panics`, `C48_null_field_nullability`, `C48_empty_zone_lost` |
| C49 | time zones are dropped when arrays are imported or exported, so the array's type is not the schema's | `C49_zone_lost_on_import`, `C49_zone_lost_on_export` |
| C49 | a struct array without columns exports with 0 rows | `C49_empty_struct_loses_rows` |
| C49 | a null buffer without nulls in a non-nullable field panics on import | `C49_empty_null_buffer_panics` |
| C49 | imported string offsets are marked strictly sorted even with empty strings | `C49_offsets_strict_wrong` |
| C51 | iterating an ALP array silently ignores its (sparse) patches, so exceptions come out with wrong values | `C50_alp_patches_ignored`, `C50_alp_patches_witness` |
| C51 | iterating a null constant array panics | `C50_null_constant_panics` |
| C51 | `binary` on `f16` arrays panics; so does a right operand whose encoding has no accessor (dictionary, sparse, chunked, …) | `C50_binary_f16_panics`, `C50_binary_opaque_panics` |
| C51 | `binary` of non-nullable arrays is nullable | `C50_binary_nullability_witness` |
| C51 | the batch iterator's exact `size_hint` counts rows, not batches | `C50_size_hint_wrong` |
| C85 | binary scalars come back as lists of numbers, unreadable as binary | `C85_binary_unreadable` |
| C85 | an `f16` scalar whose bits fit in a byte (0.0 for one) cannot be read back; in metadata hardly any can; a constant `f16` array then decodes silently to zeros | `C85_f16_root`, `C85_f16_field`, `C85_constant_f16_zeroed` |
| C85 | a stored integer comes back in the least width: it is unequal to the scalar stored and no instance of its type, so `SparseArray::try_new` (slicing, taking, …) rejects the fill value of a deserialised array | `C85_width_lost` |
| C85 | minima read from messages with different stored widths do not compare; merging keeps the first, which may be the larger | `C85_merged_minimum_wrong` |
| C86 | the minimum and maximum of a binary (or `f16`) column read from a message cannot be read at their type: the typed accessors panic | `C86_binary_minimum_panics` |
| C87 | a dictionary array claims a null count of 0 when its values hold the null, claims minima and maxima that may no longer be among its rows after a slice, and claims to be strictly sorted when a dictionary value repeats | `C87_dict_null_count_wrong`, `C87_dict_slice_min_wrong`, `C87_dict_strict_wrong` |
| C87 | the values child of a run-end array inherits the array's claims although values lie under nulls | `C87_run_values_wrong` |
| C87 | an empty constant array claims a minimum | `C87_constant_empty_wrong` |
| C87 | the histograms of a roaring bitmap of integers have 33 buckets whatever the column type; merging with another chunk's panics | `C87_roaring_int_merge_panics` |
| C89 | typed nulls come back from DataFusion without their type (`C89_typed_null_loses_type`); a number narrowed by metadata or a message (C85) changes its type, and a narrowed temporal value becomes null (`C89_narrowed_timestamp_is_null`); a timestamp in days, accepted by the array, panics (`C89_timestamp_days_panics`); the Arrow datum of a timestamp drops its zone (`C89_arrow_drops_zone`) |
| C90 | the children of leaf encodings (codes, patches, deltas) are held decoded, so their recursive compression is not in the model; delta and roaring-integer results are outside the access theorem because the code fails on them (C09, C19) |
| C91 | constructors that accept children their accessors then reject: run-end with a different number of values, FoR residuals of another type, ALP-RD right parts and exceptions, bit-packing patches, validity arrays of nullable booleans, views of a length not a multiple of 16; on serialised data the same arrays are silently misread; a wrong number of delta bases and empty varbin offsets crash the constructor | `C91_run_end_length`, `C91_for_type`, `C91_alprd_right`, `C91_bitpacked_patches`, `C91_validity_type`, `C91_views_length`, `C91_constructor_panics` |
| C34 | null rows of the top-level struct are not written: struct arrays with the same fields and different validity become the same file | `C34_null_rows_lost` |
| C94 | a query over files with a stretch of 65536 rows without a match that is not the last (C37), with nulls under `OR` (C43), without output columns (`SELECT count(*)`) or with a filter that mentions no column | `C37_wrong_rows`, `C43_file_or_null`, `C94_no_columns_fails`, `C94_constant_filter_fails` |
| C95 | reading from Python with `!=` (the method is called `__neq__`, so Python evaluates `not (a == b)` to `False`, which is refused), with a plain value left of `&`, with a plain integer compared to a column that is not `i64`, with `== True` on a boolean column, with a batch size of 0 (no rows, no error) | `C95_not_equal`, `C95_value_and`, `C95_mistyped`, `C95_true_column`, `C95_batch_size_zero` |
| C96 | `literal` of a list type: `list.iter()` iterates over the `Result` of the downcast, so a list always fails and anything else becomes the empty list; `None` is refused at nullable types; a `bool` operand is the integer 0 or 1; struct/extension literals are `todo!()`; rows of an extension over a list or struct panic; of two fields of one name the dict keeps one | `C96_list_literal_fails`, `C96_list_literal_empty`, `C96_none_refused`, `C96_bool_operand`, `C96_struct_literal_aborts`, `C96_extension_list_aborts`, `C96_repeated_name_lost` |
| C97 | byte columns held with offsets (Arrow `Binary`/`LargeBinary` imports, dictionary values, FSST over bytes) are cast to `Utf8View`: the decoded column is text, never bytes, and if the cast nulls what is not UTF-8 a non-nullable column panics | `C97_binary_becomes_text`, `C97_fsst_binary_becomes_text`, `C97_binary_panics`, `C49_binary_becomes_text` |
| C99 | `vortex.array` of a PyArrow chunked array with a null panics (every chunk is read as non-nullable); of type null too; time zones make the chunks not fit the type (error); without chunks there is no Arrow form | `C99_chunked_nulls_panic`, `C99_null_type_panics`, `C99_zone_refused`, `C99_no_chunks` |
| C100 | `OffsetReadAt` adds the offset modulo 2^64 in release builds: a position near the top of the range reads bytes from before the offset (`C100_offset_wraps`); a store that cuts a range short makes the read panic instead of failing (`C100_short_range_panics`) |
| C101 | files have no checksum and no total length: a prefix whose last bytes are a (forged) end mark opens as another table (`C101_data_can_forge`); bytes lost in the data part are not noticed on opening (`C101_hole_not_seen`) |
| C102 | a constant `f16` array (which the compressor makes of any constant column) is unreadable after storage unless its metadata happens to be 16 bits wide | `C102_f16_constant` (cf. C85) |
| C103 | sparse predicates: the index iterator yields the listed rows whatever their value and ignores the fill (`C103_sparse_false`, `C103_sparse_true`) |
| C103 | a plain predicate that starts inside a byte selects shifted rows of a chunked column (`C103_bit_offset`) |
| C103 | iterators of run-end, byte, roaring and chunked booleans are `todo!()`: chunked columns and strings cannot be filtered by them (`C103_stuck`) |
| C103 | a struct without columns under a predicate without a true-count statistic becomes empty (`C103_no_columns`) |
| C104 | NaN == NaN is true in a dictionary and false in a plain array; likewise -0.0 (`C104_nan_depends_on_encoding`) |
| C104 | two equal constants of different nullability are unequal (`C104_constants_nullability`) |
| C104 | numbers cannot be compared with a null constant (`C104_null_constant_fails`), nor when both validities are arrays and one is encoded (`C104_encoded_validity_fails`) |
| C104 | comparing two empty constants panics (`C104_empty_constants_panic`) |
| C104 | ALP against a value without a code answers false whatever the operator (`C104_alp_constant`) |
| C105 | a boolean column that is not plain cannot be combined with a constant (`C105_constant_encoded_fails`); two empty constants cannot be combined (`C105_empty_constants_fail`); `false and null`, `true or null` are null (`C105_not_kleene`) |
| C106 | if the first conjunct's mask has a chunk without a true count (an empty one), the count is taken for zero and all rows are dropped (`C106_empty_chunk_loses_rows`) |
| C107 | inverting a nullable constant gives the non-nullable type (`C107_invert_nullability`); the true count of a sparse array counts listed rows (`C107_sparse_count`), that of a chunked array with an empty chunk panics (`C107_empty_chunk_count_panics`) |
| C107 | the storage array of a constant guesses its type: null loses it, booleans become binary, lists panic (`C107_constant_storage`), and chunked columns with such a chunk, or without chunks, panic (`C107_chunked_storage_panics`) |
| C108 | an empty constant array reports its value as found (`C108_empty_constant`); a sparse array's search ignores fill values (`C108_sparse_ignores_fill`) |
| C108 | `search_sorted_u64` on dictionary, constant and other arrays of a type other than `u64` reports every value missing and beyond the end (`C108_u64_dict`, `C108_u64_constant`); the bulk form accepts null probes (`C108_many_null`), and bit-packing's misses the patches (`C108_packed_many_misses`) and truncates (`C108_packed_u64_many_truncates`) |
| C109 | inherits those of C94 (gaps of 65536 rows without a match, three-valued logic), C34 (null rows lost) and C41 (sign of zero) |
| C110 | eight bytes (version and magic) abort opening (`C110_short_file`); offsets in the postscript are not checked (`C110_offsets_iff`); a column position beyond the last aborts (`C110_missing_column`); a flat layout without buffers aborts (`C110_flat_root`) |
| C110 | an empty message stream is opened and then aborts at the first request (`C110_empty_stream`): `try_new` drops the result of `load_next_message` |
| C111 | comparing two `Identity` expressions never returns: identity.rs:25 calls itself (`C111_identity_hangs`) |
| C111 | literals `0.0` and `-0.0` compare equal, but comparisons with a constant column use the total order: equal filters select different rows (`C111_zeros`, `C111_zero_filters`); a NaN literal differs from itself (`C111_nan`) |
| C111 | `Select::exclude` lists the columns it does not read, `Identity` lists none (`C111_exclude_references`, `C111_identity_references`) |
| C104 | an empty last chunk cannot be compared with a run-end array: the slice at its end is an error (`C104_empty_chunk`) |
| C112 | printing a list scalar or one of an extension type that is not temporal hits `todo!()`, also inside a struct (`C112_list_aborts`, `C112_extension_aborts`, `C112_list_field_aborts`) |
| C112 | a temporal value that `jiff` refuses makes `to_string` panic: the error of the formatter is not a `Result` of the caller (`C112_temporal`) |
| C112 | a null string and the string `null` print alike, and so do structs whose strings contain `,name:` (`C112_null_string`, `C112_strings_in_structs`) |
| C112 | `Display` of a bare value cuts strings over ten bytes at byte offsets and panics inside a character (`C112_value_cut_aborts`) |
| C113 | field names are printed as they are: a name with `=` (in `str`) or a quotation mark (in `repr`) makes two types print alike (`C113_names_confuse`, `C113_quotes_confuse`) |
| C113 | `repr` of an extension type quotes the id twice, so it is no Python expression; nor are `struct` and `list` functions of `vortex.dtype` (`C113_extension_quoted_twice`) |
| C114 | `StructArray::accept` and `DeltaArray::accept` do not visit the validity child: a nullable struct that is read and written again, or taken into ownership, silently loses its bitmap, and asking for its validity then panics; `nbytes` leaves it out (`C114_struct_validity_lost`, `C114_struct_own`, `C114_struct_nbytes`) |
| C114 | `BitPackedArray::nbytes` overrides the default and counts the bits of the values and the patches only: the padding of the last block and a validity bitmap are left out (`C114_packed_nbytes`: one byte of 129); so does every array that contains one. The size is never more than is there (`C114_nbytes_le`). (An earlier version of this model had overlooked the override.) |
| C115 | an array with an unknown encoding opens if only its root is known, but `children`, `nbytes`, the traversal and writing it again then abort in `Array::with_dyn`, contrary to the documentation of `OpaqueEncoding` (`C115_walk_unknown`, `C115_default_aborts`) |
| C115 | registering an `OpaqueEncoding` turns the error for an unknown root into an abort (`C115_register_opaque`); `test_encoding_id` leaves out `ALP_RD` |
| C116 | `ALPCompressor` compresses exceptions with ALP-RD enabled (alp.rs:60-67) and declares ALP-RD (85-87), but not the bit-packed parts of ALP-RD arrays, which `ALPRDCompressor` declares itself (alp_rd.rs:72-74). With only ALP and sparse enabled a file is written that the reader's context built from `used_encodings` cannot open (`C116_alp_rd_undeclared`); the default lists enable bit-packing. `FSSTCompressor` likewise enables delta for the offsets of its codes (fsst.rs:103-105) and does not declare it; bench-vortex/src/lib.rs:50-51 adds it by hand |
| C118 | `BitPackedArray::accept` shows the validity bitmap that `nbytes` does not count: the share of the bitmap can exceed 100% of the root (`C118_over_100`: 500%); an array without bytes prints `NaN%` (`C118_nothing`) |

## 6. Axioms

`vcheck` prints the axioms of every theorem. All theorems in `MANIFEST.json` depend on a subset of `propext`, `Classical.choice`,
`Quot.sound`; many on fewer. No `axiom` declaration, no compiled evaluation.

## 7. Seeded bugs

`seeded/LOG.jsonl` records every edit of the model tried in a scratch copy: the definition, the edit, the claim it breaks, the theorems
whose proofs then failed, and (where nothing failed at first) the theorem added or tightened.
