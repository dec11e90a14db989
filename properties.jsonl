{"id": "C01", "title": "Sorted search returns the partition point", "statement": "On any array sorted ascending, search_sorted(value, Left) returns the number of elements strictly smaller than value and search_sorted(value, Right) the number of elements not greater than value; the result is tagged Found exactly when an element equal to value exists. It never panics.", "quantifier": "every element type with a total order, every sorted sequence of any length, every probe value, both sides", "why_tests_cant": "binary search errors live at particular length/duplicate-run/probe combinations; the set of arrays is unbounded", "anchors": ["vortex-array/src/compute/search_sorted.rs: search_sorted_by, search_sorted_side_idx, SearchResult", "vortex-array/src/array/primitive/compute/search_sorted.rs"]}
{"id": "C02", "title": "Searching a compressed sorted array equals searching the plain data", "statement": "search_sorted on a frame-of-reference, bit-packed, or sparse array returns the same result as search_sorted on the decoded sorted primitive array.", "quantifier": "every sorted integer array of any supported type, every probe value representable in the type, both sides, every legal encoding parameter", "why_tests_cant": "the failing probes are single values at the boundary of the representable encoded range", "anchors": ["encodings/fastlanes/src/for/compute.rs: search_sorted_typed", "encodings/fastlanes/src/bitpacking/compute/search_sorted.rs", "vortex-array/src/array/sparse/compute/mod.rs: SearchSortedFn"]}
{"id": "C03", "title": "Checked element access", "statement": "scalar_at(array,i) fails with an out-of-bounds error (never panics) when i >= len and otherwise returns the i-th element of the canonical form of the array, with null exactly at rows that are not valid.", "quantifier": "every array of every nesting of the modelled encodings, every index", "why_tests_cant": "encodings nest arbitrarily and each has offsets; the product space is unbounded", "anchors": ["vortex-array/src/compute/unary/scalar_at.rs", "vortex-array/src/canonical.rs", "vortex-array/src/array/chunked/compute/scalar_at.rs", "vortex-array/src/array/sparse/compute/mod.rs", "encodings/dict/src/compute.rs", "encodings/runend/src/compute.rs"]}
{"id": "C04", "title": "Slicing commutes with decoding", "statement": "For start <= stop <= len, slice(array,start,stop) succeeds, has length stop-start, and decodes to exactly the rows start..stop of the decoded array; slices of slices compose; any other bounds give an error.", "quantifier": "every array of every nesting of the modelled encodings, every start/stop, every sequence of slices", "why_tests_cant": "slicing keeps physical offsets inside chunks/runs/blocks; errors only show at particular boundary alignments and only after repeated slicing", "anchors": ["vortex-array/src/compute/slice.rs", "encodings/runend/src/compute.rs: SliceFn", "encodings/runend-bool/src/compute.rs: SliceFn", "vortex-array/src/array/chunked/compute/slice.rs", "vortex-array/src/array/sparse/compute/slice.rs", "encodings/fastlanes/src/bitpacking/compute/slice.rs"]}
{"id": "C05", "title": "Take commutes with decoding", "statement": "take(array, indices) returns an array of length len(indices) whose k-th row is row indices[k] of the decoded array (including nullness), for any order and repetition of in-range indices.", "quantifier": "every array of the modelled encodings, every index list with in-range entries, including empty, unsorted and duplicated lists", "why_tests_cant": "implementations switch strategy on sortedness, density and counts (strict-sorted chunk path, hash map above 128 indices, bulk unpack above 8 per chunk)", "anchors": ["vortex-array/src/compute/take.rs", "vortex-array/src/array/chunked/compute/take.rs", "vortex-array/src/array/sparse/compute/take.rs", "encodings/fastlanes/src/bitpacking/compute/take.rs", "encodings/runend/src/compute.rs: TakeFn"]}
{"id": "C06", "title": "Filter commutes with decoding", "statement": "filter(array, mask) with an equal-length non-null mask returns exactly the rows whose mask bit is true, in order; the result length is the number of true bits.", "quantifier": "every array of the modelled encodings, every mask", "why_tests_cant": "implementations switch between slice- and index-based strategies on selectivity and walk chunk boundaries with carried state", "anchors": ["vortex-array/src/compute/filter.rs", "vortex-array/src/array/chunked/compute/filter.rs", "vortex-array/src/array/varbin/compute/filter.rs", "vortex-array/src/array/sparse/compute/mod.rs"]}
{"id": "C07", "title": "ZigZag round trip", "statement": "zigzag encoding followed by decoding is the identity on every signed integer of every width, the encoded value is unsigned, and encoding maps values of small magnitude to small values (|x| <= k implies encoded <= 2k).", "quantifier": "every width, every value including MIN and MAX, every array", "why_tests_cant": "2^64 inputs; MIN is the classic failure", "anchors": ["encodings/zigzag/src/compress.rs", "encodings/zigzag/src/array.rs", "encodings/zigzag/src/compute.rs"]}
{"id": "C08", "title": "Frame-of-reference round trip", "statement": "for_compress followed by decompression returns the original integers and validity for every integer array, in wrapping arithmetic, for signed and unsigned types; an all-zero-reference column becomes a constant/sparse array with the same rows.", "quantifier": "every integer width and signedness, every array (any length, any nulls), minimum and shift as computed by the statistics", "why_tests_cant": "wrapping subtraction, arithmetic shift and reference selection interact at type boundaries", "anchors": ["encodings/fastlanes/src/for/compress.rs", "encodings/fastlanes/src/for/compute.rs: scalar_at"]}
{"id": "C09", "title": "Delta round trip", "statement": "delta_compress followed by delta_decompress returns the original unsigned values for every array length (full 1024-value chunks and remainder), wrapping arithmetic included.", "quantifier": "every width, every array length and content", "why_tests_cant": "transposed lanes and remainder handling depend on length mod 1024; values wrap", "anchors": ["encodings/fastlanes/src/delta/compress.rs", "encodings/fastlanes/src/delta/mod.rs"]}
{"id": "C10", "title": "Bit packing round trip", "statement": "Packing at any bit width, with values that do not fit collected as patches, followed by unpacking returns the original values and validity; single-element access agrees with whole-array unpacking, also after slicing; a bit width chosen as patchless yields no patches.", "quantifier": "every unsigned width, every bit width below it, every array of any length, every slice, every position", "why_tests_cant": "position arithmetic over 1024-blocks, bit offsets straddling words, and partial last blocks", "anchors": ["encodings/fastlanes/src/bitpacking/compress.rs", "encodings/fastlanes/src/bitpacking/mod.rs", "encodings/fastlanes/src/bitpacking/compute/"]}
{"id": "C11", "title": "ALP round trip", "statement": "ALP encode followed by decode returns every original float bit for bit, whatever the exponents, with non-encodable values stored as patches.", "quantifier": "every float array (NaN payloads, infinities, signed zeros), every exponent pair, every chunk boundary position", "why_tests_cant": "correctness may not depend on any property of floating-point arithmetic; 2^64 bit patterns and exponent pairs", "anchors": ["encodings/alp/src/alp/mod.rs: encode, encode_chunk_unchecked", "encodings/alp/src/alp/compress.rs"]}
{"id": "C12", "title": "ALP comparison agrees with decoded comparison", "statement": "compare(alp_array, constant, op) equals comparing the decoded floats with the constant, row by row, for each comparison operator.", "quantifier": "every ALP array with or without patches, every constant, all six operators", "why_tests_cant": "wrong rows are exactly the patched rows or the operators other than equality", "anchors": ["encodings/alp/src/alp/compute.rs: MaybeCompareFn"]}
{"id": "C13", "title": "ALP-RD round trip", "statement": "ALP-RD encode followed by decode returns every float bit for bit for any right bit width and any dictionary, including values whose left part is missing from the dictionary.", "quantifier": "every bit pattern, every cut point, every dictionary, every array", "why_tests_cant": "lossless for arbitrary bit patterns is a universal claim over 2^64 values x dictionaries", "anchors": ["encodings/alp/src/alp_rd/mod.rs: RDEncoder, alp_rd_decode, find_best_dictionary"]}
{"id": "C14", "title": "Dictionary encoding round trip", "statement": "dict_encode of a primitive or string/binary array (nullable or not) followed by decoding returns the original rows; dictionary values are pairwise distinct and codes are in range; null rows use a reserved code.", "quantifier": "every array of any length, any nulls, any duplicates", "why_tests_cant": "first-occurrence code assignment and the reserved null slot interact; unbounded arrays", "anchors": ["encodings/dict/src/compress.rs", "encodings/dict/src/array.rs", "encodings/dict/src/compute.rs"]}
{"id": "C15", "title": "Run-end encoding round trip and run structure", "statement": "runend_encode followed by decode returns the original rows; run ends are strictly increasing and end at the length; adjacent runs hold different values.", "quantifier": "every array of any length, every run structure, every slice of the encoded array", "why_tests_cant": "boundary of first/last run, slices inside runs", "anchors": ["encodings/runend/src/compress.rs", "encodings/runend/src/array.rs"]}
{"id": "C16", "title": "Run-end boolean encoding round trip", "statement": "Encoding booleans as (start value, run ends) and decoding returns the original booleans; random access by run parity agrees with decoding, including after slicing.", "quantifier": "every boolean array, every slice, every index", "why_tests_cant": "parity and offset mistakes only show for particular run/offset alignments and repeated slicing", "anchors": ["encodings/runend-bool/src/compress.rs", "encodings/runend-bool/src/array.rs", "encodings/runend-bool/src/compute.rs"]}
{"id": "C17", "title": "Date-time parts round trip", "statement": "Splitting a timestamp into (days, seconds, subseconds) and recombining returns the original timestamp for every unit (s, ms, us, ns) and every 64-bit timestamp, including negatives; day-granularity timestamps are rejected.", "quantifier": "every i64 timestamp, every time unit", "why_tests_cant": "truncating division on negative timestamps; 2^64 inputs", "anchors": ["encodings/datetime-parts/src/compress.rs", "encodings/datetime-parts/src/compute.rs"]}
{"id": "C18", "title": "Sparse arrays decode to fill plus patches", "statement": "Canonicalising a sparse array yields the patch value at patched positions and the fill value everywhere else, with matching validity, also after slicing; scalar access, take and filter agree.", "quantifier": "every sorted patch set, every fill (null or not), every offset/length, every row", "why_tests_cant": "off-by-one between patch indices and offset; nullness of fill and patch values combine", "anchors": ["vortex-array/src/array/sparse/mod.rs", "vortex-array/src/array/sparse/flatten.rs", "vortex-array/src/array/sparse/compute/"]}
{"id": "C19", "title": "Byte-boolean and roaring encodings", "statement": "ByteBool and Roaring boolean encodings decode to the original booleans; roaring integer encoding of a strictly increasing u32-range array decodes to the original array; slices agree with slices of the decoded form.", "quantifier": "every boolean array / strictly increasing integer array, every slice", "why_tests_cant": "set semantics lose order/duplicates unless preconditions hold; empty slices at each end", "anchors": ["encodings/bytebool/src/", "encodings/roaring/src/boolean/", "encodings/roaring/src/integer/"]}
{"id": "C20", "title": "String compression (FSST) round trip", "statement": "Compressing strings with any trained symbol table and decompressing returns the original bytes for each row and for the bulk decode; null rows stay null; slices and takes of the compressed array decode to the same slices and takes.", "quantifier": "every symbol table, every byte string, every array with nulls, every slice/take", "why_tests_cant": "bulk decode relies on concatenation of independently compressed codes and on uncompressed length sums", "anchors": ["encodings/fsst/src/compress.rs", "encodings/fsst/src/canonical.rs", "encodings/fsst/src/compute.rs"]}
{"id": "C21", "title": "Variable-length binary layout", "statement": "A VarBin array built by pushing values and nulls returns those values; slices, takes and filters return the corresponding rows; offsets are monotone and in bounds; a VarBinView holds every value inline when at most 12 bytes and by reference otherwise and always returns the original bytes.", "quantifier": "every sequence of values (any lengths, including 12/13-byte boundary), every slice/take/mask", "why_tests_cant": "offset rebasing during filter and slices; boundary lengths", "anchors": ["vortex-array/src/array/varbin/builder.rs", "vortex-array/src/array/varbin/mod.rs", "vortex-array/src/array/varbin/compute/", "vortex-array/src/array/varbinview/mod.rs"]}
{"id": "C22", "title": "Chunk addressing and rechunking", "statement": "For a chunked array, global index i maps to (chunk, offset) with chunk row at that offset equal to the i-th row of the concatenation; empty chunks are skipped correctly; rechunk preserves the row sequence and the dtype and respects the target sizes.", "quantifier": "every list of chunks including empty ones, every index, every target", "why_tests_cant": "empty chunks and boundary indices; unbounded numbers of chunks", "anchors": ["vortex-array/src/array/chunked/mod.rs: find_chunk_idx, rechunk", "vortex-array/src/array/chunked/canonical.rs", "vortex-array/src/array/chunked/compute/"]}
{"id": "C23", "title": "Validity algebra", "statement": "is_valid, slice, take, filter, and, to_logical on any validity representation (NonNullable, AllValid, AllInvalid, Array) agree with the pointwise boolean mask they denote.", "quantifier": "every representation, length, mask, index list", "why_tests_cant": "representation combinations x positions", "anchors": ["vortex-array/src/validity.rs"]}
{"id": "C24", "title": "Comparison and boolean operators", "statement": "compare returns, row by row, the operator applied to the two values and null if either is null; swap and inverse of an operator satisfy a op b = b swap(op) a and not(a op b) = a inverse(op) b; and/or follow SQL semantics as documented.", "quantifier": "every pair of arrays of equal length, every operator, every total order", "why_tests_cant": "blocked (64-lane) implementations and operator tables", "anchors": ["vortex-array/src/compute/compare.rs", "vortex-array/src/array/primitive/compute/compare.rs", "vortex-array/src/compute/boolean.rs", "vortex-expr/src/operators.rs"]}
{"id": "C25", "title": "Array statistics are true of the data", "statement": "Statistics computed for a primitive, boolean or string array (min, max, is_constant, is_sorted, is_strict_sorted, run_count, true_count, null_count, bit-width and trailing-zero histograms) are exactly what the data implies.", "quantifier": "every array, every null pattern", "why_tests_cant": "single-pass accumulators with first-element special cases; nulls at head or tail", "anchors": ["vortex-array/src/array/primitive/stats.rs", "vortex-array/src/array/bool/stats.rs", "vortex-array/src/array/varbin/stats.rs", "vortex-array/src/array/constant/stats.rs"]}
{"id": "C26", "title": "Merging chunk statistics is sound", "statement": "Merging the statistics of consecutive chunks yields only statements true of the concatenation: min/max are bounds attained, counts add up, sorted/strict/constant flags claimed true really hold, run count never under-reports.", "quantifier": "every list of chunks, every subset of statistics available per chunk", "why_tests_cant": "boundary between chunks; any statistic may be missing in either side", "anchors": ["vortex-array/src/stats/statsset.rs", "vortex-array/src/array/chunked/stats.rs"]}
{"id": "C27", "title": "Predicate pruning never drops matching data", "statement": "If the pruning expression built from a filter evaluates to true on a chunk's min/max statistics, then no row of that chunk satisfies the filter.", "quantifier": "every filter expression over comparisons/and/or, every chunk, every min/max statistics true of the chunk", "why_tests_cant": "boundary values (equality with min/max) and operator nesting", "anchors": ["vortex-serde/src/layouts/pruning.rs"]}
{"id": "C28", "title": "Row filter semantics", "statement": "A row filter keeps exactly the rows on which every conjunct of the filter is true (null counts as false), regardless of the order in which conjuncts are evaluated and of early termination; splitting a filter into conjuncts does not change its meaning.", "quantifier": "every expression tree, every batch, every null pattern", "why_tests_cant": "early exit depends on intermediate masks and available statistics", "anchors": ["vortex-serde/src/layouts/read/filtering.rs: RowFilter", "vortex-expr/src/lib.rs: split_conjunction", "vortex-expr/src/binary.rs"]}
{"id": "C29", "title": "Scalar casts and ordering", "statement": "Casting a scalar between integer types either returns the same mathematical value or fails; a null casts only to nullable types; ordering on scalars of one type is a total order consistent with values, with nulls placed consistently.", "quantifier": "every pair of primitive types, every value", "why_tests_cant": "64-bit value space x type pairs", "anchors": ["vortex-scalar/src/pvalue.rs", "vortex-scalar/src/value.rs", "vortex-scalar/src/lib.rs: cast, PartialOrd", "vortex-scalar/src/primitive.rs"]}
{"id": "C30", "title": "Type and scalar serialisation round trips", "statement": "Serialising a dtype (any nesting) and reading it back yields an equal dtype; serialising a scalar with its dtype and reading it back yields an equal scalar; projecting a serialised schema equals serialising the projected schema.", "quantifier": "every dtype tree, every scalar of that dtype", "why_tests_cant": "recursive structures of any depth; each primitive width takes its own path", "anchors": ["vortex-dtype/src/serde/proto.rs", "vortex-dtype/src/serde/flatbuffers/mod.rs", "vortex-dtype/src/serde/flatbuffers/project.rs", "vortex-scalar/src/serde/proto.rs"]}
{"id": "C31", "title": "IPC message framing round trip", "statement": "Any sequence of messages and buffers written by the stream writer is read back as the same sequence, each message starting at a 64-byte aligned position; truncated streams are reported, never silently mis-parsed.", "quantifier": "every list of arrays/messages with any buffer sizes, every truncation point", "why_tests_cant": "padding arithmetic at every size mod 64 and truncation at every byte", "anchors": ["vortex-serde/src/message_writer.rs", "vortex-serde/src/message_reader.rs", "vortex-serde/src/stream_writer/", "vortex-serde/src/messages.rs"]}
{"id": "C32", "title": "Array tree serialisation preserves structure and buffers", "statement": "Serialising an in-memory array of any nesting assigns each node's buffer a unique index so that reading back any child or buffer by position returns exactly the one written, independent of the shape of its siblings.", "quantifier": "every tree of arrays with or without own buffers, of any depth and width", "why_tests_cant": "pre-order cumulative buffer indices over arbitrary trees", "anchors": ["vortex-serde/src/messages.rs: IPCArray, IPCBatch", "vortex-serde/src/lib.rs", "vortex-array/src/view.rs: child, buffer, cumulative_nbuffers"]}
{"id": "C33", "title": "Incremental buffer reader state machine", "statement": "Feeding the asynchronous array reader the bytes it asks for, in the order it asks, ends with exactly the buffers that were written; any truncated input gives an error.", "quantifier": "every message, every buffer list, every sequence of reads", "why_tests_cant": "state machine over arbitrary many buffers", "anchors": ["vortex-serde/src/message_reader.rs: ArrayBufferReader"]}
{"id": "C34", "title": "File footer and byte ranges", "statement": "A written file's postscript, footer and layout offsets locate exactly the bytes written: every column chunk's [begin,end) range is disjoint from the others, inside the file, and decodes to the chunk that was written; files that are too short or have wrong magic/version are rejected without panic.", "quantifier": "every table, every column/chunk size sequence, every file size, every initial read size", "why_tests_cant": "offset bookkeeping across interleaved column/chunk writes; boundary file sizes", "anchors": ["vortex-serde/src/layouts/write/writer.rs", "vortex-serde/src/layouts/write/footer.rs", "vortex-serde/src/layouts/read/footer.rs"]}
{"id": "C35", "title": "Batch size does not affect content", "statement": "Reading a column with any positive batch size returns the same rows in the same order; every batch except the last has exactly the batch size.", "quantifier": "every sequence of chunk lengths (including empty chunks), every batch size", "why_tests_cant": "batch/chunk boundary misalignment", "anchors": ["vortex-serde/src/layouts/read/buffered.rs", "vortex-serde/src/layouts/read/layouts/flat.rs", "vortex-serde/src/layouts/read/layouts/chunked.rs"]}
{"id": "C36", "title": "Column alignment and projection", "statement": "Reading several columns returns struct batches whose k-th row combines the k-th rows of each projected column, in projection order, even when columns are chunked differently; reading stops together.", "quantifier": "every set of columns with any chunking, every projection, every batch size, every order in which pending reads complete", "why_tests_cant": "columns with different chunk boundaries", "anchors": ["vortex-serde/src/layouts/read/batch.rs", "vortex-serde/src/layouts/read/layouts/column.rs", "vortex-serde/src/layouts/read/cache.rs"]}
{"id": "C37", "title": "Filtered reads return exactly the matching rows", "statement": "Reading a file with a row filter returns precisely the rows satisfying the filter, in file order, for any chunking and batch size.", "quantifier": "every table, filter, chunking and batch size; every reader state", "why_tests_cant": "the reader is a state machine whose filter and data cursors must stay in lock-step through every history", "anchors": ["vortex-serde/src/layouts/read/stream.rs: LayoutBatchStream", "vortex-serde/src/layouts/read/filtering.rs"]}
{"id": "C38", "title": "Reading selected rows of a chunked stream", "statement": "take_rows with sorted in-range row indices returns exactly these rows in order, whatever the chunk boundaries; null, negative or unsorted indices are rejected.", "quantifier": "every chunk layout (row offsets), every sorted index list", "why_tests_cant": "indices equal to chunk boundaries; empty chunks", "anchors": ["vortex-serde/src/chunked_reader/take_rows.rs", "vortex-array/src/stream/take_rows.rs"]}
{"id": "C39", "title": "Primitive kernels", "statement": "Integer cast either preserves every value or fails; fill_forward replaces each null by the last preceding valid value; subtract_scalar subtracts with wrap-around; patch overwrites exactly the listed rows.", "quantifier": "every array, every null pattern, every target type", "why_tests_cant": "overflow boundaries and leading nulls", "anchors": ["vortex-array/src/array/primitive/compute/cast.rs", "vortex-array/src/array/primitive/compute/fill.rs", "vortex-array/src/array/primitive/compute/subtract_scalar.rs", "vortex-array/src/array/primitive/mod.rs: patch"]}
{"id": "C40", "title": "Sampling partitions", "statement": "partition_indices splits 0..length into num_partitions contiguous, disjoint, covering ranges whose sizes differ by at most one; stratified sampling picks in-bounds, disjoint, increasing slices totalling sample_size*sample_count rows and its internal assertion never fires.", "quantifier": "every length, partition count, sample size/count, every random choice", "why_tests_cant": "division remainders for every length; randomness", "anchors": ["vortex-sampling-compressor/src/sampling.rs"]}
{"id": "C41", "title": "Compression never changes data", "statement": "Compressing an array with the sampling compressor, whatever compressors are enabled, whatever sample is drawn and whatever tree is reused, yields an array of the same length, dtype and rows.", "quantifier": "every array, every set of compressors, every sample, every reused compression tree, every recursion depth", "why_tests_cant": "cost-based search space and reuse across chunks", "anchors": ["vortex-sampling-compressor/src/lib.rs", "vortex-sampling-compressor/src/compressors/"]}
{"id": "C42", "title": "Struct projection", "statement": "Projecting a struct array by names or indices returns the named columns in the requested order with unchanged rows and nulls; excluding columns keeps the others in order; unknown columns are an error.", "quantifier": "every struct, every projection list including duplicates", "why_tests_cant": "name/index resolution over arbitrary schemas", "anchors": ["vortex-array/src/array/struct_/mod.rs: project", "vortex-expr/src/select.rs", "vortex-expr/src/column.rs"]}
{"id": "C43", "title": "Query push-down returns the same rows as a full scan", "statement": "A DataFusion scan with pushed-down filters returns, per chunk, exactly the rows on which the filter is true; expressions that cannot be evaluated are not pushed down; columns needed only by the filter do not leak into the output.", "quantifier": "every chunked table, every supported filter, every projection", "why_tests_cant": "null predicates; chunk alignment between the two plan stages", "anchors": ["vortex-datafusion/src/memory.rs", "vortex-datafusion/src/plans.rs", "vortex-datafusion/src/lib.rs: can_be_pushed_down", "vortex-expr/src/datafusion.rs"]}
{"id": "C44", "title": "Layout cache and message routing", "statement": "Messages requested by nested layouts are stored under the path of the requesting layout, so that each layout reads back exactly the bytes of the byte range it asked for, however layouts are nested and in whatever order reads complete.", "quantifier": "every layout tree, every completion order", "why_tests_cant": "path-keyed cache over arbitrary nesting", "anchors": ["vortex-serde/src/layouts/read/cache.rs", "vortex-serde/src/layouts/read/context.rs", "vortex-serde/src/layouts/read/layouts/"]}
{"id": "C45", "title": "Zero-copy buffer slices", "statement": "A buffer slice of a buffer slice exposes exactly the corresponding bytes; out-of-range slices are refused.", "quantifier": "every buffer, every nested range", "why_tests_cant": "nested offsets", "anchors": ["vortex-buffer/src/lib.rs"]}
{"id": "C46", "title": "Re-serialising a deserialised array", "statement": "Writing an array that was itself read from a stream writes the same tree: a second reader sees the same encodings, metadata, buffers and children, including validity.", "quantifier": "every array tree, every encoding", "why_tests_cant": "needs every encoding's child visitor to agree with its child list, at every nesting", "anchors": ["vortex-array/src/view.rs: children", "vortex-serde/src/messages.rs: IPCArray", "vortex-array/src/array/struct_/mod.rs: AcceptArrayVisitor", "encodings/fastlanes/src/delta/mod.rs: AcceptArrayVisitor"]}
{"id": "C47", "title": "Temporal metadata in extension types", "statement": "A temporal type (time, date, timestamp with unit and optional time zone) written into an extension type reads back as the same kind, unit and zone; unreadable or foreign metadata is an error; a temporal array can only be built over integers of the width its unit calls for, and keeps their nullability.", "quantifier": "every kind, unit and zone name, every metadata byte string", "why_tests_cant": "zone names and metadata bytes are unbounded", "anchors": ["vortex-datetime-dtype/src/temporal.rs: TemporalMetadata, TryFrom<&ExtDType>, From for ExtMetadata", "vortex-datetime-dtype/src/unit.rs: TimeUnit", "vortex-array/src/array/datetime/mod.rs: TemporalArray"]}
{"id": "C48", "title": "Arrow types and schemas", "statement": "Every dtype with an Arrow counterpart converts to an Arrow type and back to the same dtype, names, order, nesting, units, zones and nullability included; importing an Arrow type and exporting it gives the same type with strings and bytes as views; a type without counterpart is refused, never replaced by another.", "quantifier": "every dtype tree, every Arrow type tree, every schema", "why_tests_cant": "types nest without bound", "anchors": ["vortex-array/src/arrow/dtype.rs: infer_schema, infer_data_type, FromArrowType", "vortex-datetime-dtype/src/arrow.rs"]}
{"id": "C49", "title": "Arrow arrays and record batches", "statement": "Importing an Arrow array or record batch, and exporting a canonical array or struct, preserves the number of rows, every value and every null at every nesting level, and the resulting type is the one the type conversion announces; boolean buffers keep their bits at any bit offset.", "quantifier": "every Arrow array tree, every null buffer, every bit offset, every canonical vortex array", "why_tests_cant": "combinations of type, null buffer shape and nesting", "anchors": ["vortex-array/src/arrow/array.rs: FromArrowArray, nulls", "vortex-array/src/arrow/recordbatch.rs", "vortex-array/src/canonical.rs: into_arrow, struct_to_arrow, temporal_to_arrow", "vortex-array/src/array/bool/mod.rs: try_new, boolean_buffer"]}
{"id": "C50", "title": "Batched iteration and unary functions over plain arrays", "statement": "Iterating a primitive array in batches yields ceil(n/1024) batches that together hold every row exactly once, in order, nulls included; so does iterating a non-null constant; a closure given the iterator of a primitive or boolean array sees its rows; a unary function is applied to every row, keeps nulls and nullability, and leaves no output slot unset.", "quantifier": "every array length, every validity, every function", "why_tests_cant": "batch and remainder boundaries for all lengths, uninitialised output memory", "anchors": ["vortex-array/src/iter/mod.rs: Accessor, VectorizedArrayIter, FlattenedBatch", "vortex-array/src/array/primitive/mod.rs: Accessor, UnaryFn", "vortex-array/src/array/primitive/accessor.rs", "vortex-array/src/array/bool/accessors.rs"]}
{"id": "C51", "title": "Binary functions and iteration of compressed arrays", "statement": "A binary function over two arrays of equal length and primitive type is applied row by row, a row being null exactly when either operand is, whatever the encoding of the right operand; mismatched lengths and types are errors; iterating an encoded float array yields the same rows as decoding it.", "quantifier": "every pair of arrays, lengths, validities and encodings", "why_tests_cant": "combinations of encoding, validity and batch boundaries", "anchors": ["vortex-array/src/elementwise.rs: BinaryFn, dyn_cast_array_iter", "vortex-array/src/array/primitive/mod.rs: BinaryFn, process_batch", "encodings/alp/src/alp/array.rs: ALPAccessor", "vortex-array/src/array/constant/variants.rs"]}
{"id": "C52", "title": "Searching a bit-packed sorted array", "statement": "search_sorted for one value on a bit-packed array (with or without patches) of sorted non-null unsigned values returns the same position and found/not-found answer as on the unpacked array.", "quantifier": "every packed array, width, slice offset, probe and side", "why_tests_cant": "positions inside bit-packed blocks, patch boundaries", "anchors": ["encodings/fastlanes/src/bitpacking/compute/search_sorted.rs"]}
{"id": "C53", "title": "Bit packing: encode, unpack, access, slice", "statement": "Packing a non-empty integer array at any width below its own and unpacking returns the original rows; single-element access and slices agree with unpacking, out-of-range access and slices are errors; a width of the full size and empty arrays are refused; a width chosen as patchless yields no patches.", "quantifier": "every array, width, validity, slice sequence", "why_tests_cant": "all widths, lengths and patch positions", "anchors": ["encodings/fastlanes/src/bitpacking/mod.rs", "encodings/fastlanes/src/bitpacking/compress.rs", "encodings/fastlanes/src/bitpacking/compute/"]}
{"id": "C54", "title": "ALP: decoding up to ==", "statement": "ALP encoding then decoding returns, for whatever exponents and float arithmetic, values equal (as floats) to the original on every non-null row, patches bit for bit; element access, slices, takes and filters of the encoded array agree with the decoded one.", "quantifier": "every float array, exponents and rounding behaviour", "why_tests_cant": "floating-point exceptions at any position", "anchors": ["encodings/alp/src/alp/mod.rs", "encodings/alp/src/alp/compress.rs", "encodings/alp/src/alp/compute.rs"]}
{"id": "C55", "title": "Dictionary encoding: round trip and access", "statement": "Dictionary-encoding rows and decoding them returns the rows; dictionary entries are pairwise distinct and codes in range; element access, slices, takes and filters of the encoded array agree with the decoded rows and keep the dictionary.", "quantifier": "every row list over any element type with exact equality, nullable or not", "why_tests_cant": "unbounded dictionaries and row orders", "anchors": ["encodings/dict/src/compress.rs", "encodings/dict/src/compute.rs", "encodings/dict/src/array.rs"]}
{"id": "C56", "title": "Run-end encoding: round trip, access, take", "statement": "Run-end encoding a primitive array and decoding it returns the original array for exactly comparable elements; run ends strictly increase to the length and neighbouring runs differ; element access and takes agree with the decoded rows; out-of-range access, takes and slices are errors.", "quantifier": "every array, validity and index list", "why_tests_cant": "run boundaries at any position", "anchors": ["encodings/runend/src/compress.rs", "encodings/runend/src/compute.rs", "encodings/runend/src/array.rs"]}
{"id": "C57", "title": "Run-end booleans: round trip and access", "statement": "Encoding booleans as start value and run ends and decoding returns the original booleans and nulls; access by run parity agrees with decoding.", "quantifier": "every boolean array and validity", "why_tests_cant": "parity over unboundedly many runs", "anchors": ["encodings/runend-bool/src/compress.rs", "encodings/runend-bool/src/array.rs", "encodings/runend-bool/src/compute.rs"]}
{"id": "C58", "title": "Sparse arrays: access operations", "statement": "Element access, validity test, slice, take and filter of a sparse array give exactly the fill value off the patches and the patch on them; out-of-range access and slices and masks of the wrong length are errors; slices of slices compose.", "quantifier": "every sparse array, offset, index list and mask", "why_tests_cant": "patch positions against slice bounds", "anchors": ["vortex-array/src/array/sparse/mod.rs", "vortex-array/src/array/sparse/compute/"]}
{"id": "C59", "title": "Byte and roaring booleans", "statement": "Byte-encoded booleans with any validity, and roaring-encoded non-null booleans, decode to the original booleans; element access and slices agree; out-of-range is an error; the statistics stored with a non-empty roaring array are true of it.", "quantifier": "every boolean list", "why_tests_cant": "bitmaps of any shape", "anchors": ["encodings/bytebool/src/", "encodings/roaring/src/boolean/"]}
{"id": "C60", "title": "Offset strings: build, read, slice, take", "statement": "A string array built from optional byte strings returns them by index and by iteration; slices and takes return the corresponding rows; offsets that would overflow are refused.", "quantifier": "every list of optional byte strings, index list and range", "why_tests_cant": "offset arithmetic over unbounded lengths", "anchors": ["vortex-array/src/array/varbin/"]}
{"id": "C61", "title": "String views: build, read, slice", "statement": "A view array built from optional byte strings returns them by index and by iteration; a value is inline exactly when it has at most 12 bytes; slices return the corresponding rows; out-of-range access is an error.", "quantifier": "every list of optional byte strings under 4 GiB, any buffer flushing", "why_tests_cant": "view encoding of every length", "anchors": ["vortex-array/src/array/varbinview/"]}
{"id": "C62", "title": "Chunked arrays: addressing, filter, decoding, rechunking", "statement": "Global indices map to the right chunk and offset, empty chunks included; element access, filtering (both algorithms) and decoding agree with the concatenation of the chunks; rechunking keeps rows and respects the targets; out-of-range access and slices and masks of the wrong length are errors.", "quantifier": "every chunking, mask and target size", "why_tests_cant": "chunk boundaries", "anchors": ["vortex-array/src/array/chunked/"]}
{"id": "C63", "title": "Validity with plain masks", "statement": "is_valid, slice, take, filter, and, to_logical and collection of validities whose masks are plain boolean arrays agree with the pointwise boolean mask they denote.", "quantifier": "every validity, index list, mask", "why_tests_cant": "combinations of representations", "anchors": ["vortex-array/src/validity.rs"]}
{"id": "C64", "title": "Comparison operators", "statement": "Each comparison operator means what its name says; swapping operands with swap(op) and negating with inverse(op) give the same answer over a total order; both are involutions; the comparison kernel of two primitive arrays applies the operator row by row, null if either is null.", "quantifier": "every operator, value pair, array pair", "why_tests_cant": "all value pairs", "anchors": ["vortex-array/src/compute/compare.rs", "vortex-array/src/array/primitive/compute/compare.rs"]}
{"id": "C65", "title": "Statistics of integer and string arrays", "statement": "Every statistic computed for an integer array of any width and sign (min, max, constant, sorted, strictly sorted, run count, null count, bit-width and trailing-zero histograms), and for a string array, is exactly what its rows imply; all-null arrays get the all-null statistics.", "quantifier": "every integer array and validity, every list of optional byte strings", "why_tests_cant": "statistics depend on the whole data", "anchors": ["vortex-array/src/array/primitive/stats.rs", "vortex-array/src/array/varbin/stats.rs"]}
{"id": "C66", "title": "Merged statistics of integer chunks", "statement": "Merging the computed statistics of any sequence of integer chunks succeeds and every statement it makes is true of the concatenated rows; a statistic survives exactly when both sides have it; histograms add up.", "quantifier": "every sequence of integer chunks", "why_tests_cant": "fold over unboundedly many chunks", "anchors": ["vortex-array/src/stats/statsset.rs", "vortex-array/src/array/chunked/stats.rs"]}
{"id": "C67", "title": "Splitting and evaluating row expressions", "statement": "A filter holds on a row exactly when all its conjuncts do, and no conjunct is itself a conjunction; evaluating an expression over a batch gives, for each row, the unique value of the expression on that row; the referenced columns are exactly those the filter mentions and determine its result.", "quantifier": "every expression tree, every batch", "why_tests_cant": "expressions nest without bound", "anchors": ["vortex-expr/src/lib.rs: split_conjunction", "vortex-serde/src/layouts/read/filtering.rs", "vortex-expr/src/binary.rs"]}
{"id": "C68", "title": "Type serialisation", "statement": "Every dtype, however nested, reads back equal from protobuf and from flatbuffers; distinct types have distinct encodings; projecting a serialised schema gives the projected schema.", "quantifier": "every dtype tree, every projection", "why_tests_cant": "types nest without bound", "anchors": ["vortex-dtype/src/serde/", "vortex-flatbuffers/"]}
{"id": "C69", "title": "Message stream: write, align, read back", "statement": "Every non-empty sequence of messages and buffers is written with each item starting at a 64-byte aligned position and is read back as the same sequence; the byte and row offsets reported for chunks are where they start.", "quantifier": "every message sequence", "why_tests_cant": "alignment and framing over unbounded sequences", "anchors": ["vortex-serde/src/stream_writer/mod.rs", "vortex-serde/src/message_reader.rs", "vortex-serde/src/message_writer.rs"]}
{"id": "C70", "title": "Incremental array reader on complete input", "statement": "Fed the bytes it asks for, the incremental reader asks for exactly the right number of bytes at each step, ends with the buffers that were written and rebuilds the written tree; asking it again is an error.", "quantifier": "every array tree, trailing bytes included", "why_tests_cant": "state machine over unbounded buffers", "anchors": ["vortex-serde/src/layouts/read/buffered.rs", "vortex-serde/src/message_reader.rs: ArrayBufferReader"]}
{"id": "C71", "title": "File round trip", "statement": "A written file's chunk ranges are disjoint, inside the data part and hold the chunks they stand for; opening it with a large enough initial read finds the schema and layout; reading it back, with any projection, batch size and I/O completion order, gives the rows written; files under 8 bytes, with a wrong magic or version are rejected; a second schema is rejected.", "quantifier": "every table, chunking, projection, batch size, completion order", "why_tests_cant": "file offsets for unbounded data", "anchors": ["vortex-serde/src/layouts/write/", "vortex-serde/src/layouts/read/footer.rs", "vortex-serde/src/layouts/read/stream.rs"]}
{"id": "C72", "title": "Integer cast and fill_forward", "statement": "Casting an integer array preserves every value and null or fails, failing exactly when a stored value or null does not fit the target (non-empty arrays); fill_forward replaces each null by the last preceding non-null value and keeps length and nullability.", "quantifier": "every integer array, source and target type", "why_tests_cant": "all values of all widths", "anchors": ["vortex-array/src/array/primitive/compute/cast.rs", "vortex-array/src/array/primitive/compute/fill.rs"]}
{"id": "C73", "title": "Partitioning an index range", "statement": "Splitting n rows into k parts, 0 < k <= n, gives k contiguous ranges that cover 0..n in order, of sizes differing by at most one, the larger ones first.", "quantifier": "every n and k", "why_tests_cant": "arithmetic over all n, k", "anchors": ["vortex-sampling-compressor/src/sampling.rs: partition_indices"]}
{"id": "C74", "title": "Including columns in a projection", "statement": "Projecting a struct array (any nesting of struct, chunked, constant and sparse arrays) to existing names or indices returns these columns in the requested order with the same rows, nulls and nullability.", "quantifier": "every struct-shaped array tree, every list of existing columns", "why_tests_cant": "nesting of chunked and sparse structs", "anchors": ["vortex-array/src/array/struct_/mod.rs: project", "vortex-array/src/variants.rs: StructArrayTrait", "vortex-expr/src/select.rs"]}
{"id": "C75", "title": "Nested zero-copy slices", "statement": "A slice of a buffer, and a slice of a slice, expose exactly the corresponding bytes without changing the underlying storage; equality of buffers is equality of bytes.", "quantifier": "every buffer and nested in-range pair of ranges", "why_tests_cant": "nested offsets", "anchors": ["vortex-buffer/src/lib.rs"]}
{"id": "C76", "title": "Layout routing", "statement": "In every layout tree with at most 65536 children per node, each layout reads exactly the bytes of the range it asked for, requests only what is not yet cached, and the order in which reads complete does not matter.", "quantifier": "every layout tree, cache history and completion order", "why_tests_cant": "interleavings of reads", "anchors": ["vortex-serde/src/layouts/read/cache.rs", "vortex-serde/src/layouts/read/layouts/"]}
{"id": "C77", "title": "Temporal metadata with non-empty zones", "statement": "Temporal metadata (kind, unit, optional non-empty zone under 64 KiB) written into an extension type reads back the same; different metadata of the same kind have different bytes; foreign ids and missing metadata are errors; temporal arrays are built exactly over integers of the width their unit calls for.", "quantifier": "every kind, unit and zone name", "why_tests_cant": "zone names are unbounded", "anchors": ["vortex-datetime-dtype/src/temporal.rs", "vortex-array/src/array/datetime/mod.rs"]}
{"id": "C78", "title": "Arrow type conversion", "statement": "Every dtype with an Arrow counterpart and every supported Arrow type survive the conversion there and back (strings as views); conversion to Arrow succeeds exactly on the exportable types; a schema is produced only for non-nullable structs.", "quantifier": "every type tree", "why_tests_cant": "types nest without bound", "anchors": ["vortex-array/src/arrow/dtype.rs"]}
{"id": "C79", "title": "Importing Arrow arrays", "statement": "Importing any Arrow array or record batch preserves rows and nulls at every nesting level, and succeeds exactly on the stated class of arrays; boolean buffers keep their bits at any bit offset and slice.", "quantifier": "every Arrow array tree, null buffer and bit offset", "why_tests_cant": "nesting and offsets", "anchors": ["vortex-array/src/arrow/array.rs", "vortex-array/src/arrow/recordbatch.rs", "vortex-array/src/array/bool/mod.rs"]}
{"id": "C80", "title": "Selecting ascending rows", "statement": "Requesting ascending in-range rows of a chunked stream or of a stored chunked array, with an index type able to count the rows, yields exactly these rows in order, however the data is chunked or batched; unacceptable index arrays (null, negative, descending) are errors on streams.", "quantifier": "every chunking and request", "why_tests_cant": "chunk boundaries", "anchors": ["vortex-serde/src/chunked_reader/take_rows.rs", "vortex-array/src/stream/take_rows.rs"]}
{"id": "C81", "title": "Push-down loses no row", "statement": "A pushed-down filtered scan returns, per chunk, rows in order with the projected columns only, including every row on which all filters are true and no row on which some filter is false; filters that are accepted can be converted, and a well-typed scan succeeds; without filters every row is returned.", "quantifier": "every table, filter list and projection", "why_tests_cant": "all filters and tables", "anchors": ["vortex-datafusion/src/memory.rs", "vortex-datafusion/src/lib.rs: can_be_pushed_down"]}
{"id": "C82", "title": "Pruning by equality and strict comparison", "statement": "For filters made of =, !=, <, > between a column and a constant expression, =, <, > between columns, and conjunctions with such a side: if the pruning expression is true on a chunk's true min/max statistics, no row of the chunk satisfies the filter; statistics of different columns or kinds have different names.", "quantifier": "every such filter, chunk and statistics", "why_tests_cant": "all values between min and max", "anchors": ["vortex-serde/src/layouts/pruning.rs"]}
{"id": "C83", "title": "Nested encoded arrays: slicing, access, decoding", "statement": "For every nesting of plain, constant, chunked, struct, extension, dictionary, run-end, sparse, frame-of-reference, zigzag and other encodings of the model (dictionary and sparse values not themselves structs): any sequence of slices followed by element access returns the corresponding row, out-of-range access is an error, and decoding returns one plain array with the same rows, type and length.", "quantifier": "every array tree of any depth, every slice sequence", "why_tests_cant": "unbounded nesting of encodings", "anchors": ["vortex-array/src/compute/slice.rs", "vortex-array/src/compute/unary/scalar_at.rs", "vortex-array/src/canonical.rs"]}
{"id": "C84", "title": "Compression keeps rows up to the sign of zero", "statement": "Whatever compressors are enabled, whatever is sampled, estimated or reused: compressing an array yields a well-formed array of the same length and type whose rows are the same up to the sign of floating-point zeros.", "quantifier": "every array tree of the model, every search outcome", "why_tests_cant": "unbounded search space", "anchors": ["vortex-sampling-compressor/src/lib.rs", "vortex-sampling-compressor/src/compressors/"]}
{"id": "C85", "title": "Scalars survive storage", "statement": "A scalar of any type stored in array metadata or in a message (fill values, frame-of-reference references, constants, statistics) and read back at its type is the scalar stored; comparing and merging statistics read from messages gives what comparing the originals gives.", "quantifier": "every dtype and value of it, nested to any depth, wherever the value is stored", "why_tests_cant": "the stored width depends on the value; nesting is unbounded", "anchors": ["vortex-scalar/src/serde/serde.rs: Serialize for ScalarValue, Deserialize for ScalarValue", "vortex-scalar/src/serde/flatbuffers.rs", "vortex-array/src/metadata.rs", "vortex-array/src/array/constant/canonical.rs", "vortex-array/src/stats/statsset.rs: merge_ordered"]}
{"id": "C86", "title": "Statistics survive serialisation", "statement": "Writing an array with its statistics and reading the message back gives an array that answers every question about its statistics - presence, booleans, counts, histograms, minimum and maximum at the column's type - as the array written did; missing statistics are computed from the data; nothing else is claimed.", "quantifier": "every statistics set the producers build, every column type, every accessor", "why_tests_cant": "statistics are stored with value-dependent widths and re-typed on reading", "anchors": ["vortex-array/src/stats/flatbuffers.rs", "vortex-array/src/view.rs: Statistics for ArrayView", "vortex-array/src/stats/mod.rs: get_as, get_as_cast"]}
{"id": "C87", "title": "Statistics of encoded arrays are true", "statement": "Whatever an encoded array claims about itself - minimum, maximum, order, constancy, number of runs, nulls and trues - is true of its rows: dictionary arrays (from their codes' and values' claims), the children a run-end encoder produces, constant and null arrays, roaring bitmaps of integers.", "quantifier": "every array of these encodings, every claim of its children that is itself true", "why_tests_cant": "a wrong claim changes what a reader prunes and which encoding a compressor picks; nothing checks it against the rows", "anchors": ["encodings/dict/src/stats.rs", "encodings/runend/src/compress.rs", "vortex-array/src/array/constant/mod.rs", "vortex-array/src/array/null/mod.rs", "encodings/roaring/src/integer/mod.rs"]}
{"id": "C88", "title": "Statistics may be asked from many threads", "statement": "Any number of threads may get, set and compute statistics of arrays and of arrays nested in and shared between them: under every schedule every call is eventually answered (no deadlock, no infinite wait); every answer is true of the array whenever the arrays' own computations and the values set are; what is known stays known; a failing computation changes nothing and gives no answer; after a panic inside a computation the array never answers again (it panics) instead of answering wrongly.", "quantifier": "every schedule of every number of threads, every nesting and sharing of arrays, every adaptive client", "why_tests_cant": "lock orders and interleavings cannot be enumerated by tests", "anchors": ["vortex-array/src/data.rs: Statistics for ArrayData", "vortex-array/src/array/chunked/stats.rs", "encodings/dict/src/stats.rs", "vortex-array/src/stats/statsset.rs: extend"]}
{"id": "C89", "title": "Scalars cross to DataFusion and Arrow unchanged", "statement": "A DataFusion scalar of any handled variant taken into Vortex, and back, says the same thing (null, boolean, number with its type, text, bytes, or a date/time/timestamp with its unit and zone); the only refusals are unhandled variants and zone names of 65536 bytes or more. A Vortex scalar given to DataFusion, or turned into a one-row Arrow array, says the same and has the type of an exported column of the same dtype; structs, lists and non-temporal extensions are always refused.", "quantifier": "every scalar value of every type, every time unit and zone, every byte string", "why_tests_cant": "the conversions are tables over types, units and widths, and go through the extension metadata encoding", "anchors": ["vortex-scalar/src/datafusion.rs: TryFrom<Scalar> for ScalarValue, From<ScalarValue> for Scalar", "vortex-scalar/src/arrow.rs: TryFrom<&Scalar> for Arc<dyn Datum>", "vortex-scalar/src/pvalue.rs: as_i32, as_i64", "vortex-datetime-dtype/src/arrow.rs: make_temporal_ext_dtype"]}
{"id": "C90", "title": "The real leaf compressors keep every row", "statement": "Compressing any column with the real bit-packing, ALP-RD, FSST, roaring, delta and date-time-parts encoders plugged into the sampling compressor, whatever decisions the search takes: an array that comes out has the length, type and rows of the input (up to the sign of floating-point zeros), each encoded leaf satisfies the invariants of its encoding and decodes to its rows, and with the default set of compressors element access on the result gives what it gave on the input.", "quantifier": "every array the compressor accepts, every decision of the search, every reused compression tree, every trained symbol table, dictionary and bit width", "why_tests_cant": "which encoders meet which data depends on samples, statistics and a hash set order; the composition of search and encoders has unboundedly many shapes", "anchors": ["vortex-sampling-compressor/src/compressors: bitpacked.rs, alp_rd.rs, fsst.rs, roaring_bool.rs, roaring_int.rs, delta.rs, date_time_parts.rs", "vortex-sampling-compressor/src/lib.rs: SamplingCompressor::compress, DEFAULT_COMPRESSORS"]}
{"id": "C91", "title": "An encoded array describes its own children", "statement": "An array that was built by the public constructors can be taken apart again: every child accessor succeeds, and when the array is serialised \u2013 the format stores neither types nor lengths of children \u2013 a reader that knows only the root's type and length recovers the type and length of every array in the tree.", "quantifier": "every tree of constructor calls over all 24 encodings, of any depth and size", "why_tests_cant": "the type and length of a child are recomputed by each accessor from metadata; a mismatch shows only for the combination of parent and child that has it, and on a view it is silent", "anchors": ["vortex-array/src/data.rs: ArrayData::child", "vortex-array/src/view.rs: ArrayView::child", "vortex-array/src/array/*/mod.rs, encodings/*/src/array.rs: constructors and child accessors", "vortex-array/src/validity.rs: Validity::to_metadata, ValidityMetadata::to_validity"]}
{"id": "C92", "title": "Exactly when a constructed array is usable", "statement": "After a constructor has accepted its arguments, all child accessors work if and only if the caller kept the obligations the constructor does not check: validity arrays of non-nullable booleans; as many run-end values as ends; whole 16-byte views; frame-of-reference residuals of the unsigned type of the reference; ALP-RD right parts of the float's width and exceptions of the left parts' nullable type and length; bit-packing patches of the array's nullable type. If the obligations are kept at every level, the serialised form together with the root's type and length determines the array.", "quantifier": "every constructor call over all 24 encodings with any arguments, and every tree of them", "why_tests_cant": "the condition is an equivalence over all argument combinations of all constructors", "anchors": ["vortex-array/src/array/*/mod.rs, encodings/*/src/array.rs: constructors and child accessors", "vortex-array/src/data.rs: ArrayData::child", "vortex-array/src/view.rs: ArrayView::child"]}
{"id": "C93", "title": "A file of encoded arrays reads back as their rows", "statement": "An array built by the constructors \u2013 of any encodings, nested and chunked in any way \u2013 whose root is a struct array or chunks of struct arrays without null rows can be written with write_array_columns and, read from the file with any batch size and any completion order of I/O, gives exactly the array's rows in order and its dtype; with a projection, exactly the requested fields of these rows.", "quantifier": "every tree of constructor calls, any chunking at the root and in each column, any projection, batch size and I/O order", "why_tests_cant": "the statement composes the column splitter, serialised trees without types and lengths, the layouts and the reader; every encoding can occur at every place", "anchors": ["vortex-serde/src/layouts/write/writer.rs: write_array_columns, write_array_columns_stream", "vortex-serde/src/layouts/read/stream.rs", "vortex-serde/src/messages.rs: IPCArray::write_flatbuffer", "vortex-array/src/view.rs: ArrayView", "vortex-array/src/array/struct_/mod.rs: children"]}
{"id": "C94", "title": "A query over a table of files returns the rows SQL says", "statement": "A table is a list of Vortex files of one schema. A query with a projection and filters that the table provider accepted returns, file after file and row after row in the order written, the projected columns of exactly the rows on which every filter is true in SQL - whatever the order in which reads complete and references are walked, whatever the number of files, batches and chunks.", "quantifier": "every list of files, every data written to them, every projection, every well-typed filter list, every I/O completion order", "why_tests_cant": "the statement composes the writer, the footer, two layout readers sharing a cache, the row filter, the filter conversion and the concatenation of files; correctness depends on where batches end relative to matches", "anchors": ["vortex-datafusion/src/persistent/provider.rs: scan", "vortex-datafusion/src/persistent/execution.rs: VortexExec", "vortex-datafusion/src/persistent/opener.rs: VortexFileOpener::open", "vortex-serde/src/layouts/read/builder.rs", "vortex-serde/src/layouts/read/filtering.rs: RowFilter", "vortex-serde/src/layouts/read/stream.rs", "vortex-expr/src/datafusion.rs"]}
{"id": "C95", "title": "Reading a file from Python returns the rows the filter is true on", "statement": "vortex.io.read, Dataset.to_array and Dataset.to_record_batch_reader, given columns by name or position and a row filter written in Python from columns, plain values, typed literals, comparisons, & and |, return a struct of the columns asked for with exactly the rows on which the filter is true, in the order they were written; the side on which a plain value is written does not matter.", "quantifier": "all files the writer writes, schemas, projections, filters, batch sizes, I/O completion orders", "why_tests_cant": "filters are trees of unbounded size, evaluated batch by batch on chunks whose boundaries differ from the batches; Python's dispatch of reflected operators and the typing of plain values interact with every column type", "anchors": ["pyvortex/src/expr.rs: PyExpr, coerce_expr, py_binary_opeartor, scalar, scalar_value", "pyvortex/src/io.rs: read, async_read, layout_reader", "pyvortex/src/dataset.rs: to_array, to_record_batch_reader", "vortex-serde/src/layouts/read/builder.rs: LayoutReaderBuilder"]}
{"id": "C96", "title": "Single values cross to Python and back unchanged", "statement": "Array.scalar_at(i) gives, for every row, None, the same boolean, the integer itself, the float of the same number, or a view whose into_python() - at once or one level at a time - gives the text, bytes, list or dict with the row's contents at every depth, and an error past the end; a plain Python value used as an operand or with literal(dtype, value) becomes a scalar of that type that says the same, or is refused; reading a value and making a literal of it gives the value back.", "quantifier": "all arrays in all encodings, all positions, all values and nested types, all Python objects", "why_tests_cant": "values are trees of unbounded depth, widths and ranges differ from Python's, and the dispatch is on the value in one direction and on the type in the other", "anchors": ["pyvortex/src/scalar.rs: scalar_value_into_py, to_python_list, to_python_dict, into_python", "pyvortex/src/expr.rs: scalar_value, literal, coerce_expr", "pyvortex/src/array.rs: scalar_at"]}
{"id": "C97", "title": "Decoding a variable-length column keeps its rows", "statement": "Decoding a string or byte column - held with offsets, as views, FSST-compressed, or in chunks each with its own data buffers - yields one view column of the same type and nullability whose rows are exactly the rows of the column, in order, null where they were null; offsets that Arrow's offset types cannot hold give an error, never other bytes.", "quantifier": "all columns: offset types, data buffers shared or sliced, string lengths on both sides of the 12-byte inline limit, numbers of chunks and of buffers per chunk, debug and release builds", "why_tests_cant": "views refer to bytes by buffer number and offset; the numbers are rewritten when chunks are packed, and the inline form depends on the length", "anchors": ["vortex-array/src/array/varbin/flatten.rs: into_canonical", "vortex-array/src/array/varbin/arrow.rs: varbin_to_arrow", "vortex-array/src/array/varbinview/mod.rs: into_canonical, varbinview_as_arrow", "vortex-array/src/array/chunked/canonical.rs: pack_views", "encodings/fsst/src/canonical.rs: into_canonical"]}
{"id": "C98", "title": "Scan statistics are true of the rows returned", "statement": "The statistics an in-memory table scan reports to the query planner (which may answer COUNT, MIN or MAX from them without reading a row) are true of the batches the scan then returns: the number of rows marked exact is the number of rows returned, no null count, minimum, maximum or distinct count marked exact differs from the column's, and filtering scans mark nothing exact. A projection outside the columns is an error.", "quantifier": "every table of chunks, projection and filter list, and every statistics set stored with the arrays", "why_tests_cant": "the planner trusts exact statistics for every query over every table; a test checks a few tables", "anchors": ["vortex-datafusion/src/statistics.rs:chunked_array_df_stats", "vortex-datafusion/src/lib.rs:VortexScanExec", "vortex-array/src/array/chunked/variants.rs:field"]}
{"id": "C99", "title": "Arrow data survives the trip through a Python Vortex array", "statement": "Encoding a PyArrow array, chunked array or table as a Vortex array in Python and asking the result for its Arrow form gives the same rows in the same chunks, and the same type up to the view layout of strings.", "quantifier": "every Arrow array of an importable type (any nesting of structs, any nulls), every chunking, every list of record batches", "why_tests_cant": "types nest without bound and nulls can sit anywhere; tests try a few columns", "anchors": ["pyvortex/src/encode.rs:_encode", "pyvortex/src/array.rs:to_arrow_array", "vortex-array/src/arrow/array.rs:from_arrow"]}
{"id": "C100", "title": "Storage adapters move exactly the bytes asked for", "statement": "With positions and offsets that add up within 64 bits (builds with overflow checks panic otherwise): a positioned read that succeeds - from a byte slice, vector, buffer, file or object store, behind any stack of references, shared pointers and offset adapters - returns exactly the bytes of the content at that position and as many as were asked for; every range inside the content is served, a range past its end is not, and the reported size is the number of bytes. Successive reads of any lengths deliver the content in order, nothing lost or repeated. What is written in any pieces, with flushes anywhere, is what is stored after shutdown; an object in an object store becomes visible only at shutdown, and its writer then refuses every operation.", "quantifier": "every source, stack of adapters, offset, position and length within 64 bits; every sequence of reads and of write, flush and shutdown operations; builds with and without overflow checks; every object store that keeps its contract", "why_tests_cant": "adapters nest without bound, positions range over 64 bits, and operation sequences are unbounded; tests read a few ranges of one source", "anchors": ["vortex-serde/src/io/read.rs: VortexRead, VortexReadAt", "vortex-serde/src/io/offset.rs: OffsetReadAt", "vortex-serde/src/io/object_store.rs: ObjectStoreReadAt, ObjectStoreWriter", "vortex-serde/src/io/tokio.rs", "vortex-serde/src/io/write.rs: VortexWrite"]}
{"id": "C101", "title": "An interrupted write is not taken for a file", "statement": "While a table is written the sink is only appended to, so a crash leaves a prefix of the file. Opening or reading such a prefix (any proper prefix, with the size taken from the source or with the size the caller expected) returns an error whenever the eight bytes before the cut are not themselves an end mark (version 1 and the magic bytes); in particular in a file without an end mark before its own every crash point is found out. A file whose end was replaced by zero bytes is refused unconditionally. Nothing more is found out: data that contain a forged end make a prefix open as another table, and bytes lost before the schema are not noticed on opening.", "quantifier": "every table, every crash point, every initial read size of at least eight bytes, every believed size, every projection and filter", "why_tests_cant": "a crash can leave any of as many prefixes as the file has bytes, for every possible content", "anchors": ["vortex-serde/src/layouts/read/footer.rs: LayoutDescriptorReader::read_footer", "vortex-serde/src/layouts/write/writer.rs: LayoutWriter::finalize, write_array_columns_stream", "vortex-serde/src/layouts/mod.rs: EOF_SIZE, MAGIC_BYTES", "vortex-serde/src/message_writer.rs: write_all, write_message"]}
{"id": "C102", "title": "Compressed arrays survive storage as the same encoded arrays", "statement": "An array of any supported encodings - plain, boolean, byte strings, constant, sparse, dictionary, run-end, frame-of-reference, zigzag, ALP, bit-packed, delta, ALP-RD, FSST, roaring, date-time parts, chunked, struct, extension, nested in any way - is built by the constructors, serialised without any child type or length and read back with the type and length of the whole: the reader sees the same tree of encodings with the same buffers, validities and metadata, hence the same rows. A table compressed by any choice of compressors, written to a file and read in any batch size, column selection and I/O completion order has the rows of the table that was compressed (up to the sign of floating-point zeros).", "quantifier": "all well-formed trees of encodings within the format's limits, all compressor decisions, samples and reused compression trees, all files, projections, batch sizes and orders of completed reads", "why_tests_cant": "trees of encodings are unbounded in depth and shape; tests store a few hand-built arrays and compare a few rows", "anchors": ["vortex-array/src/data.rs:ArrayData::child", "encodings/fastlanes/src/bitpacking/mod.rs", "encodings/fastlanes/src/delta/mod.rs", "encodings/alp/src/alp_rd/array.rs", "encodings/fsst/src/array.rs", "encodings/roaring/src", "encodings/datetime-parts/src/array.rs", "vortex-array/src/view.rs:ArrayView::child", "vortex-array/src/array/varbinview/mod.rs:try_new", "vortex-serde/src/messages.rs:IPCArray::write_flatbuffer", "vortex-serde/src/layouts/write/writer.rs", "vortex-sampling-compressor/src/lib.rs:SamplingCompressor::compress"]}
{"id": "C103", "title": "Filtering by a predicate of any encoding", "statement": "For every array and every boolean predicate array of the same length, whatever the encoding of the predicate (plain, constant, sparse, run-end, byte, roaring, chunked) and whatever true statistics it carries, `filter(array, predicate)` keeps exactly the rows on which the predicate is true, in order, with the array's type; a predicate of another length is refused.", "quantifier": "every array tree, every predicate encoding nested to any depth, every set of statistics the predicate may carry", "why_tests_cant": "the choice between index and slice iteration, the use of cached statistics and the per-encoding iterators multiply into many paths: tests use plain predicates only", "anchors": ["vortex-array/src/compute/filter.rs:filter", "vortex-array/src/variants.rs:BoolArrayTrait", "vortex-array/src/array/bool/mod.rs", "vortex-array/src/array/constant/variants.rs", "vortex-array/src/array/sparse/variants.rs", "vortex-array/src/array/chunked/compute/filter.rs", "vortex-array/src/array/chunked/variants.rs", "encodings/bytebool/src/array.rs", "encodings/roaring/src/boolean/mod.rs", "encodings/runend-bool/src/array.rs"]}
{"id": "C104", "title": "Comparing encoded arrays equals comparing their rows", "statement": "For every pair of arrays of the same length and type (nullability aside) and each of the six operators, whatever the encodings of the two sides and however deep they nest, `compare(left, right, op)` returns a nullable boolean array whose row i is null if either row i is null and otherwise says whether the operator holds between the two values; so the answer does not depend on the encodings, and turning the comparison around with the swapped operator gives the same answer. Other lengths or types are refused.", "quantifier": "every pair of array trees, nested to any depth, every operator, every validity, every constant on either side, every cached statistic", "why_tests_cant": "each pair of encodings takes its own path (constants, native loops, arrow kernels, chunk slicing, extension storage, ALP codes, swapped sides), so the pairs multiply; the tests compare a few plain arrays", "anchors": ["vortex-array/src/compute/compare.rs:compare,scalar_cmp", "vortex-array/src/array/constant/compute.rs", "vortex-array/src/array/primitive/compute/compare.rs", "vortex-array/src/array/varbin/compute/compare.rs", "vortex-array/src/array/varbinview/compute.rs", "vortex-array/src/array/chunked/compute/mod.rs", "vortex-array/src/array/extension/compute.rs", "encodings/alp/src/alp/compute.rs", "encodings/fsst/src/compute.rs"]}
{"id": "C105", "title": "Boolean and/or of encoded arrays equal and/or of their rows", "statement": "For every pair of boolean arrays of the same length, whatever their encodings, `and(lhs, rhs)` and `or(lhs, rhs)` return a nullable boolean array whose row i is null if either row i is null and otherwise the conjunction or disjunction of the two; the order of the sides does not matter; other lengths and types are refused.", "quantifier": "every pair of array trees, nested to any depth, every validity, constants on either side, every cached statistic", "why_tests_cant": "plain arrays go to arrow, constants and arrays known to be constant to scalars, the others are decoded, the sides may be swapped; the tests combine a few plain arrays and constants", "anchors": ["vortex-array/src/compute/boolean.rs:and,or", "vortex-array/src/array/bool/compute/boolean.rs", "vortex-array/src/array/constant/compute.rs:constant_array_bool_impl"]}
{"id": "C106", "title": "A filtered scan of encoded columns returns exactly the rows on which the expression is true", "statement": "For every table whose columns have any encodings, every expression of comparisons between columns and literals combined with `and` and `or` evaluates in each row to its value on that row; the mask a row filter computes is true exactly on the rows on which the expression is true; and a filtered scan of a batch returns exactly these rows of the batch, in order and with their type, and nothing only if there are none.", "quantifier": "every table and batch of array trees, every expression of that form, every split into conjuncts, every cached statistic", "why_tests_cant": "the mask is built conjunct by conjunct with an early exit on a statistic that may be missing, the evaluation goes through the comparison and boolean kernels of each encoding and the result through its filter kernel; the tests scan a few plain columns", "anchors": ["vortex-expr/src/binary.rs", "vortex-expr/src/column.rs", "vortex-expr/src/literal.rs", "vortex-expr/src/lib.rs:split_conjunction", "vortex-serde/src/layouts/read/filtering.rs:RowFilter::evaluate", "vortex-serde/src/layouts/read/mod.rs:null_as_false", "vortex-serde/src/layouts/read/stream.rs:poll_next"]}
{"id": "C107", "title": "The views of an array by its logical type agree with its rows", "statement": "For every array, whatever its encoding: inverting a boolean array negates every row that is not null and keeps nulls and the type; its true count is the number of true rows; field i of a struct array has, in every row that is not null, the value of the field, with the type of the field (and the field of a name is the first one of that name); the storage array of an extension array has the same rows in the storage type.", "quantifier": "every array tree, nested to any depth, every validity, every field index and name, every cached statistic", "why_tests_cant": "the views are implemented per encoding (constants, sparse arrays and chunks rebuild themselves around their children) and the tests touch a few plain ones", "anchors": ["vortex-array/src/variants.rs:BoolArrayTrait,StructArrayTrait,ExtensionArrayTrait", "vortex-array/src/array/constant/variants.rs", "vortex-array/src/array/sparse/variants.rs", "vortex-array/src/array/chunked/variants.rs", "vortex-array/src/array/extension/mod.rs:storage_array"]}
{"id": "C108", "title": "Sorted search answers the same whatever the encoding", "statement": "On every array whose rows are in ascending order with nulls last, searching for a value reports how many rows are smaller than it (on the right side: not greater) and says it was found exactly if it occurs; the answer depends on the rows and not on how they are encoded or nested; searching for many values answers each as alone; a number given as u64 is compared by its numeric value; a null probe is refused.", "quantifier": "every array tree over every encoding, nested to any depth, every probe, side and list of probes", "why_tests_cant": "each encoding either has its own search, written in terms of its children's, or falls back to binary search over single reads; the unit tests search a few short literal arrays of single encodings", "anchors": ["vortex-array/src/compute/search_sorted.rs:search_sorted,search_sorted_u64,search_sorted_many,search_sorted_u64_many", "vortex-array/src/array/primitive/compute/search_sorted.rs", "vortex-array/src/array/constant/compute.rs:SearchSortedFn", "vortex-array/src/array/sparse/compute/mod.rs:SearchSortedFn", "encodings/fastlanes/src/for/compute.rs:search_sorted_typed"]}
{"id": "C109", "title": "A query over files of compressed tables returns the rows SQL asks for", "statement": "A query over any number of files, each written from a table of any encodings that may first have gone through the compressor, with any well-typed filters and any projection, returns in order the requested columns of exactly those rows of the original tables on which every filter is true in SQL; nothing depends on how columns are encoded or compressed, how the table is cut into chunks, or the order of I/O.", "quantifier": "every list of tables over every encoding and nesting, every choice of the compressor, every chunking, filter, projection and I/O order", "why_tests_cant": "the answer goes through the compressor's choices, array-to-bytes, the file layout, pruning of columns, batched reads, row filtering and take, and each step depends on data; tests run a few fixed queries on fixed files", "anchors": ["vortex-sampling-compressor/src/lib.rs:SamplingCompressor", "vortex-serde/src/layouts/write/writer.rs:LayoutWriter", "vortex-serde/src/layouts/read/builder.rs:LayoutReaderBuilder", "vortex-serde/src/layouts/read/batch.rs", "vortex-datafusion/src/persistent/opener.rs:VortexFileOpener", "vortex-datafusion/src/persistent/provider.rs"]}
{"id": "C110", "title": "Damaged bytes are refused, not fatal", "statement": "Opening any bytes as a file (with any claimed size and projection), taking any bytes for a block of a column, reading any stored type or walking any stored array, and any sequence of requests on any bytes taken for a stream of messages, ends in an answer or an error and never aborts the process.", "quantifier": "every byte sequence, claimed size, projection and sequence of requests", "why_tests_cant": "the inputs are arbitrary bytes; tests only read files and streams that were just written", "anchors": ["vortex-serde/src/layouts/read/footer.rs:LayoutDescriptorReader::read_footer,LayoutDescriptor", "vortex-serde/src/layouts/read/builder.rs:LayoutReaderBuilder::build", "vortex-serde/src/message_reader.rs:MessageReader,ArrayBufferReader", "vortex-serde/src/layouts/read/layouts/flat.rs:array_from_bytes", "vortex-dtype/src/serde/flatbuffers/mod.rs", "vortex-dtype/src/serde/flatbuffers/project.rs", "vortex-array/src/view.rs:ArrayView::buffer"]}
{"id": "C111", "title": "Equal expressions are interchangeable", "statement": "Comparing two expressions always returns and says whether they are the same expression, so that expressions that compare equal give the same result on every batch; and an expression reads only the columns it lists as its references, so evaluating it on a batch from which the other columns were left out gives the same result.", "quantifier": "all pairs of expressions, of any depth, built from columns, literals, selections, identity and operators, and all batches of any encodings", "why_tests_cant": "expressions nest without bound and the comparison walks both; that no other column matters is a statement about every batch", "anchors": ["vortex-expr/src/lib.rs:VortexExpr,unbox_any", "vortex-expr/src/binary.rs:BinaryExpr", "vortex-expr/src/column.rs:Column", "vortex-expr/src/literal.rs:Literal", "vortex-expr/src/select.rs:Select", "vortex-expr/src/identity.rs:Identity", "vortex-scalar/src/lib.rs:PartialEq for Scalar"]}
{"id": "C112", "title": "Printing a scalar tells its value and does not stop the program", "statement": "For every scalar that belongs to its type, to_string (format!(\"{}\")) returns a text; the text of an integer is its decimal value followed by its type, of bytes their hexadecimal digits, of a string the string itself, of a struct its fields in order by name, of a date, time or timestamp what the calendar library prints, and of a missing value null; and two scalars of one type that print alike hold the same value.", "quantifier": "all scalar types of any nesting, all values of the type, all field names, all behaviours of the calendar library", "why_tests_cant": "tests print one literal per type; that printing never stops the program and that two values cannot print alike are statements about all values and all nestings, including field names that contain punctuation", "anchors": ["vortex-scalar/src/display.rs::Display for Scalar", "vortex-scalar/src/value.rs::Display for ScalarValue", "vortex-scalar/src/pvalue.rs::Display for PValue", "vortex-datetime-dtype/src/temporal.rs::TemporalMetadata::to_jiff"]}
{"id": "C113", "title": "The text of a type tells the type", "statement": "Two types whose str (to_string) is the same are the same type, and so are two types whose Python repr is the same, struct fields, list elements, extension ids and metadata included; and the repr of a type is a call of the constructor that returns it.", "quantifier": "all types of any nesting, all field names, extension ids and metadata bytes, all constructor arguments", "why_tests_cant": "tests print a handful of types; that no two types share a text is a statement about all pairs, and depends on punctuation in names", "anchors": ["vortex-dtype/src/dtype.rs::Display for DType", "vortex-dtype/src/ptype.rs::Display for PType", "pyvortex/src/python_repr.rs::python_repr", "pyvortex/src/dtype.rs::dtype_int"]}
{"id": "C114", "title": "Walking over an array shows all of it", "statement": "An array that was read back can be taken into ownership, written again, measured and traversed: every accessor of the copy answers as before, what is written again is what was read and reads back as the same array, the size in bytes is that of all buffers in the tree, and the traversal meets every array in the tree once, parents first.", "quantifier": "all trees of arrays that successful constructor calls build, over every encoding of the workspace, any depth and number of children", "why_tests_cant": "tests visit a few small trees and never write again what they read; that the visitor of every encoding shows every child in the right order is a statement about all trees", "anchors": ["vortex-array/src/view.rs::ArrayView::children", "vortex-array/src/implementation.rs::to_array_data", "vortex-array/src/lib.rs::nbytes", "vortex-array/src/lib.rs::depth_first_traversal", "vortex-array/src/array/struct_/mod.rs::accept", "encodings/fastlanes/src/delta/mod.rs::accept", "vortex-serde/src/messages.rs::IPCArray"]}
{"id": "C115", "title": "A reader reads what its registry knows", "statement": "Looking an encoding up by its code finds the last one registered under it, whatever the order of the others; an array whose encodings the reader has is read as it was written whatever else is registered; an array with an encoding it does not have is reported as an error or handed over opaque with its code, type, length and bytes, is never read as something else, and can still be looked into, written again and measured.", "quantifier": "all sequences of registrations, all trees of arrays that constructors build over the encodings of the workspace, all contexts", "why_tests_cant": "tests use one context that has everything; which contexts read which trees is a statement about all pairs, and the order of registration about all sequences", "anchors": ["vortex-array/src/context.rs::Context", "vortex-array/src/encoding/mod.rs::ids", "vortex-array/src/encoding/opaque.rs::OpaqueEncoding", "vortex-array/src/view.rs::ArrayView::try_new", "vortex-array/src/view.rs::ArrayView::child", "vortex-array/src/typed.rs::TypedArray", "vortex-sampling-compressor/src/lib.rs::ALL_COMPRESSORS_CONTEXT"]}
{"id": "C116", "title": "The compressor lists the encodings it writes", "statement": "A reader whose context is the default one plus compressor.used_encodings() can find the encoding of every array inside whatever the compressor writes: an output contains only encodings every reader has and encodings declared by an enabled compressor, no compressor runs that is not enabled or always present, and enabling more compressors never takes a declared encoding away.", "quantifier": "all arrays, sets of enabled compressors, depths and every outcome of sampling, statistics and objective", "why_tests_cant": "which encoding ends up inside which depends on data, samples and costs at every level; tests read back with a context that has everything", "anchors": ["vortex-sampling-compressor/src/lib.rs: used_encodings, compress, compress_array, including, excluding", "vortex-sampling-compressor/src/compressors/*.rs: used_encodings, compress", "vortex-array/src/context.rs: Context::with_encodings"]}
{"id": "C117", "title": "Compression is no deeper than configured", "statement": "SamplingCompressor::compress nests encodings no deeper than max_cost: on no path from the root of the compressed array inwards do the costs of the encodings (constants.rs: run-end, dictionary, frame of reference, ALP and the like one, delta two, constant, sparse, zigzag, bit-packing, chunks and structs nothing) add up to more than max_cost (3 by default) beyond what was nested in the input already; the tree that is kept and reused for later chunks respects the same limit, and so does every array it is reused for. Decompression therefore has a bounded number of costly steps per value.", "quantifier": "every array, every set of compressors, every max_cost, every sequence of decisions of the search, every chunking and every tree that is reused", "why_tests_cant": "the search depends on samples, sizes and statistics; reused trees bypass the check of the cost, so no set of examples shows that they never exceed the limit", "anchors": ["vortex-sampling-compressor/src/lib.rs: SamplingCompressor::compress_array, compress, CompressConfig::max_cost", "vortex-sampling-compressor/src/constants.rs", "vortex-sampling-compressor/src/compressors/*: EncodingCompressor::cost, for_compressor"]}
{"id": "C118", "title": "A printed tree shows all of an array and its shares", "statement": "array.tree_display() of an array in memory does not fail and prints one line for every array in the tree, parents first, indented by depth, with its encoding, type, length and nbytes; the percentage on it is of the nbytes of the root, or of the chunk it is in if it is inside a chunked array; no percentage is over 100; and the buffers printed add up to the size printed for the root.", "quantifier": "every array of any encodings, nesting and chunking", "why_tests_cant": "the formatter keeps the total in a field that is cleared, set and restored during the walk, and sizes are overridden by some encodings; whether the shares are right depends on the whole tree", "anchors": ["vortex-array/src/tree.rs: TreeFormatter::visit_child, visit_buffer, tree_display", "vortex-array/src/lib.rs: ArrayTrait::nbytes", "encodings/fastlanes/src/bitpacking/mod.rs: nbytes"]}
