{
 "claims": [
  {
   "property": "C01",
   "status": "proved",
   "theorems": [
    "Vx.C01_search_sorted_slice",
    "Vx.C01_search_sorted_nulls_last"
   ],
   "note": "generic binary search over any linear order"
  },
  {
   "property": "C02",
   "status": "partial",
   "theorems": [
    "Vx.C02_for_search_partial",
    "Vx.C02_for_search_wraps",
    "Vx.C02_sparse_search_partial",
    "Vx.C02_sparse_search_ignores_fill",
    "Vx.C02_sparse_search_empty_err",
    "Vx.BitPack.C02_bitpack_search",
    "Vx.BitPack.C02_bitpack_encoded_search",
    "Vx.BitPack.C02_bitpack_search_u64",
    "Vx.BitPack.slice_tight",
    "Vx.BitPack.C02_bitpack_search_many_partial",
    "Vx.BitPack.C02_bitpack_many_ignores_patches",
    "Vx.BitPack.C02_bitpack_u64_many_truncates",
    "Vx.BitPack.C02_bitpack_u64_behind_nulls"
   ],
   "note": "Bit-packed single search proved in full; FoR and sparse parts and the many-probe variants proved on the probes where the code is right; the excluded cases are where the code is wrong (witness theorems)."
  },
  {
   "property": "C03",
   "status": "partial",
   "theorems": [
    "Vx.Tree.C03_scalar_at_partial",
    "Vx.Tree.C03_scalar_at_real_partial",
    "Vx.Tree.C03_canonical_real_partial",
    "Vx.Tree.C03_packed_column",
    "Vx.Tree.C03_leaf_laws",
    "Vx.Tree.C03_out_of_bounds",
    "Vx.Tree.C03_is_valid",
    "Vx.Tree.C03_len",
    "Vx.Tree.C03_composite_values",
    "Vx.Tree.C03_composite_patches",
    "Vx.Tree.C03_canonical_partial",
    "Vx.Tree.C03_scalar_of_canonical_partial",
    "Vx.Tree.C03_canonical_sparse_bool",
    "Vx.Tree.C03_canonical_sparse_null"
   ],
   "note": "for every tree of encoded arrays (13 constructors, any depth): scalar_at gives the i-th logical row or an error; decoding the tree gives exactly those rows. Missing: sparse/dictionary arrays with struct values, where scalar_at returns garbage under nulls, and sparse arrays whose decoding loses rows (witnesses)"
  },
  {
   "property": "C04",
   "status": "partial",
   "theorems": [
    "Vx.Tree.C04_slice_partial",
    "Vx.Tree.C04_sequence_real_partial",
    "Vx.Tree.C04_out_of_bounds",
    "Vx.Tree.C04_sequence_partial",
    "Vx.Tree.C04_scalar_at_partial",
    "Vx.Tree.C04_runEnd_end",
    "Vx.Tree.C04_sparse_runEnd",
    "Vx.Tree.C04_no_chunks"
   ],
   "note": "for every tree and every sequence of slices. Missing: empty slices at the end of run-end arrays, sparse arrays with run-end values and chunked arrays without chunks, where the code fails (witnesses)"
  },
  {
   "property": "C05",
   "status": "partial",
   "theorems": [
    "Vx.Tree.C05_take_partial",
    "Vx.Tree.C05_leaf_bulk",
    "Vx.Tree.C05_take_canonical_partial",
    "Vx.Tree.C05_sequence_partial",
    "Vx.Tree.C05_chunked_empty",
    "Vx.Tree.C05_sparse_chunked"
   ],
   "note": "take on every tree of arrays and every in-range index list; missing: empty index lists on chunked arrays and sparse-over-chunked, where the code panics (witnesses), and shapes outside Bulk"
  },
  {
   "property": "C06",
   "status": "partial",
   "theorems": [
    "Vx.Tree.C06_filter_partial",
    "Vx.Tree.C06_pipeline_real_partial",
    "Vx.Tree.C06_length_mismatch",
    "Vx.Tree.C06_pipeline_partial",
    "Vx.Tree.C06_temporal_kept",
    "Vx.Tree.C06_extension",
    "Vx.Tree.C06_time_zone"
   ],
   "note": "filter on every tree of arrays and every predicate; missing: non-temporal extension arrays and time zones, where the arrow fallback errs or changes the type (witnesses), and shapes outside Bulk"
  },
  {
   "property": "C07",
   "status": "proved",
   "theorems": [
    "Vx.C07_encode_value",
    "Vx.C07_small",
    "Vx.C07_roundtrip",
    "Vx.C07_array_roundtrip",
    "Vx.C07_access"
   ],
   "note": "all widths; the external zigzag crate's two formulas are transcribed from its documented definition"
  },
  {
   "property": "C08",
   "status": "proved",
   "theorems": [
    "Vx.C08_value_roundtrip",
    "Vx.C08_roundtrip",
    "Vx.C08_no_valid_rows_err",
    "Vx.C08_scalar_at",
    "Vx.C08_slice_take_filter"
   ],
   "note": "Frame-of-reference compress/decompress for every width, signedness, validity. Arrays without valid rows are rejected with an error by the code (stated)."
  },
  {
   "property": "C09",
   "status": "proved",
   "theorems": [
    "Vx.Delta.C09_roundtrip",
    "Vx.Delta.C09_layout",
    "Vx.Delta.C09_decompress_partial",
    "Vx.Delta.C09_from_primitive_partial",
    "Vx.Delta.C09_slice",
    "Vx.Delta.C09_scalar_at_partial",
    "Vx.Delta.C09_from_primitive_loses_nulls",
    "Vx.Delta.C09_sliced_nullable_panics",
    "Vx.Delta.plainKern_lawful"
   ],
   "note": "Round trip for every length and content, through delta_compress / try_from_delta_compress_parts / delta_decompress. Findings: try_from_primitive_array drops nulls, and slices (and scalar_at) of arrays with per-row nulls panic when decoded. The fastlanes kernels are a contract with an instance."
  },
  {
   "property": "C10",
   "status": "partial",
   "theorems": [
    "Vx.BitPack.C10_unpack",
    "Vx.BitPack.C10_roundtrip",
    "Vx.BitPack.C10_width_refused",
    "Vx.BitPack.C10_empty_refused",
    "Vx.BitPack.C10_scalar_at",
    "Vx.BitPack.C10_slice",
    "Vx.BitPack.C10_take_partial",
    "Vx.BitPack.C10_take_patches_misplaced",
    "Vx.BitPack.C10_patchless",
    "Vx.BitPack.C10_best_width",
    "Vx.BitPack.C10_unchecked",
    "Vx.BitPack.plainFL_lawful"
   ],
   "note": "Everything but take is proved in full. take is false of the code when patches are applied block by block (C10_take_patches_misplaced); the cases where it is right are C10_take_partial. The fastlanes kernels are a contract with an instance."
  },
  {
   "property": "C100",
   "status": "proved",
   "theorems": [
    "Vx.Io.C100_read_exact",
    "Vx.Io.C100_in_range",
    "Vx.Io.C100_past_end",
    "Vx.Io.C100_size",
    "Vx.Io.C100_size_total",
    "Vx.Io.C100_sequential",
    "Vx.Io.C100_sequential_total",
    "Vx.Io.C100_sequential_eof",
    "Vx.Io.C100_written",
    "Vx.Io.C100_object_atomic",
    "Vx.Io.C100_cursor_overwrites",
    "Vx.Io.C100_offset_wraps",
    "Vx.Io.C100_short_range_panics",
    "Vx.Io.C100_empty_file_read"
   ],
   "note": "Beyond 64 bits a release build reads the wrong bytes (witness C100_offset_wraps). Contracts: read_exact/read_exact_at/write_all of the OS and runtimes, object store get_range/head/WriteMultipart."
  },
  {
   "property": "C101",
   "status": "proved",
   "theorems": [
    "Vx.Layout.C101_append_only",
    "Vx.Layout.C101_cut_refused",
    "Vx.Layout.C101_every_crash_point",
    "Vx.Layout.C101_torn_refused",
    "Vx.Layout.C101_data_can_forge",
    "Vx.Layout.C101_hole_not_seen"
   ],
   "note": "Every crash point of every file is refused unless an end mark precedes the cut; the two limits of detection named in the statement are theorems as well."
  },
  {
   "property": "C102",
   "status": "partial",
   "theorems": [
    "Vx.Store.C102_built",
    "Vx.Store.C102_reread",
    "Vx.Store.C102_faithful",
    "Vx.Store.C102_bytes",
    "Vx.Store.C102_scalars",
    "Vx.Store.C102_f16_constant",
    "Vx.Store.C102_file",
    "Vx.Tree.C102_compressed_file",
    "Vx.Store.C102_leaf",
    "Vx.Store.C102_all_encodings",
    "Vx.Tree.C102_encoders_fit",
    "Vx.Tree.C102_plain_fits",
    "Vx.Tree.C102_real_file"
   ],
   "note": "proved for every tree within the limits of the format whose metadata scalars survive (C85 says which; f16 constants do not, C102_f16_constant); FSST, bit-packing, delta, ALP-RD, date-time parts and roaring are stored with their real metadata and children (children plain; the bytes of a roaring bitmap are the external library's, by contract); run-end-bool and byte-bool are not in the tree model; null struct rows are lost by the writer (C93)"
  },
  {
   "property": "C103",
   "status": "partial",
   "theorems": [
    "Vx.Tree.C103_plain_or_constant",
    "Vx.Tree.C103_filter_partial",
    "Vx.Tree.C103_real_leaves_partial",
    "Vx.Tree.C103_strings_partial",
    "Vx.Tree.C103_stuck",
    "Vx.Tree.C103_sparse_false",
    "Vx.Tree.C103_sparse_true",
    "Vx.Tree.C103_bit_offset",
    "Vx.Tree.C103_no_columns"
   ],
   "note": "Full for plain byte-aligned and constant predicates (the filter returns and is right). For every other encoding: whatever is returned is right, under Exact (sparse predicates list exactly their true rows) and columned-or-statistic; the code is wrong outside (witness theorems) and stops for the encodings whose iterators are not written."
  },
  {
   "property": "C104",
   "status": "partial",
   "theorems": [
    "Vx.Tree.C104_compare_sound_partial",
    "Vx.Tree.C104_compare_succeeds_partial",
    "Vx.Tree.C104_constant_succeeds_partial",
    "Vx.Tree.C104_encoding_free_partial",
    "Vx.Tree.C104_swap_partial",
    "Vx.Tree.C104_row_meaning",
    "Vx.Tree.C104_mismatch_refused",
    "Vx.Tree.C104_nan_depends_on_encoding",
    "Vx.Tree.C104_constants_nullability",
    "Vx.Tree.C104_null_constant_fails",
    "Vx.Tree.C104_encoded_validity_fails",
    "Vx.Tree.C104_empty_constants_panic",
    "Vx.Tree.C104_alp_constant",
    "Vx.Tree.C104_empty_chunk"
   ],
   "note": "Proved for every pair of trees in Comparable; outside it (NaN and -0.0, ALP against constants, equality of constants of different nullability, empty chunks against run-end arrays) the code is wrong, with witness theorems. Missing: encodings that do not decode."
  },
  {
   "property": "C105",
   "status": "partial",
   "theorems": [
    "Vx.Tree.C105_bool_sound",
    "Vx.Tree.C105_bool_succeeds_partial",
    "Vx.Tree.C105_plain_constant_succeeds_partial",
    "Vx.Tree.C105_bool_comm",
    "Vx.Tree.C105_mismatch_refused",
    "Vx.Tree.C105_row_meaning",
    "Vx.Tree.C105_constant_encoded_fails",
    "Vx.Tree.C105_empty_constants_fail",
    "Vx.Tree.C105_not_kleene"
   ],
   "note": "Whatever is returned is right, for all encodings that decode. That it returns is proved where neither side is a constant or the other is plain; otherwise the code fails (witnesses)."
  },
  {
   "property": "C106",
   "status": "partial",
   "theorems": [
    "Vx.Tree.C106_expression_partial",
    "Vx.Tree.C106_row_filter_partial",
    "Vx.Tree.C106_scan_partial",
    "Vx.Tree.C106_scan_succeeds_partial",
    "Vx.Tree.C106_holds_meaning",
    "Vx.Tree.C106_empty_chunk_loses_rows"
   ],
   "note": "Proved for expressions whose comparisons are Comparable (C104) and whose first conjunct has a true count; the code drops rows if it has none (witness). Comparisons of boolean sub-expressions and Select/Identity are not covered."
  },
  {
   "property": "C107",
   "status": "partial",
   "theorems": [
    "Vx.Tree.C107_invert_partial",
    "Vx.Tree.C107_invert_twice",
    "Vx.Tree.C107_true_count_partial",
    "Vx.Tree.C107_true_count_succeeds_partial",
    "Vx.Tree.C107_field_partial",
    "Vx.Tree.C107_field_by_name",
    "Vx.Tree.C107_storage_partial",
    "Vx.Tree.C107_invert_nullability",
    "Vx.Tree.C107_sparse_count",
    "Vx.Tree.C107_empty_chunk_count_panics",
    "Vx.Tree.C107_constant_storage",
    "Vx.Tree.C107_chunked_storage_panics"
   ],
   "note": "Proved where the code is right; the excluded cases (nullability of inverted constants, counts of sparse and chunked arrays, null constants, storage of constants) have witnesses. The storage array of date-time parts is not modelled."
  },
  {
   "property": "C108",
   "status": "partial",
   "theorems": [
    "Vx.Tree.C108_search_sorted_partial",
    "Vx.Tree.C108_meaning",
    "Vx.Tree.C108_same_answer_partial",
    "Vx.Tree.C108_null_refused",
    "Vx.Tree.C108_many_partial",
    "Vx.Tree.C108_u64_partial",
    "Vx.Tree.C108_u64_primitive",
    "Vx.Tree.C108_empty_constant",
    "Vx.Tree.C108_sparse_ignores_fill",
    "Vx.Tree.C108_u64_dict",
    "Vx.Tree.C108_u64_constant",
    "Vx.Tree.C108_many_null",
    "Vx.Tree.C108_u64_many_partial",
    "Vx.Tree.C108_leaf_laws",
    "Vx.Tree.C108_leaf_own",
    "Vx.Tree.C108_search_real_partial",
    "Vx.Tree.C108_slice_search_real_partial",
    "Vx.Tree.C108_leaf_u64_partial",
    "Vx.Tree.C108_leaf_many_partial",
    "Vx.Tree.C108_packed_many_misses",
    "Vx.Tree.C108_packed_u64_many_truncates"
   ],
   "note": "Proved where the code is right; excluded shapes (empty constants, sparse arrays with fill on the wrong side, signed frame-of-reference probes out of range, u64 probes on other types) have witnesses. Leaf encodings with their own search enter through OwnLaws, proved of bit-packing with patches (C108_leaf_own, C108_search_real_partial); bit-packing's own search is C02."
  },
  {
   "property": "C109",
   "status": "partial",
   "theorems": [
    "Vx.Query.C109_query_partial",
    "Vx.Query.C109_small_files_partial",
    "Vx.Query.C109_compressed_query_partial"
   ],
   "note": "Proved for every table within the limits of the format. Missing because the code is wrong there: what C94 misses (65536-row stretches without a match; AND/OR over nulls), null rows of the table (C34_null_rows_lost), and the sign of floating-point zeros after compression (C41_negative_zero)."
  },
  {
   "property": "C11",
   "status": "partial",
   "theorems": [
    "Vx.ALP.C11_roundtrip_upto",
    "Vx.ALP.C11_roundtrip_partial",
    "Vx.ALP.C11_negative_zero_lost",
    "Vx.ALP.C11_decompress",
    "Vx.ALP.C11_scalar_at",
    "Vx.ALP.C11_slice",
    "Vx.ALP.C11_take",
    "Vx.ALP.C11_filter",
    "Vx.ALP.C11_exponents_in_range"
   ],
   "note": "Bit-for-bit round trip for every float except that a zero may change its sign: C11_negative_zero_lost shows the code really does lose the sign of -0.0, so the unrestricted claim is false of the code. Float arithmetic is a parameter."
  },
  {
   "property": "C110",
   "status": "partial",
   "theorems": [
    "Vx.Damage.C110_open_partial",
    "Vx.Damage.C110_footer_panics_iff",
    "Vx.Damage.C110_offsets_iff",
    "Vx.Damage.C110_dtype",
    "Vx.Damage.C110_block_panics_iff",
    "Vx.Damage.C110_tree_partial",
    "Vx.Damage.C110_stream_partial",
    "Vx.Damage.C110_stream_opens",
    "Vx.Damage.C110_damaged_data",
    "Vx.Damage.C110_read_opens",
    "Vx.Damage.C110_empty_stream",
    "Vx.Damage.C110_short_file",
    "Vx.Damage.C110_missing_column",
    "Vx.Damage.C110_flat_root"
   ],
   "note": "Exact conditions for every abort of opening, of blocks and of streams; the full claim is false of the code (witnesses). Reading the batches of an opened file is covered only through the block and tree theorems."
  },
  {
   "property": "C111",
   "status": "partial",
   "theorems": [
    "Vx.Tree.ExprEq.C111_returns_partial",
    "Vx.Tree.ExprEq.C111_self_partial",
    "Vx.Tree.ExprEq.C111_equal_same_partial",
    "Vx.Tree.ExprEq.C111_equality_partial",
    "Vx.Tree.ExprEq.C111_equal_results_partial",
    "Vx.Tree.ExprEq.C111_references_partial",
    "Vx.Tree.ExprEq.C111_projection_partial",
    "Vx.Tree.ExprEq.C111_identity_hangs",
    "Vx.Tree.ExprEq.C111_zeros",
    "Vx.Tree.ExprEq.C111_zero_filters",
    "Vx.Tree.ExprEq.C111_nan",
    "Vx.Tree.ExprEq.C111_exclude_references",
    "Vx.Tree.ExprEq.C111_identity_references"
   ],
   "note": "Proved for expressions without Identity, NaN and -0.0 literals (equality), and without Identity and exclusions (references). The full claim is false of the code (witnesses)."
  },
  {
   "property": "C112",
   "status": "partial",
   "theorems": [
    "Vx.C112_prints_partial",
    "Vx.C112_text_determines_partial",
    "Vx.C112_integer",
    "Vx.C112_binary",
    "Vx.C112_string",
    "Vx.C112_struct",
    "Vx.C112_null",
    "Vx.C112_temporal",
    "Vx.C112_temporal32",
    "Vx.C112_temporal_null",
    "Vx.C112_list_aborts",
    "Vx.C112_extension_aborts",
    "Vx.C112_list_field_aborts",
    "Vx.C112_null_string",
    "Vx.C112_strings_in_structs",
    "Vx.C112_value_cut_aborts"
   ],
   "note": "Printing ends for every type without lists and extension types, and the text tells the value for those without strings, NaNs apart; the text of integers, bytes, strings, structs and temporal values is given exactly. In the other cases the code is wrong (it aborts, or two values print alike), with witness theorems. The texts of floats and of the calendar library are contracts."
  },
  {
   "property": "C113",
   "status": "partial",
   "theorems": [
    "Vx.DTypeText.C113_str_determines_partial",
    "Vx.DTypeText.C113_repr_determines_partial",
    "Vx.DTypeText.C113_repr_is_call",
    "Vx.DTypeText.C113_constructors",
    "Vx.DTypeText.C113_names_confuse",
    "Vx.DTypeText.C113_quotes_confuse",
    "Vx.DTypeText.C113_extension_quoted_twice"
   ],
   "note": "str tells the type when field names have no = and do not begin with a closing brace and extension ids have no comma or closing parenthesis; repr when field names have no quotation mark. Otherwise the code is wrong, with witnesses. repr is a call of a constructor for the types that have one."
  },
  {
   "property": "C114",
   "status": "partial",
   "theorems": [
    "Vx.Own.C114_rewrite_partial",
    "Vx.Own.C114_roundtrip_partial",
    "Vx.Own.C114_rewrite_never_fails",
    "Vx.Own.C114_rewrite_exact",
    "Vx.Own.C114_lost",
    "Vx.Own.C114_own_partial",
    "Vx.Own.C114_nbytes_partial",
    "Vx.Own.C114_traversal_partial",
    "Vx.Own.C114_struct_validity_lost",
    "Vx.Own.C114_struct_own",
    "Vx.Own.C114_struct_nbytes",
    "Vx.Own.C114_nbytes_packed_partial",
    "Vx.Own.C114_nbytes_le",
    "Vx.Own.C114_packed_nbytes"
   ],
   "note": "Proved of every tree without a nullable struct or delta array that has a validity bitmap; C114_rewrite_exact says the condition is exact. The full claim is false of the code there (witnesses)."
  },
  {
   "property": "C115",
   "status": "partial",
   "theorems": [
    "Vx.Registry.C115_lookup",
    "Vx.Registry.C115_lookup_one",
    "Vx.Registry.C115_order",
    "Vx.Registry.C115_code",
    "Vx.Registry.C115_distinct",
    "Vx.Registry.C115_own_encoding",
    "Vx.Registry.C115_all_known",
    "Vx.Registry.C115_default_known",
    "Vx.Registry.C115_open",
    "Vx.Registry.C115_read",
    "Vx.Registry.C115_read_all",
    "Vx.Registry.C115_more",
    "Vx.Registry.C115_read_exact",
    "Vx.Registry.C115_child",
    "Vx.Registry.C115_opaque_partial",
    "Vx.Registry.C115_walk_partial",
    "Vx.Registry.C115_walk_unknown",
    "Vx.Registry.C115_default_aborts",
    "Vx.Registry.C115_register_opaque"
   ],
   "note": "Full for registration and for reading. That an array with an unknown encoding can be looked into is false of the code: every walk over it aborts (C115_walk_unknown, exact)."
  },
  {
   "property": "C116",
   "status": "partial",
   "theorems": [
    "Vx.Tree.C116_may_write_partial",
    "Vx.Tree.C116_compressors_run_partial",
    "Vx.Tree.C116_reader_knows",
    "Vx.Tree.C116_readable_partial",
    "Vx.Tree.C116_defaults",
    "Vx.Tree.C116_all_context",
    "Vx.Tree.C116_more",
    "Vx.Tree.C116_alp_rd_undeclared"
   ],
   "note": "children of leaf encodings (bit-packed, FSST, delta, ALP-RD, date-time parts) are part of the leaf, whose encodings are a hypothesis; needs bit-packing enabled whenever ALP is (negation witness C116_alp_rd_undeclared: false otherwise)"
  },
  {
   "property": "C117",
   "status": "partial",
   "theorems": [
    "Vx.Tree.C117_max_cost_partial",
    "Vx.Tree.C117_tree",
    "Vx.Tree.C117_reuse_partial",
    "Vx.Tree.C117_default_partial",
    "Vx.Tree.C117_zero_partial"
   ],
   "note": "Over all decisions of the search, chunkings and reused trees. Missing: what the leaf encodings (FSST, date-time parts, ALP-RD, delta, roaring) nest inside themselves (cost of a leaf is a hypothesis); arrays must be rechunkable."
  },
  {
   "property": "C118",
   "status": "partial",
   "theorems": [
    "Vx.Own.C118_lines_partial",
    "Vx.Own.C118_shares_partial",
    "Vx.Own.C118_buffers_partial",
    "Vx.Own.C118_chunks",
    "Vx.Own.C118_children",
    "Vx.Own.C118_over_100",
    "Vx.Own.C118_nothing"
   ],
   "note": "For all built arrays without a hidden bitmap (structs, delta); shares at most 100% only where no bitmap is left out of the size (false for nullable bit-packed arrays: C118_over_100). Names of children, metadata text and units are not modelled."
  },
  {
   "property": "C12",
   "status": "partial",
   "theorems": [
    "Vx.ALP.C12_eq_partial",
    "Vx.ALP.C12_eq_unrepresentable_partial",
    "Vx.ALP.C12_ordered_partial",
    "Vx.ALP.C12_patched_row_wrong",
    "Vx.ALP.C12_unpatched_row_null",
    "Vx.ALP.C12_unrepresentable_order_wrong",
    "Vx.ALP.C12_null_row_false",
    "Vx.ALP.C12_null_constant_false"
   ],
   "note": "False of the code in general: five counterexample theorems. Proved for arrays without patches and representable constants."
  },
  {
   "property": "C13",
   "status": "proved",
   "theorems": [
    "Vx.ALPRD.C13_roundtrip",
    "Vx.ALPRD.C13_end_to_end",
    "Vx.ALPRD.C13_new_encoder",
    "Vx.ALPRD.C13_decode",
    "Vx.ALPRD.C13_scalar_at",
    "Vx.ALPRD.C13_slice",
    "Vx.ALPRD.C13_take",
    "Vx.ALPRD.C13_filter",
    "Vx.ALPRD.C13_empty_sample_panics",
    "Vx.ALPRD.C13_nullability_lost"
   ],
   "note": "Bit-exact for every float width above 16 bits, every encoder RDEncoder::new can build. Findings: empty sample panics; a non-nullable array decodes as nullable (AllValid)."
  },
  {
   "property": "C14",
   "status": "partial",
   "theorems": [
    "Vx.Dict.C14_encode",
    "Vx.Dict.C14_dictionary",
    "Vx.Dict.C14_canonical",
    "Vx.Dict.C14_scalar_at",
    "Vx.Dict.C14_access",
    "Vx.Dict.C14_logical_validity_partial",
    "Vx.Dict.C14_validity_wrong_without_null_code",
    "Vx.DictBytes.C14_bytes_refines",
    "Vx.DictBytes.C14_bytes_round_trip",
    "Vx.DictBytes.C14_bytes_view",
    "Vx.DictBytes.C14_bytes_offsets_wrap",
    "Vx.DictBytes.C14_bytes_view_becomes_text"
   ],
   "note": "round trip and access proved for every element type with exact equality, and for variable-length arrays byte by byte for any hash function; dictionaries of 4 GiB and more lose data (u32 offsets wrap, witness); logical_validity is wrong for hand-built dictionaries whose entry 0 is not null (witness)"
  },
  {
   "property": "C15",
   "status": "partial",
   "theorems": [
    "Vx.RunEnd.C15_runs",
    "Vx.RunEnd.C15_run_count",
    "Vx.RunEnd.C15_canonical",
    "Vx.RunEnd.C15_roundtrip",
    "Vx.RunEnd.C15_roundtrip_upto",
    "Vx.RunEnd.C15_scalar_at",
    "Vx.RunEnd.C15_slice_partial",
    "Vx.RunEnd.C15_slice_out_of_bounds",
    "Vx.RunEnd.C15_slice_at_end_err",
    "Vx.RunEnd.C15_slice_empty_panics",
    "Vx.RunEnd.C15_take",
    "Vx.RunEnd.C15_take_out_of_bounds",
    "Vx.RunEnd.C15_float_zero_sign_lost"
   ],
   "note": "round trip, access and take complete; slice excludes the legal empty slice at the end of the last run, which the code rejects (witness); floats come back up to == (witness)"
  },
  {
   "property": "C16",
   "status": "partial",
   "theorems": [
    "Vx.RunEndBool.C16_runs",
    "Vx.RunEndBool.C16_canonical",
    "Vx.RunEndBool.C16_roundtrip",
    "Vx.RunEndBool.C16_scalar_at",
    "Vx.RunEndBool.C16_take_partial",
    "Vx.RunEndBool.C16_slice_partial",
    "Vx.RunEndBool.C16_take_drops_nulls",
    "Vx.RunEndBool.C16_slice_of_slice_wrong",
    "Vx.RunEndBool.C16_slice_validity_wrong"
   ],
   "note": "round trip and access complete; take drops nulls and slice is wrong on slices and bitmap validities in the code (witnesses)"
  },
  {
   "property": "C17",
   "status": "proved",
   "theorems": [
    "Vx.DateTimeParts.C17_scalar_roundtrip",
    "Vx.DateTimeParts.C17_parts_range",
    "Vx.DateTimeParts.C17_day_rejected",
    "Vx.DateTimeParts.C17_roundtrip",
    "Vx.DateTimeParts.C17_slice",
    "Vx.DateTimeParts.C17_slice_err",
    "Vx.DateTimeParts.C17_take",
    "Vx.DateTimeParts.C17_scalar_at",
    "Vx.DateTimeParts.C17_encoded_scalar_at",
    "Vx.DateTimeParts.C17_encoded_slice_take"
   ],
   "note": "every i64 intermediate of split and recombination is overflow-checked in the model; array form, slice, take and scalar_at included"
  },
  {
   "property": "C18",
   "status": "partial",
   "theorems": [
    "Vx.Sparse.C18_is_valid",
    "Vx.Sparse.C18_scalar_at",
    "Vx.Sparse.C18_slice",
    "Vx.Sparse.C18_take",
    "Vx.Sparse.C18_filter",
    "Vx.Sparse.C18_canonical_primitive_partial",
    "Vx.Sparse.C18_canonical_bool_partial",
    "Vx.Sparse.C18_logical_validity_partial",
    "Vx.Sparse.C18_null_patch_lost",
    "Vx.Sparse.C18_bool_fill_lost",
    "Vx.Sparse.C18_validity_of_fill_wrong",
    "Vx.Sparse.C18_canonical_out_of_range"
   ],
   "note": "access operations are fully proved; canonicalisation is proved where the code is right and witnessed wrong elsewhere (null patches under a non-null fill, bool fill value, logical validity)"
  },
  {
   "property": "C19",
   "status": "partial",
   "theorems": [
    "Vx.ByteBool.C19_bytebool_roundtrip",
    "Vx.ByteBool.C19_bytebool_from_options",
    "Vx.ByteBool.C19_bytebool_scalar_at",
    "Vx.ByteBool.C19_bytebool_slice",
    "Vx.ByteBool.C19_bytebool_take",
    "Vx.ByteBool.C19_bytebool_take_changes_nullability",
    "Vx.Roaring.C19_roaring_bool_roundtrip",
    "Vx.Roaring.C19_roaring_bool_drops_nulls",
    "Vx.Roaring.C19_roaring_int_try_new",
    "Vx.Roaring.C19_roaring_bool_scalar_at",
    "Vx.Roaring.C19_roaring_bool_slice",
    "Vx.Roaring.C19_roaring_bool_stored_stats",
    "Vx.Roaring.C19_roaring_bool_empty_min",
    "Vx.Roaring.C19_roaring_bool_stats_panic",
    "Vx.Roaring.C19_roaring_bool_computed_stats_partial",
    "Vx.Roaring.C19_roaring_int_roundtrip",
    "Vx.Roaring.C19_roaring_int_unsorted_loss",
    "Vx.Roaring.C19_roaring_int_scalar_at",
    "Vx.Roaring.C19_roaring_int_slice_partial",
    "Vx.Roaring.C19_roaring_int_empty_slice_wrong"
   ],
   "note": "everything except the empty slices slice(0,0) and slice(len,len) of a roaring integer array, where the code is wrong (witness theorem); croaring Bitmap is a trusted set of u32"
  },
  {
   "property": "C20",
   "status": "proved",
   "theorems": [
    "Vx.FSST.C20_codec_roundtrip",
    "Vx.FSST.C20_compress",
    "Vx.FSST.C20_compress_array",
    "Vx.FSST.C20_bulk_decode",
    "Vx.FSST.C20_bulk_decode_overflow",
    "Vx.FSST.C20_scalar_at",
    "Vx.FSST.C20_slice",
    "Vx.FSST.C20_take",
    "Vx.FSST.C20_filter",
    "Vx.FSST.C20_compare_const_partial",
    "Vx.FSST.C20_compare_const_other_codes"
   ],
   "note": "Round trip for every symbol table and every matching strategy, per row and in bulk, through slices/takes/filters. The fsst crate's codec is modelled by its documented code format; training is irrelevant (any table). Past 2 GiB decoded the bulk decode panics (proved)."
  },
  {
   "property": "C21",
   "status": "partial",
   "theorems": [
    "Vx.VarBin.C21_from_iter",
    "Vx.VarBin.C21_from_iter_refuses",
    "Vx.VarBin.C21_scalar_at",
    "Vx.VarBin.C21_iter",
    "Vx.VarBin.C21_sliced_bytes",
    "Vx.VarBin.C21_slice",
    "Vx.VarBin.C21_take",
    "Vx.VarBin.C21_take_overflow",
    "Vx.VarBin.C21_filter",
    "Vx.VarBin.C21_filter_length_mismatch",
    "Vx.VarBin.C21_filter_sliced_predicate_wrong",
    "Vx.VarBin.C21_varbin_partial",
    "Vx.VarBinView.C21_view_scalar_at",
    "Vx.VarBinView.C21_view_inline",
    "Vx.VarBinView.C21_view_iter",
    "Vx.VarBinView.C21_view_slice",
    "Vx.VarBinView.C21_view_from_iter",
    "Vx.VarBinView.C21_view_roundtrip",
    "Vx.VarBinView.C21_view_take_partial",
    "Vx.VarBinView.C21_view_take_panics",
    "Vx.VarBinView.C21_view_is_empty_inverted"
   ],
   "note": "Build/read/slice/take/filter proved for the offsets layout and build/read/slice for views; disproved: filters by a predicate with a bit offset select wrong rows, and taking only non-null rows from a view array with nulls panics."
  },
  {
   "property": "C22",
   "status": "partial",
   "theorems": [
    "Vx.Chunked.C22_find_chunk",
    "Vx.Chunked.C22_find_chunk_out_of_bounds",
    "Vx.Chunked.C22_scalar_at",
    "Vx.Chunked.C22_slice_partial",
    "Vx.Chunked.C22_slice_out_of_bounds",
    "Vx.Chunked.C22_slice_no_chunks",
    "Vx.Chunked.C22_take_partial",
    "Vx.Chunked.C22_take_empty_panics",
    "Vx.Chunked.C22_filter",
    "Vx.Chunked.C22_filter_length_mismatch",
    "Vx.Chunked.C22_canonical",
    "Vx.Chunked.C22_rechunk",
    "Vx.Chunked.C22_primitive_chunks"
   ],
   "note": "Addressing, scalar_at, filter (both algorithms), canonicalisation and rechunking proved for all chunkings. Partial because the code itself fails for slicing an array without chunks (error) and for taking no rows (panic): both are proved as negative theorems; the rest of slice and take is proved for all inputs."
  },
  {
   "property": "C23",
   "status": "partial",
   "theorems": [
    "Vx.C23_is_valid",
    "Vx.C23_slice",
    "Vx.C23_take",
    "Vx.C23_filter",
    "Vx.C23_and",
    "Vx.C23_to_logical",
    "Vx.C23_from_bools",
    "Vx.C23_collect",
    "Vx.C23_collect_compact",
    "Vx.C23_and_compressed_child_fails",
    "Vx.Tree.C23_leaf_validity",
    "Vx.Tree.C23_tree_logical_validity_partial",
    "Vx.Tree.C23_tree_dict"
   ],
   "note": "complete for plain (BoolArray) validity children; for compressed children Validity::and returns Err in the code (proved as C23_and_compressed_child_fails); logical_validity of whole trees proved apart from the encodings whose logical_validity is wrong"
  },
  {
   "property": "C24",
   "status": "partial",
   "theorems": [
    "Vx.C24_op_meaning",
    "Vx.C24_swap",
    "Vx.C24_inverse",
    "Vx.C24_inverse_needs_order",
    "Vx.C24_swap_swap",
    "Vx.C24_inverse_inverse",
    "Vx.Compare.C24_apply_predicate",
    "Vx.Compare.C24_primitive",
    "Vx.Compare.C24_primitive_const",
    "Vx.Compare.C24_primitive_null_const_fails",
    "Vx.CArr.C24_compare_sound",
    "Vx.CArr.C24_compare_ok",
    "Vx.CArr.C24_compare_lengths",
    "Vx.CArr.C24_const_eq_nullability",
    "Vx.CArr.C24_empty_constants_panic",
    "Vx.BArr.C24_and_or_sound",
    "Vx.BArr.C24_and_or_ok",
    "Vx.BArr.C24_and_const_other_fails"
   ],
   "note": "compare, and, or return the right rows for every mixture of primitive, constant, (nested) chunked and other arrays. Partial because the code departs in the cases proved by C24_const_eq_nullability, C24_empty_constants_panic, C24_primitive_null_const_fails, C24_and_const_other_fails; for floats the three orders used differ, so C24_compare_sound asks them to agree. arrow's kernels are trusted by their contract."
  },
  {
   "property": "C25",
   "status": "partial",
   "theorems": [
    "Vx.C25_primitive",
    "Vx.C25_integer",
    "Vx.C25_all_null",
    "Vx.C25_all_null_stats",
    "Vx.C25_bool_all_null",
    "Vx.C25_varbin_all_null",
    "Vx.C25_bool_partial",
    "Vx.C25_varbin",
    "Vx.C25_constant",
    "Vx.C25_float_is_constant_unsound",
    "Vx.C25_bool_min_not_attained"
   ],
   "note": "exact for integers and strings; the code is wrong for nullable bool Min, incomplete for nullable bool strict-sorted, and float is_constant identifies 0.0 and -0.0 (witness theorems)"
  },
  {
   "property": "C26",
   "status": "partial",
   "theorems": [
    "Vx.C26_merge_sound_partial",
    "Vx.C26_merge_keeps",
    "Vx.C26_merge_histogram",
    "Vx.C26_chunked_partial",
    "Vx.C26_chunked_integer",
    "Vx.C26_is_constant_without_min",
    "Vx.C26_max_lost_on_null_chunk"
   ],
   "note": "is_constant is only sound when Min is known on both sides and Max is lost on all-null chunks; both shown by witness theorems"
  },
  {
   "property": "C27",
   "status": "partial",
   "theorems": [
    "Vx.RowExpr.C27_prune_sound_partial",
    "Vx.RowExpr.C27_stat_names_distinct",
    "Vx.RowExpr.C27_fetch_covers_comparison_partial",
    "Vx.RowExpr.C27_gte_boundary_unsound",
    "Vx.RowExpr.C27_lte_boundary_unsound",
    "Vx.RowExpr.C27_or_unsound",
    "Vx.RowExpr.C27_untranslatable_unsound",
    "Vx.RowExpr.C27_self_comparison_unsound",
    "Vx.RowExpr.C27_neq_columns_unsound",
    "Vx.RowExpr.C27_nested_operand_unsound",
    "Vx.RowExpr.C27_fetch_plan_loses_entries"
   ],
   "note": "Sound for =,!=,<,> against constant expressions, =,<,> between columns, and conjunctions with one such side; the code is unsound for >=, <=, or, bare columns, self comparison, != between columns, nested operands (each a theorem)."
  },
  {
   "property": "C28",
   "status": "partial",
   "theorems": [
    "Vx.RowExpr.C28_row_filter_partial",
    "Vx.RowExpr.C28_conjuncts_mask_partial",
    "Vx.RowExpr.C28_order_irrelevant_partial",
    "Vx.RowExpr.C28_filter_eq_whole_expression_partial",
    "Vx.RowExpr.C28_split_meaning",
    "Vx.RowExpr.C28_split_complete",
    "Vx.RowExpr.C28_evaluate_row_by_row",
    "Vx.RowExpr.C28_row_filter_succeeds",
    "Vx.RowExpr.C28_references",
    "Vx.RowExpr.C28_references_suffice",
    "Vx.RowExpr.C28_swap",
    "Vx.RowExpr.C28_inverse",
    "Vx.RowExpr.C28_unavailable_true_count_drops_rows"
   ],
   "note": "Proved whenever TrueCount of the intermediate masks is available; when it is not (sparse / run-end-bool masks) the code drops matching rows, shown by the last theorem."
  },
  {
   "property": "C29",
   "status": "proved",
   "theorems": [
    "Vx.C29_int_cast",
    "Vx.C29_int_cast_value",
    "Vx.C29_int_cast_round_trip",
    "Vx.C29_cast_dtype",
    "Vx.C29_cast_same_type",
    "Vx.C29_null_cast",
    "Vx.C29_null_stays_null",
    "Vx.C29_value_stays_value",
    "Vx.C29_struct_cast",
    "Vx.C29_null_cast_panics",
    "Vx.C29_reinterpret",
    "Vx.C29_order_ints",
    "Vx.C29_order_total",
    "Vx.C29_order_total_ext",
    "Vx.C29_null_last",
    "Vx.C29_different_types_incomparable",
    "Vx.C29_order_floats",
    "Vx.C29_eq_and_cmp_disagree_on_floats",
    "Vx.C29_eq_is_cmp_eq",
    "Vx.C29_list_eq",
    "Vx.C29_value_eq",
    "Vx.C29_scalar_eq"
   ],
   "note": "All integer type pairs and values; the order is total on scalars of every type tree. Findings: a null cast to a different nullable primitive type panics; == and the order disagree on floats (-0.0, NaN)."
  },
  {
   "property": "C30",
   "status": "partial",
   "theorems": [
    "Vx.C30_dtype_proto_round_trip",
    "Vx.C30_dtype_flatbuffer_round_trip",
    "Vx.C30_dtype_proto_injective",
    "Vx.C30_project_serialised",
    "Vx.C30_project_selects",
    "Vx.C30_project_non_struct",
    "Vx.C30_scalar_proto_round_trip_partial",
    "Vx.C30_small_signed_readable",
    "Vx.C30_small_signed_not_equal",
    "Vx.C30_small_unsigned_fails",
    "Vx.C30_extension_fails",
    "Vx.C30_incomplete_message_rejected"
   ],
   "note": "dtype and projection parts proved in full; the scalar part is false of the code for 8/16-bit integers and extension scalars (witness theorems), proved for all other types."
  },
  {
   "property": "C31",
   "status": "partial",
   "theorems": [
    "Vx.Ipc.C31_write",
    "Vx.Ipc.C31_round_trip",
    "Vx.Ipc.C31_truncated_partial",
    "Vx.Ipc.C31_empty_stream_crashes",
    "Vx.Ipc.C31_huge_page",
    "Vx.Ipc.C31_chunk_offsets",
    "Vx.Ipc.Demo.codec_lawful"
   ],
   "note": "Round trip and alignment proved in full. Truncation: what is read is always a prefix and a cut inside a message or body is an error; cuts on a boundary or inside a length prefix end the stream cleanly (no end marker in the format), and streams under four bytes crash the reader, so 'always reported' is false of the code."
  },
  {
   "property": "C32",
   "status": "proved",
   "theorems": [
    "Vx.Ipc.C32_buffer_numbers",
    "Vx.Ipc.C32_buffer_order",
    "Vx.Ipc.C32_tree_round_trip",
    "Vx.Ipc.C32_injective",
    "Vx.Ipc.C32_read_by_position",
    "Vx.Ipc.C32_no_such_child"
   ],
   "note": "every tree, every path; the stack-based traversal is modelled as such. Metadata and statistics are opaque bytes; flatbuffers are trusted."
  },
  {
   "property": "C33",
   "status": "partial",
   "theorems": [
    "Vx.Ipc.C33_asks",
    "Vx.Ipc.C33_reads_back",
    "Vx.Ipc.C33_truncated_panics"
   ],
   "note": "Reads back exactly the buffers written, asking for exactly the right sizes. Truncated input panics in split_to instead of giving an error (never an array)."
  },
  {
   "property": "C34",
   "status": "partial",
   "theorems": [
    "Vx.Layout.C34_written_ranges",
    "Vx.Layout.C34_round_trip",
    "Vx.Layout.C34_open",
    "Vx.Layout.C34_several_calls",
    "Vx.Layout.C34_other_dtype_rejected",
    "Vx.Layout.C34_too_short",
    "Vx.Layout.C34_bad_magic",
    "Vx.Layout.C34_bad_version",
    "Vx.Layout.C34_no_panic_partial",
    "Vx.Layout.C34_short_file_panics",
    "Vx.Layout.C34_schema_outside_initial_read_panics",
    "Vx.Layout.C34_empty_stream_written",
    "Vx.Own.C34_null_rows_lost",
    "Vx.Layout.C34_empty_stream_panics"
   ],
   "note": "Proved: written byte ranges are disjoint, inside the data part and hold the chunk they stand for; opening finds schema and layout; write-open-read round trip for every table, projection, batch size and I/O order. Missing because the code does not do it: files of 8..39 bytes, footers larger than the initial read and empty streams panic instead of giving an error."
  },
  {
   "property": "C35",
   "status": "proved",
   "theorems": [
    "Vx.Layout.C35_batches",
    "Vx.Layout.C35_batch_size_irrelevant",
    "Vx.Layout.C35_chunked_rows",
    "Vx.Layout.batches_sizes"
   ],
   "note": "For every addressable layout tree (at most 65536 children per node), every batch size, every completion order; termination included."
  },
  {
   "property": "C36",
   "status": "proved",
   "theorems": [
    "Vx.Layout.C36_projection",
    "Vx.Layout.C36_rows_combine_columns",
    "Vx.Layout.C36_all_columns",
    "Vx.Layout.C36_empty_projection_fails"
   ],
   "note": "Non-empty projections of tables with at most 65536 columns; an empty projection is an error (proved)."
  },
  {
   "property": "C37",
   "status": "partial",
   "theorems": [
    "Vx.Layout.C37_exact",
    "Vx.Layout.C37_filtered_partial",
    "Vx.Layout.C37_one_batch",
    "Vx.Layout.C37_wrong_rows"
   ],
   "note": "Exact behaviour proved; matches the property when every batch but the last has a matching row. Counterexample otherwise (stream.rs:142-144)."
  },
  {
   "property": "C38",
   "status": "partial",
   "theorems": [
    "Vx.TakeRows.C38_stream_partial",
    "Vx.TakeRows.C38_stream_out_of_range",
    "Vx.TakeRows.C38_stream_accepts",
    "Vx.TakeRows.C38_stream_rejects",
    "Vx.TakeRows.C38_stream_narrow_index",
    "Vx.TakeRows.C38_stream_nullable",
    "Vx.TakeRows.C38_reader_partial",
    "Vx.TakeRows.C38_reader_rejects",
    "Vx.TakeRows.C38_reader_unsorted"
   ],
   "note": "Streams and stored chunked arrays: exact rows for ascending in-range requests, for every batching. Fails in the code (proved): the row count must be representable in the index type; nullable index arrays without nulls error; out-of-range rows are silently dropped by streams; empty, repeated or unsorted requests crash the stored reader."
  },
  {
   "property": "C39",
   "status": "partial",
   "theorems": [
    "Vx.Kernels.C39_cast_preserves",
    "Vx.Kernels.C39_cast_succeeds",
    "Vx.Kernels.C39_cast_garbage_under_null",
    "Vx.Kernels.C39_cast_empty",
    "Vx.Kernels.C39_fill_forward",
    "Vx.Kernels.C39_subtract_partial",
    "Vx.Kernels.C39_subtract_rejects",
    "Vx.Kernels.C39_subtract_overflow",
    "Vx.Kernels.C39_subtract_float_loses_nulls",
    "Vx.Kernels.C39_subtract_changes_dtype",
    "Vx.Kernels.C39_subtract_keeps_dtype",
    "Vx.Kernels.C39_patch_partial",
    "Vx.Kernels.C39_patch_null_stays",
    "Vx.Kernels.C39_patch_crashes"
   ],
   "note": "Cast and fill_forward proved in full. subtract_scalar wraps around on integers in release builds; in debug builds it panics on columns without nulls, and on floats it loses nulls (proved). patch overwrites exactly the listed stored values but not the validity (proved)."
  },
  {
   "property": "C40",
   "status": "partial",
   "theorems": [
    "Vx.Sampling.C40_partition",
    "Vx.Sampling.C40_partition_even",
    "Vx.Sampling.C40_partition_crashes",
    "Vx.Sampling.C40_samples_partial",
    "Vx.Sampling.C40_samples_whole",
    "Vx.Sampling.C40_samples_overflow",
    "Vx.Sampling.C40_samples_zero"
   ],
   "note": "Exact partition and sample shapes for every length, count and random choice; the code crashes when there are fewer rows than partitions, when the 16-bit product overflows and for zero counts/sizes (proved)."
  },
  {
   "property": "C41",
   "status": "partial",
   "theorems": [
    "Vx.Tree.C41_compress_partial",
    "Vx.Tree.C41_compress_rows_partial",
    "Vx.Tree.C41_scalar_at_partial",
    "Vx.Tree.C41_decode_partial",
    "Vx.Tree.C41_negative_zero",
    "Vx.Tree.C41_sparse_offset",
    "Vx.Tree.C41_run_ends_f16",
    "Vx.Tree.C41_run_ends_f32",
    "Vx.Tree.C41_run_ends_f64",
    "Vx.Tree.C41_run_ends_int"
   ],
   "note": "Every outcome of the search (statistics, samples, sizes, reused trees, compressor sets are parameters), any fuel: same type, length and rows up to the sign of float zeros, bit for bit where no float zero occurs. Missing: full bit equality is false (negative zero; slices of sparse arrays, both with witnesses); the compressors of encodings outside the tree model (bit-packing, FSST, delta, ALP-RD, date-time parts, roaring) enter through a contract proved with their encodings; compress that returns an error or does not end is outside the claim."
  },
  {
   "property": "C42",
   "status": "partial",
   "theorems": [
    "Vx.Tree.C42_project",
    "Vx.Tree.C42_row",
    "Vx.Tree.C42_unknown_name_partial",
    "Vx.Tree.C42_exclude_partial",
    "Vx.Tree.C42_column_partial",
    "Vx.Tree.C42_column_unknown",
    "Vx.Tree.C42_unknown_index",
    "Vx.Tree.C42_exclude_repeated_names",
    "Vx.Tree.C42_exclude_unknown_name",
    "Vx.Tree.C42_column_chunked",
    "Vx.Tree.C42_column_of_null_row",
    "Vx.Tree.C42_field_of_null_constant"
   ],
   "note": "inclusion proved for every nesting of struct, chunked, constant and sparse arrays. Missing: unknown indices panic, exclusion with repeated names returns the first one twice, unknown excluded names are ignored (witnesses)"
  },
  {
   "property": "C43",
   "status": "partial",
   "theorems": [
    "Vx.DF.C43_accepted",
    "Vx.DF.C43_accepted_converts",
    "Vx.DF.C43_supports",
    "Vx.DF.C43_scan_partial",
    "Vx.DF.C43_scan_exact_partial",
    "Vx.DF.C43_count_partial",
    "Vx.DF.C43_full_scan",
    "Vx.DF.C43_scan_succeeds",
    "Vx.DF.C43_unknown_rows_returned",
    "Vx.DF.C43_null_literal_fails",
    "Vx.DF.C43_ill_typed_accepted",
    "Vx.DF.C43_file_or_null"
   ],
   "note": "Proved for the in-memory table provider over canonical columns: which filters are accepted, that accepted filters convert, and for every table, filter list and projection that the scan returns every row on which all filters are true, no row on which some filter is false, in order, projected columns only. The full claim is false of the code, shown by theorems: rows on which a filter is unknown are returned, null literals fail, ill-typed filters are accepted, file scans drop SQL-true rows because `or` is not Kleene's."
  },
  {
   "property": "C44",
   "status": "partial",
   "theorems": [
    "Vx.Layout.C44_routing",
    "Vx.Layout.C44_completion_order",
    "Vx.Layout.C44_paths_unambiguous",
    "Vx.Layout.C44_part_ids_wrap",
    "Vx.Layout.C44_wrapped_child_reads_other_bytes"
   ],
   "note": "Proved for every layout tree with at most 65536 children per node (whose column children agree on batching of empty columns), every cache history and completion order; beyond 65536 children part ids wrap (u16) and the proved counterexample applies."
  },
  {
   "property": "C45",
   "status": "partial",
   "theorems": [
    "Vx.Buf.C45_slice",
    "Vx.Buf.C45_nested",
    "Vx.Buf.C45_refused_partial",
    "Vx.Buf.C45_empty_range_accepted",
    "Vx.Buf.C45_contents",
    "Vx.Buf.C45_owned_partial",
    "Vx.Buf.C45_owned_out_of_bounds",
    "Vx.Buf.C45_owned_leaks"
   ],
   "note": "Nested slices proved; out-of-range refusal fails for empty ranges of Bytes buffers and for IoBuf::slice_owned, which checks nothing (proved)."
  },
  {
   "property": "C46",
   "status": "partial",
   "theorems": [
    "Vx.Ipc.C46_reserialise_partial",
    "Vx.Ipc.C46_struct_validity_lost"
   ],
   "note": "Proved for encodings whose visitor visits all children; StructArray and DeltaArray visitors omit the validity, so re-serialised views lose it (witness)."
  },
  {
   "property": "C47",
   "status": "partial",
   "theorems": [
    "Vx.Temporal.C47_round_trip",
    "Vx.Temporal.C47_encode_defined",
    "Vx.Temporal.C47_encode_injective",
    "Vx.Temporal.C47_decode_sound",
    "Vx.Temporal.C47_decode_refuses",
    "Vx.Temporal.C47_decode_no_panic_partial",
    "Vx.Temporal.C47_short_metadata_panics",
    "Vx.Temporal.C47_construct",
    "Vx.Temporal.C47_construct_defined",
    "Vx.Temporal.C47_widths",
    "Vx.Temporal.C47_construct_unit",
    "Vx.Temporal.C47_timestamp_days_accepted"
   ],
   "note": "Round trip for every kind, unit and zone name. Missing because the code does not have it: an empty zone name reads back as no zone; metadata that is too short panics instead of an error; timestamps in days are accepted."
  },
  {
   "property": "C48",
   "status": "partial",
   "theorems": [
    "Vx.Arrow.C48_dtype_round_trip",
    "Vx.Arrow.C48_schema_round_trip",
    "Vx.Arrow.C48_schema_refuses",
    "Vx.Arrow.C48_arrow_round_trip",
    "Vx.Arrow.C48_infer_sound",
    "Vx.Arrow.C48_infer_complete",
    "Vx.Arrow.C48_import_unsupported",
    "Vx.Arrow.C48_bad_metadata_panics",
    "Vx.Arrow.C48_null_field_nullability",
    "Vx.Arrow.C48_empty_zone_lost"
   ],
   "note": "Both round trips over all type trees. Missing because the code does not have it: unsupported Arrow types and bad temporal metadata panic instead of an error, a non-nullable Null field becomes nullable, an empty zone name is lost."
  },
  {
   "property": "C49",
   "status": "partial",
   "theorems": [
    "Vx.Arrow.C49_import_rows",
    "Vx.Arrow.C49_import_defined",
    "Vx.Arrow.C49_export_partial",
    "Vx.Arrow.C49_round_trip_partial",
    "Vx.Arrow.C49_batch_import",
    "Vx.Arrow.C49_batch_export_partial",
    "Vx.Arrow.C49_bool_bits",
    "Vx.Arrow.C49_bool_slice_bits",
    "Vx.Arrow.C49_zone_lost_on_import",
    "Vx.Arrow.C49_zone_lost_on_export",
    "Vx.Arrow.C49_empty_struct_loses_rows",
    "Vx.Arrow.C49_empty_null_buffer_panics",
    "Vx.Arrow.C49_offsets_strict_wrong",
    "Vx.Arrow.C49_binary_becomes_text"
   ],
   "note": "Rows and types preserved over all array trees in both directions. Missing because the code does not have it (witnesses): time zones are dropped in both directions, a struct without columns exports with no rows, a null buffer without nulls in a non-nullable field panics, imported offsets are marked strictly sorted, byte arrays with offsets export as text. String arrays are modelled by their byte strings (addressing is C21)."
  },
  {
   "property": "C50",
   "status": "proved",
   "theorems": [
    "Vx.Iter.C50_batches",
    "Vx.Iter.C50_iterate",
    "Vx.Iter.C50_primitive",
    "Vx.Iter.C50_constant",
    "Vx.Iter.C50_unary",
    "Vx.Iter.C50_with_iterator_primitive",
    "Vx.Iter.C50_with_iterator_bool"
   ],
   "note": ""
  },
  {
   "property": "C51",
   "status": "partial",
   "theorems": [
    "Vx.Iter.C50_binary",
    "Vx.Iter.C50_binary_primitive",
    "Vx.Iter.C50_binary_constant",
    "Vx.Iter.C50_binary_rejects",
    "Vx.Iter.C50_alp_patched",
    "Vx.Iter.C50_alp_no_patches",
    "Vx.Iter.C50_alp_patches_ignored",
    "Vx.Iter.C50_alp_patches_witness",
    "Vx.Iter.C50_null_constant_panics",
    "Vx.Iter.C50_binary_f16_panics",
    "Vx.Iter.C50_binary_opaque_panics",
    "Vx.Iter.C50_binary_nullability_witness",
    "Vx.Iter.C50_size_hint_wrong"
   ],
   "note": "Row-by-row meaning proved for every right operand with an accessor. Missing because the code does not have it (witnesses): sparse ALP patches are ignored by iteration, f16 and operands without accessor panic."
  },
  {
   "property": "C52",
   "status": "proved",
   "theorems": [
    "Vx.BitPack.C02_bitpack_search",
    "Vx.BitPack.C02_bitpack_encoded_search",
    "Vx.BitPack.C02_bitpack_search_u64"
   ],
   "note": "narrower than the earlier property on the same code: the part of it the code has"
  },
  {
   "property": "C53",
   "status": "proved",
   "theorems": [
    "Vx.BitPack.C10_roundtrip",
    "Vx.BitPack.C10_unpack",
    "Vx.BitPack.C10_scalar_at",
    "Vx.BitPack.C10_slice",
    "Vx.BitPack.C10_width_refused",
    "Vx.BitPack.C10_empty_refused",
    "Vx.BitPack.C10_patchless",
    "Vx.BitPack.C10_best_width",
    "Vx.BitPack.C10_unchecked"
   ],
   "note": "narrower than the earlier property on the same code: the part of it the code has"
  },
  {
   "property": "C54",
   "status": "proved",
   "theorems": [
    "Vx.ALP.C11_roundtrip_upto",
    "Vx.ALP.C11_decompress",
    "Vx.ALP.C11_scalar_at",
    "Vx.ALP.C11_slice",
    "Vx.ALP.C11_take",
    "Vx.ALP.C11_filter",
    "Vx.ALP.C11_exponents_in_range"
   ],
   "note": "narrower than the earlier property on the same code: the part of it the code has"
  },
  {
   "property": "C55",
   "status": "proved",
   "theorems": [
    "Vx.Dict.C14_encode",
    "Vx.Dict.C14_dictionary",
    "Vx.Dict.C14_canonical",
    "Vx.Dict.C14_scalar_at",
    "Vx.Dict.C14_access"
   ],
   "note": "narrower than the earlier property on the same code: the part of it the code has"
  },
  {
   "property": "C56",
   "status": "proved",
   "theorems": [
    "Vx.RunEnd.C15_runs",
    "Vx.RunEnd.C15_run_count",
    "Vx.RunEnd.C15_roundtrip",
    "Vx.RunEnd.C15_canonical",
    "Vx.RunEnd.C15_scalar_at",
    "Vx.RunEnd.C15_take",
    "Vx.RunEnd.C15_take_out_of_bounds",
    "Vx.RunEnd.C15_slice_out_of_bounds"
   ],
   "note": "narrower than the earlier property on the same code: the part of it the code has"
  },
  {
   "property": "C57",
   "status": "proved",
   "theorems": [
    "Vx.RunEndBool.C16_runs",
    "Vx.RunEndBool.C16_roundtrip",
    "Vx.RunEndBool.C16_canonical",
    "Vx.RunEndBool.C16_scalar_at"
   ],
   "note": "narrower than the earlier property on the same code: the part of it the code has"
  },
  {
   "property": "C58",
   "status": "proved",
   "theorems": [
    "Vx.Sparse.C18_is_valid",
    "Vx.Sparse.C18_scalar_at",
    "Vx.Sparse.C18_slice",
    "Vx.Sparse.C18_take",
    "Vx.Sparse.C18_filter"
   ],
   "note": "narrower than the earlier property on the same code: the part of it the code has"
  },
  {
   "property": "C59",
   "status": "proved",
   "theorems": [
    "Vx.ByteBool.C19_bytebool_roundtrip",
    "Vx.ByteBool.C19_bytebool_from_options",
    "Vx.ByteBool.C19_bytebool_scalar_at",
    "Vx.ByteBool.C19_bytebool_slice",
    "Vx.ByteBool.C19_bytebool_take",
    "Vx.Roaring.C19_roaring_bool_roundtrip",
    "Vx.Roaring.C19_roaring_bool_scalar_at",
    "Vx.Roaring.C19_roaring_bool_slice",
    "Vx.Roaring.C19_roaring_bool_stored_stats"
   ],
   "note": "narrower than the earlier property on the same code: the part of it the code has"
  },
  {
   "property": "C60",
   "status": "proved",
   "theorems": [
    "Vx.VarBin.C21_from_iter",
    "Vx.VarBin.C21_from_iter_refuses",
    "Vx.VarBin.C21_scalar_at",
    "Vx.VarBin.C21_iter",
    "Vx.VarBin.C21_sliced_bytes",
    "Vx.VarBin.C21_slice",
    "Vx.VarBin.C21_take",
    "Vx.VarBin.C21_take_overflow"
   ],
   "note": "narrower than the earlier property on the same code: the part of it the code has"
  },
  {
   "property": "C61",
   "status": "proved",
   "theorems": [
    "Vx.VarBinView.C21_view_from_iter",
    "Vx.VarBinView.C21_view_roundtrip",
    "Vx.VarBinView.C21_view_scalar_at",
    "Vx.VarBinView.C21_view_inline",
    "Vx.VarBinView.C21_view_iter",
    "Vx.VarBinView.C21_view_slice"
   ],
   "note": "narrower than the earlier property on the same code: the part of it the code has"
  },
  {
   "property": "C62",
   "status": "proved",
   "theorems": [
    "Vx.Chunked.C22_find_chunk",
    "Vx.Chunked.C22_find_chunk_out_of_bounds",
    "Vx.Chunked.C22_scalar_at",
    "Vx.Chunked.C22_filter",
    "Vx.Chunked.C22_filter_length_mismatch",
    "Vx.Chunked.C22_canonical",
    "Vx.Chunked.C22_rechunk",
    "Vx.Chunked.C22_slice_out_of_bounds",
    "Vx.Chunked.C22_primitive_chunks"
   ],
   "note": "narrower than the earlier property on the same code: the part of it the code has"
  },
  {
   "property": "C63",
   "status": "proved",
   "theorems": [
    "Vx.C23_is_valid",
    "Vx.C23_slice",
    "Vx.C23_take",
    "Vx.C23_filter",
    "Vx.C23_and",
    "Vx.C23_to_logical",
    "Vx.C23_from_bools",
    "Vx.C23_collect"
   ],
   "note": "narrower than the earlier property on the same code: the part of it the code has"
  },
  {
   "property": "C64",
   "status": "proved",
   "theorems": [
    "Vx.C24_op_meaning",
    "Vx.C24_swap",
    "Vx.C24_inverse",
    "Vx.C24_swap_swap",
    "Vx.C24_inverse_inverse",
    "Vx.Compare.C24_apply_predicate",
    "Vx.Compare.C24_primitive"
   ],
   "note": "narrower than the earlier property on the same code: the part of it the code has"
  },
  {
   "property": "C65",
   "status": "proved",
   "theorems": [
    "Vx.C25_integer",
    "Vx.C25_primitive",
    "Vx.C25_all_null",
    "Vx.C25_varbin"
   ],
   "note": "narrower than the earlier property on the same code: the part of it the code has"
  },
  {
   "property": "C66",
   "status": "proved",
   "theorems": [
    "Vx.C26_chunked_integer",
    "Vx.C26_merge_keeps",
    "Vx.C26_merge_histogram"
   ],
   "note": "narrower than the earlier property on the same code: the part of it the code has"
  },
  {
   "property": "C67",
   "status": "proved",
   "theorems": [
    "Vx.RowExpr.C28_split_meaning",
    "Vx.RowExpr.C28_split_complete",
    "Vx.RowExpr.C28_evaluate_row_by_row",
    "Vx.RowExpr.C28_references",
    "Vx.RowExpr.C28_references_suffice"
   ],
   "note": "narrower than the earlier property on the same code: the part of it the code has"
  },
  {
   "property": "C68",
   "status": "proved",
   "theorems": [
    "Vx.C30_dtype_proto_round_trip",
    "Vx.C30_dtype_flatbuffer_round_trip",
    "Vx.C30_dtype_proto_injective",
    "Vx.C30_project_serialised",
    "Vx.C30_project_selects"
   ],
   "note": "narrower than the earlier property on the same code: the part of it the code has"
  },
  {
   "property": "C69",
   "status": "proved",
   "theorems": [
    "Vx.Ipc.C31_write",
    "Vx.Ipc.C31_round_trip",
    "Vx.Ipc.C31_chunk_offsets"
   ],
   "note": "narrower than the earlier property on the same code: the part of it the code has"
  },
  {
   "property": "C70",
   "status": "proved",
   "theorems": [
    "Vx.Ipc.C33_asks",
    "Vx.Ipc.C33_reads_back"
   ],
   "note": "narrower than the earlier property on the same code: the part of it the code has"
  },
  {
   "property": "C71",
   "status": "proved",
   "theorems": [
    "Vx.Layout.C34_written_ranges",
    "Vx.Layout.C34_round_trip",
    "Vx.Layout.C34_open",
    "Vx.Layout.C34_several_calls",
    "Vx.Layout.C34_other_dtype_rejected",
    "Vx.Layout.C34_too_short",
    "Vx.Layout.C34_bad_magic",
    "Vx.Layout.C34_bad_version"
   ],
   "note": "narrower than the earlier property on the same code: the part of it the code has"
  },
  {
   "property": "C72",
   "status": "proved",
   "theorems": [
    "Vx.Kernels.C39_cast_preserves",
    "Vx.Kernels.C39_cast_succeeds",
    "Vx.Kernels.C39_fill_forward"
   ],
   "note": "narrower than the earlier property on the same code: the part of it the code has"
  },
  {
   "property": "C73",
   "status": "proved",
   "theorems": [
    "Vx.Sampling.C40_partition",
    "Vx.Sampling.C40_partition_even"
   ],
   "note": "narrower than the earlier property on the same code: the part of it the code has"
  },
  {
   "property": "C74",
   "status": "proved",
   "theorems": [
    "Vx.Tree.C42_project",
    "Vx.Tree.C42_row"
   ],
   "note": "narrower than the earlier property on the same code: the part of it the code has"
  },
  {
   "property": "C75",
   "status": "proved",
   "theorems": [
    "Vx.Buf.C45_slice",
    "Vx.Buf.C45_nested",
    "Vx.Buf.C45_contents"
   ],
   "note": "narrower than the earlier property on the same code: the part of it the code has"
  },
  {
   "property": "C76",
   "status": "proved",
   "theorems": [
    "Vx.Layout.C44_routing",
    "Vx.Layout.C44_completion_order",
    "Vx.Layout.C44_paths_unambiguous"
   ],
   "note": "narrower than the earlier property on the same code: the part of it the code has"
  },
  {
   "property": "C77",
   "status": "proved",
   "theorems": [
    "Vx.Temporal.C47_round_trip",
    "Vx.Temporal.C47_encode_defined",
    "Vx.Temporal.C47_encode_injective",
    "Vx.Temporal.C47_decode_sound",
    "Vx.Temporal.C47_decode_refuses",
    "Vx.Temporal.C47_construct",
    "Vx.Temporal.C47_construct_defined",
    "Vx.Temporal.C47_widths"
   ],
   "note": "narrower than the earlier property on the same code: the part of it the code has"
  },
  {
   "property": "C78",
   "status": "proved",
   "theorems": [
    "Vx.Arrow.C48_dtype_round_trip",
    "Vx.Arrow.C48_schema_round_trip",
    "Vx.Arrow.C48_schema_refuses",
    "Vx.Arrow.C48_arrow_round_trip",
    "Vx.Arrow.C48_infer_sound",
    "Vx.Arrow.C48_infer_complete",
    "Vx.Arrow.C48_import_unsupported"
   ],
   "note": "narrower than the earlier property on the same code: the part of it the code has"
  },
  {
   "property": "C79",
   "status": "proved",
   "theorems": [
    "Vx.Arrow.C49_import_rows",
    "Vx.Arrow.C49_import_defined",
    "Vx.Arrow.C49_batch_import",
    "Vx.Arrow.C49_bool_bits",
    "Vx.Arrow.C49_bool_slice_bits"
   ],
   "note": "narrower than the earlier property on the same code: the part of it the code has"
  },
  {
   "property": "C80",
   "status": "proved",
   "theorems": [
    "Vx.TakeRows.C80_stream",
    "Vx.TakeRows.C80_stored",
    "Vx.TakeRows.C38_stream_accepts",
    "Vx.TakeRows.C38_stream_rejects"
   ],
   "note": "narrower than the earlier property on the same code: the part of it the code has"
  },
  {
   "property": "C81",
   "status": "proved",
   "theorems": [
    "Vx.DF.C81_scan",
    "Vx.DF.C43_accepted",
    "Vx.DF.C43_accepted_converts",
    "Vx.DF.C43_supports",
    "Vx.DF.C43_full_scan",
    "Vx.DF.C43_scan_succeeds"
   ],
   "note": "narrower than the earlier property on the same code: the part of it the code has"
  },
  {
   "property": "C82",
   "status": "proved",
   "theorems": [
    "Vx.RowExpr.C82_prune",
    "Vx.RowExpr.C27_stat_names_distinct"
   ],
   "note": "narrower than the earlier property on the same code: the part of it the code has"
  },
  {
   "property": "C83",
   "status": "proved",
   "theorems": [
    "Vx.Tree.C83_access",
    "Vx.Tree.C83_decode",
    "Vx.Tree.C03_out_of_bounds",
    "Vx.Tree.C03_len",
    "Vx.Tree.C03_is_valid"
   ],
   "note": "narrower than the earlier property on the same code: the part of it the code has"
  },
  {
   "property": "C84",
   "status": "proved",
   "theorems": [
    "Vx.Tree.C84_compress"
   ],
   "note": "narrower than the earlier property on the same code: the part of it the code has"
  },
  {
   "property": "C85",
   "status": "partial",
   "theorems": [
    "Vx.C85_number",
    "Vx.C85_field_partial",
    "Vx.C85_root_partial",
    "Vx.C85_null",
    "Vx.C85_extra_fields_refused",
    "Vx.C85_binary_unreadable",
    "Vx.C85_f16_root",
    "Vx.C85_f16_field",
    "Vx.C85_constant_f16_zeroed",
    "Vx.C85_constant_partial",
    "Vx.C85_width_lost",
    "Vx.C85_merged_minimum_wrong",
    "Vx.C85_merged_minimum_partial",
    "Vx.C85_instance_partial",
    "Vx.C85_instance_extension",
    "Vx.C85_instance_short_struct"
   ],
   "note": "the code does not have it for binary, f16, and for comparing values of different stored widths (witnesses); proved for all other values; f32 NaN payloads excluded"
  },
  {
   "property": "C86",
   "status": "partial",
   "theorems": [
    "Vx.C86_stored_partial",
    "Vx.C86_to_set",
    "Vx.C86_compute",
    "Vx.C86_null_counts",
    "Vx.C86_binary_minimum_panics"
   ],
   "note": "complete except for binary and f16 columns, where the code does not have it (witness)"
  },
  {
   "property": "C87",
   "status": "partial",
   "theorems": [
    "Vx.C87_dict_bounds",
    "Vx.C87_dict_run_count",
    "Vx.C87_dict_constant",
    "Vx.C87_dict_sorted",
    "Vx.C87_dict_strict_partial",
    "Vx.C87_dict_plain",
    "Vx.C87_dict_fresh_bounds",
    "Vx.C87_dict_fresh_partial",
    "Vx.C87_dict_null_count_wrong",
    "Vx.C87_dict_slice_min_wrong",
    "Vx.C87_dict_strict_wrong",
    "Vx.C87_run_ends",
    "Vx.C87_run_values_partial",
    "Vx.C87_run_values_wrong",
    "Vx.C87_constant",
    "Vx.C87_constant_empty_wrong",
    "Vx.C87_null_array",
    "Vx.C87_roaring_int",
    "Vx.C87_roaring_int_merge_panics"
   ],
   "note": "the code does not have it in the cases of the witnesses; the rest is proved"
  },
  {
   "property": "C88",
   "status": "proved",
   "theorems": [
    "Vx.StatsCache.C88_no_deadlock",
    "Vx.StatsCache.C88_terminates",
    "Vx.StatsCache.C88_true",
    "Vx.StatsCache.C88_stays",
    "Vx.StatsCache.C88_error",
    "Vx.StatsCache.C88_panic_poisons",
    "Vx.StatsCache.C88_poisoned_for_good",
    "Vx.StatsCache.C88_arrays_finish",
    "Vx.StatsCache.C88_arrays_true",
    "Vx.StatsCache.C88_integer_arrays",
    "Vx.StatsCache.C88_reentrant_deadlocks"
   ],
   "note": "arrays are numbered in the order they are built, so that children come before parents (the one hypothesis; without it there is a deadlock, C88_reentrant_deadlocks)"
  },
  {
   "property": "C89",
   "status": "partial",
   "theorems": [
    "Vx.ScalarConv.C89_from_df",
    "Vx.ScalarConv.C89_from_df_nullability",
    "Vx.ScalarConv.C89_round_trip",
    "Vx.ScalarConv.C89_to_df_partial",
    "Vx.ScalarConv.C89_to_arrow_partial",
    "Vx.ScalarConv.C89_to_df_type",
    "Vx.ScalarConv.C89_to_arrow_type_partial",
    "Vx.ScalarConv.C89_refused",
    "Vx.ScalarConv.C89_typed_null_loses_type",
    "Vx.ScalarConv.C89_narrowed_changes_type",
    "Vx.ScalarConv.C89_narrowed_timestamp_is_null",
    "Vx.ScalarConv.C89_timestamp_days_panics",
    "Vx.ScalarConv.C89_arrow_drops_zone"
   ],
   "note": "from DataFusion and back is complete; out of Vortex it is proved for numbers held at their type's width and units other than days in a timestamp, the code does not have it otherwise (witnesses); the Arrow datum drops zones"
  },
  {
   "property": "C90",
   "status": "partial",
   "theorems": [
    "Vx.Tree.C90_compress_partial",
    "Vx.Tree.C90_default_partial",
    "Vx.Tree.C90_scalar_at_partial",
    "Vx.Tree.C90_leaf_decodes"
   ],
   "note": "inputs as in C41 (Good); the children of leaf encodings are held decoded, their recursive compression is not modelled; access is claimed for the default compressors and without floating-point zeros"
  },
  {
   "property": "C91",
   "status": "partial",
   "theorems": [
    "Vx.Own.C91_accessors_partial",
    "Vx.Own.C91_reread_partial",
    "Vx.Own.C91_run_end_length",
    "Vx.Own.C91_for_type",
    "Vx.Own.C91_alprd_right",
    "Vx.Own.C91_bitpacked_patches",
    "Vx.Own.C91_validity_type",
    "Vx.Own.C91_views_length",
    "Vx.Own.C91_constructor_panics"
   ],
   "note": "proved when callers keep the obligations of Call.Owes; without them the code is wrong (witnesses)"
  },
  {
   "property": "C92",
   "status": "proved",
   "theorems": [
    "Vx.Own.C92_exact",
    "Vx.Own.C92_delta_bases",
    "Vx.Own.C92_reread",
    "Vx.Own.C92_identifies"
   ],
   "note": "an equivalence for single calls; for trees the obligations are the hypothesis the property states"
  },
  {
   "property": "C93",
   "status": "proved",
   "theorems": [
    "Vx.Own.C93_round_trip",
    "Vx.Own.C93_fields"
   ],
   "note": "the bytes of metadata and buffers are a contract (OwnCodec); C93_fields says what is read when struct rows are null (C34_null_rows_lost)"
  },
  {
   "property": "C94",
   "status": "partial",
   "theorems": [
    "Vx.FileScan.C94_query_partial",
    "Vx.FileScan.C94_small_files",
    "Vx.FileScan.C94_no_columns_fails",
    "Vx.FileScan.C94_constant_filter_fails"
   ],
   "note": "proved when every stretch of 65536 rows but the last has a match and each conjunct has no nested AND/OR or no null; outside that the code is wrong (witnesses, also C37_wrong_rows and C43_file_or_null)"
  },
  {
   "property": "C95",
   "status": "partial",
   "theorems": [
    "Vx.Py.C95_read_partial",
    "Vx.Py.C95_to_array_partial",
    "Vx.Py.C95_record_batches_partial",
    "Vx.Py.C95_not_equal",
    "Vx.Py.C95_not_equal_fails",
    "Vx.Py.C95_value_and",
    "Vx.Py.C95_mistyped",
    "Vx.Py.C95_true_column",
    "Vx.Py.C95_batch_size_zero"
   ],
   "note": "proved for filters the binding can build and that are well-typed, under the conditions of C94; outside that the code is wrong (witnesses)"
  },
  {
   "property": "C96",
   "status": "partial",
   "theorems": [
    "Vx.PyScalar.C96_copied_partial",
    "Vx.PyScalar.C96_views",
    "Vx.PyScalar.C96_recursive",
    "Vx.PyScalar.C96_scalar_at_partial",
    "Vx.PyScalar.C96_literal_typed",
    "Vx.PyScalar.C96_int_literal",
    "Vx.PyScalar.C96_round_trip_partial",
    "Vx.PyScalar.C96_operand_partial",
    "Vx.PyScalar.C96_operand_accepted",
    "Vx.PyScalar.C96_bool_operand",
    "Vx.PyScalar.C96_none_refused",
    "Vx.PyScalar.C96_list_literal_empty",
    "Vx.PyScalar.C96_list_literal_fails",
    "Vx.PyScalar.C96_struct_literal_aborts",
    "Vx.PyScalar.C96_extension_list_aborts",
    "Vx.PyScalar.C96_repeated_name_lost"
   ],
   "note": "proved for types whose field names differ; literals for uncomposed types; the rest is wrong in the code (witnesses). PyO3's conversions are contracts (header of Model/PyScalar.lean)"
  },
  {
   "property": "C97",
   "status": "partial",
   "theorems": [
    "Vx.VarBinCanon.C97_varbin",
    "Vx.VarBinCanon.C97_view",
    "Vx.VarBinCanon.C97_fsst",
    "Vx.VarBinCanon.C97_chunked",
    "Vx.VarBinCanon.C97_binary_becomes_text",
    "Vx.VarBinCanon.C97_fsst_binary_becomes_text",
    "Vx.VarBinCanon.C97_binary_panics"
   ],
   "note": "proved in full for string columns; byte columns held with offsets are decoded as text by the code (witnesses). The cast to Utf8View is a contract (Spec/VarBinCanon.lean)"
  },
  {
   "property": "C98",
   "status": "proved",
   "theorems": [
    "Vx.DF.C98_statistics_true",
    "Vx.DF.C98_count_reported",
    "Vx.DF.C98_unknown_column"
   ],
   "note": "the number of bytes of an array and the conversion of scalars are parameters; total_byte_size is not claimed"
  },
  {
   "property": "C99",
   "status": "partial",
   "theorems": [
    "Vx.Arrow.C99_array_partial",
    "Vx.Arrow.C99_array_nullable",
    "Vx.Arrow.C99_chunked_partial",
    "Vx.Arrow.C99_table_partial",
    "Vx.Arrow.C99_chunked_nulls_panic",
    "Vx.Arrow.C99_null_type_panics",
    "Vx.Arrow.C99_no_chunks",
    "Vx.Arrow.C99_zone_refused"
   ],
   "note": "arrays in full up to what C49 excludes; chunked arrays with nulls, time zones or no chunks fail in the code (witnesses)"
  }
 ]
}