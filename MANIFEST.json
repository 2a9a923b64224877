{
 "claims": [
  {
   "property": "C01",
   "status": "proved",
   "theorems": [
    "Tongrams.C01_back",
    "Tongrams.C01_roundtrip",
    "Tongrams.C01_build_from_iterator",
    "Tongrams.C01_resize",
    "Tongrams.C01_resize_keeps",
    "Tongrams.C01_build_from_iterator_defect"
   ],
   "note": "width 0..64; build-from-iterator fails for the value 2^64-1 (defect theorem)"
  },
  {
   "property": "C02",
   "status": "proved",
   "theorems": [
    "Tongrams.C02_set_history"
   ],
   "note": ""
  },
  {
   "property": "C03",
   "status": "proved",
   "theorems": [
    "Tongrams.C03_iterator",
    "Tongrams.C03_until_end",
    "Tongrams.C03_double_deref"
   ],
   "note": ""
  },
  {
   "property": "C04",
   "status": "proved",
   "theorems": [
    "Tongrams.C04_access",
    "Tongrams.C04_access_defect"
   ],
   "note": "exact for widths <=58, 60, 64; defect witness for 63"
  },
  {
   "property": "C05",
   "status": "proved",
   "theorems": [
    "Tongrams.C05_operations_succeed",
    "Tongrams.C05_bit_vector_is_list",
    "Tongrams.C05_get_word56"
   ],
   "note": ""
  },
  {
   "property": "C06",
   "status": "proved",
   "theorems": [
    "Tongrams.C06_predecessor1",
    "Tongrams.C06_unary_iterator_enumerates",
    "Tongrams.C06_skip",
    "Tongrams.C06_skip0",
    "Tongrams.C06_any_mixture_of_calls"
   ],
   "note": ""
  },
  {
   "property": "C07",
   "status": "proved",
   "theorems": [
    "Tongrams.C07_codes_roundtrip",
    "Tongrams.C07_max_value_defect"
   ],
   "note": "value 2^64-1 excluded (defect theorem: shift by 255)"
  },
  {
   "property": "C08",
   "status": "proved",
   "theorems": [
    "Tongrams.C08_triplets_lossless"
   ],
   "note": ""
  },
  {
   "property": "C09",
   "status": "proved",
   "theorems": [
    "Tongrams.C09_hash_compact_vector_lossless",
    "Tongrams.C09_32bit_wide_value_defect",
    "Tongrams.C09_32bit_position_wraps_defect",
    "Tongrams.C09_32bit_wide_values_in_order"
   ],
   "note": "64-bit keys: all widths; 32-bit keys: widths 1..32 and 64 and total size <= 2^32 bits; two defect theorems for the rest"
  },
  {
   "property": "C10",
   "status": "proved",
   "theorems": [
    "Tongrams.C10_popcount",
    "Tongrams.C10_select_in_word",
    "Tongrams.C10_msb_lsb",
    "Tongrams.C10_logs",
    "Tongrams.C10_ceil_div"
   ],
   "note": "portable branches of popcount and select_in_word"
  },
  {
   "property": "C11",
   "status": "proved",
   "theorems": [
    "Tongrams.C11_darray1_select",
    "Tongrams.C11_darray0_select"
   ],
   "note": ""
  },
  {
   "property": "C12",
   "status": "proved",
   "theorems": [
    "Tongrams.C12_ef_sequence_is_input",
    "Tongrams.C12_unsorted_throws",
    "Tongrams.C12_value_above_universe_defect"
   ],
   "note": "the optional zero index (unused by the library) is not modelled"
  },
  {
   "property": "C13",
   "status": "proved",
   "theorems": [
    "Tongrams.C13_fast_ef_sequence_is_input",
    "Tongrams.C13_two_long_ranges_never_build_defect"
   ],
   "note": "build/operator[] for any grouped input; two long ranges never build (defect)"
  },
  {
   "property": "C14",
   "status": "proved",
   "theorems": [
    "Tongrams.C14_find_exact",
    "Tongrams.C14_empty_range_false_positive_defect",
    "Tongrams.C14_empty_range_out_of_bounds_defect"
   ],
   "note": "find exact on any non-empty range; empty-range defects"
  },
  {
   "property": "C15",
   "status": "proved",
   "theorems": [
    "Tongrams.C15_indexed_codewords_lossless",
    "Tongrams.C15_largest_values_defect"
   ],
   "note": "operator[] and iteration; wrap defect for values >= 2^64-2"
  },
  {
   "property": "C16",
   "status": "proved",
   "theorems": [
    "Tongrams.C16_prefix_summed_lossless",
    "Tongrams.C16_empty_build_defect"
   ],
   "note": "over ef_sequence"
  },
  {
   "property": "C17",
   "status": "proved",
   "theorems": [
    "Tongrams.C17_linear_scan_is_input",
    "Tongrams.C17_access_exact_for_every_history",
    "Tongrams.C17_single_partition_int_truncation_defect"
   ],
   "note": "Any session of valid accesses and searches. Values below 2^57; values below 2^31-1 when one partition (defect theorem shows the truncation)."
  },
  {
   "property": "C18",
   "status": "proved",
   "theorems": [
    "Tongrams.C18_find_after_searches",
    "Tongrams.C18_find_after_any_history",
    "Tongrams.C18_zero_always_found_defect",
    "Tongrams.C18_equal_values_not_found_defect",
    "Tongrams.C18_find_after_access_defect",
    "Tongrams.C18_absent_found_outside_range_defect",
    "Tongrams.C18_absent_reads_past_upper_bounds_defect"
   ],
   "note": "Present ids after any searches; after any mixed history for ranges not starting at 0 or several partitions. Absent non-zero ids: not-found if a greater id is in the range, otherwise never reported inside the range. Six defect theorems delimit the hypotheses."
  },
  {
   "property": "C19",
   "status": "proved",
   "theorems": [
    "Tongrams.C19_reverse_iteration_yields_recent"
   ],
   "note": ""
  },
  {
   "property": "C20",
   "status": "proved",
   "theorems": [
    "Tongrams.C20_access_inverts_rank",
    "Tongrams.C20_largest_value_defect"
   ],
   "note": ""
  },
  {
   "property": "C21",
   "status": "proved",
   "theorems": [
    "Tongrams.C21_probability_quantiser",
    "Tongrams.C21_backoff_quantiser"
   ],
   "note": "over any arithmetic with the laws of class FloatArith; two instances proved: exact rationals, and IEEE binary32 floats with sums accumulated in binary64 (rounding to nearest even, gradual underflow; infinities and NaN left out, the two zeros identified; centroids of at most 2^24 values)"
  },
  {
   "property": "C22",
   "status": "proved",
   "theorems": [
    "Tongrams.C22_mphf_bijection",
    "Tongrams.C22_duplicate_keys_never_build",
    "Tongrams.C22_two_keys_never_build_defect"
   ],
   "note": "emphf is external: hasher, sorter output (a peeling order) and the bit-pair vector are parameters; termination fails for duplicate keys and for n=2 (theorems)"
  },
  {
   "property": "C23",
   "status": "proved",
   "theorems": [
    "Tongrams.C23_single_valued_present",
    "Tongrams.C23_single_valued_absent",
    "Tongrams.C23_double_valued",
    "Tongrams.C23_uint_table",
    "Tongrams.C23_absent_key_out_of_bounds_defect",
    "Tongrams.C23_empty_table_lookup_defect"
   ],
   "note": "single/double valued and uint tables; absent key may be read out of bounds (defect theorem)"
  },
  {
   "property": "C24",
   "status": "proved",
   "theorems": [
    "Tongrams.C24_stored_gram_returns_its_count"
   ],
   "note": "fast_ef grams with indexed-codewords or prefix-summed ranks; words abstract"
  },
  {
   "property": "C25",
   "status": "proved",
   "theorems": [
    "Tongrams.C25_absent_gram_not_found",
    "Tongrams.C25_longer_query_not_found",
    "Tongrams.C25_query_one_word_too_long_defect",
    "Tongrams.C25_empty_range_false_positive_defect"
   ],
   "note": "with the hypotheses listed in the theorem; the released code misbehaves outside them (defect theorems)"
  },
  {
   "property": "C26",
   "status": "proved",
   "theorems": [
    "Tongrams.C26_stored_gram_returns_its_count",
    "Tongrams.C26_absent_gram_defect"
   ],
   "note": "stored grams, any files; absent grams: defect shown"
  },
  {
   "property": "C27",
   "status": "proved",
   "theorems": [
    "Tongrams.C27_trie_sentence_scores",
    "Tongrams.C27_trie_textbook_scores",
    "Tongrams.C27_trie_scores_of_file",
    "Tongrams.C27_zero_backoff_context_defect"
   ],
   "note": "exact score for every closed ARPA model (context kept by the code) plus textbook equality when contexts have non-zero backoff; zero-backoff defect witnessed"
  },
  {
   "property": "C28",
   "status": "proved",
   "theorems": [
    "Tongrams.C28_mph_sentence_scores",
    "Tongrams.C28_mph_textbook_scores",
    "Tongrams.C28_same_scores_as_trie"
   ],
   "note": "hash backoff model: exact scores, textbook scores, equality with the trie"
  },
  {
   "property": "C29",
   "status": "proved",
   "theorems": [
    "Tongrams.C29_state_stays_in_bounds",
    "Tongrams.C29_order_above_eight_defect"
   ],
   "note": "n-gram state and score loop stay in bounds for orders 2..8 whatever the look-ups answer; order 9 defect witnessed"
  },
  {
   "property": "C30",
   "status": "proved",
   "theorems": [
    "Tongrams.C30_mph_corpus_totals",
    "Tongrams.C30_mph_states_independent",
    "Tongrams.C30_mph_scattered_words_defect",
    "Tongrams.C30_trie_states_independent",
    "Tongrams.C30_trie_corpus_totals"
   ],
   "note": "trie and hash models, all texts"
  },
  {
   "property": "C31",
   "status": "proved",
   "theorems": [
    "Tongrams.C31_forward_iterator",
    "Tongrams.C31_backward_iterator",
    "Tongrams.C31_text_lines",
    "Tongrams.C31_missing_final_newline_defect"
   ],
   "note": "iterators and text_lines over memory bytes; a text whose last line lacks the final newline is a proved defect"
  },
  {
   "property": "C32",
   "status": "proved",
   "theorems": [
    "Tongrams.C32_predecessor",
    "Tongrams.C32_suffix",
    "Tongrams.C32_next",
    "Tongrams.C32_prev",
    "Tongrams.C32_back_to",
    "Tongrams.C32_back_to_first_word_defect",
    "Tongrams.C32_to"
   ],
   "note": "predecessor, suffix, next, prev, back_to; back_to the first word is a proved defect"
  },
  {
   "property": "C33",
   "status": "proved",
   "theorems": [
    "Tongrams.C33_prefix_order",
    "Tongrams.C33_suffix_order",
    "Tongrams.C33_strict_orders",
    "Tongrams.C33_unknown_word_defect"
   ],
   "note": "strict total order = lexicographic order of ids, for in-vocabulary same-order n-grams; unknown words break it (defect theorem)"
  },
  {
   "property": "C34",
   "status": "proved",
   "theorems": [
    "Tongrams.C34_sorter",
    "Tongrams.C34_sort_grams",
    "Tongrams.C34_last_record_lost_defect"
   ],
   "note": "sorter on any batches; sort_grams driver with the exact condition; lost last record proved as a defect for every input"
  },
  {
   "property": "C35",
   "status": "proved",
   "theorems": [
    "Tongrams.C35_trie_header",
    "Tongrams.C35_hash_header",
    "Tongrams.C35_header_byte",
    "Tongrams.C35_hash_header_byte",
    "Tongrams.C35_trie_headers_differ",
    "Tongrams.C35_accepted_headers_name_a_class",
    "Tongrams.C35_wrong_arguments_are_refused",
    "Tongrams.C35_unknown_ranks_accepted_defect"
   ],
   "note": "all valid command lines (complete enumeration), all 256 header bytes"
  },
  {
   "property": "C36",
   "status": "proved",
   "theorems": [
    "Tongrams.C36_count_trie_through_a_file",
    "Tongrams.C36_backoff_trie_through_a_file",
    "Tongrams.C36_hash_count_through_a_file",
    "Tongrams.C36_hash_backoff_through_a_file",
    "Tongrams.C36_pef_trie_count_through_a_file",
    "Tongrams.C36_ef_trie_count_through_a_file",
    "Tongrams.C36_pef_trie_prob_through_a_file",
    "Tongrams.C36_trie_count",
    "Tongrams.C36_trie_prob",
    "Tongrams.C36_file",
    "Tongrams.C36_loaded_count_trie_returns_counts",
    "Tongrams.C36_loaded_backoff_trie_scores",
    "Tongrams.C36_mph_count",
    "Tongrams.C36_mph_prob",
    "Tongrams.C36_bit_vector",
    "Tongrams.C36_compact_vector",
    "Tongrams.C36_hash_compact_vector",
    "Tongrams.C36_compact_triplets_vector",
    "Tongrams.C36_darray",
    "Tongrams.C36_ef_sequence",
    "Tongrams.C36_indexed_codewords",
    "Tongrams.C36_prefix_summed",
    "Tongrams.C36_uniform_pef",
    "Tongrams.C36_mphf",
    "Tongrams.C36_tables",
    "Tongrams.C36_fast_ef"
   ],
   "note": "every vector, sequence, table and the four models; loaded tries give the same answers although unbuilt sequences come back with arbitrary contents; composed with C24/C27/C49/C55 to files -> build -> queries -> save -> load -> answers, also for tries over uniform_pef_sequence (enumerators move, the bytes do not). Hypotheses: numbers fit their C++ members, emphf reads back its hashers"
  },
  {
   "property": "C37",
   "status": "proved",
   "theorems": [
    "Tongrams.C37_unpack_pack"
   ],
   "note": ""
  },
  {
   "property": "C38",
   "status": "proved",
   "theorems": [
    "Tongrams.C38_pointers_delimit_children",
    "Tongrams.C38_missing_pattern_exits"
   ],
   "note": ""
  },
  {
   "property": "C39",
   "status": "proved",
   "theorems": [
    "Tongrams.C39_binary_search_present",
    "Tongrams.C39_binary_search_absent",
    "Tongrams.C39_below_minimum_defect"
   ],
   "note": ""
  },
  {
   "property": "C40",
   "status": "proved",
   "theorems": [
    "Tongrams.C40_pool_contents",
    "Tongrams.C40_load_from"
   ],
   "note": "all histories of append/clear"
  },
  {
   "property": "C41",
   "status": "proved",
   "theorems": [
    "Tongrams.C41_line_with_count",
    "Tongrams.C41_gram_and_count",
    "Tongrams.C41_padded_count",
    "Tongrams.C41_line_without_tab",
    "Tongrams.C41_format_then_parse",
    "Tongrams.C41_count_overflow_defect",
    "Tongrams.C41_count_file",
    "Tongrams.C41_bad_first_line",
    "Tongrams.C41_missing_lines_defect"
   ],
   "note": "all lines; all count files, over the decompressed bytes"
  },
  {
   "property": "C42",
   "status": "proved",
   "theorems": [
    "Tongrams.C42_bits_iterator_mixed_reads",
    "Tongrams.C42_skip_zeros_after_get_bits64_defect"
   ],
   "note": "len < 64; defect witness for get_bits(64) followed by skip_zeros"
  },
  {
   "property": "C43",
   "status": "proved",
   "theorems": [
    "Tongrams.C43_arpa_file_is_read",
    "Tongrams.C43_smaller_order_aborts_defect",
    "Tongrams.C43_blank_file_never_ends_defect"
   ],
   "note": "all well-formed ARPA texts; two defects witnessed"
  },
  {
   "property": "C44",
   "status": "proved",
   "theorems": [
    "Tongrams.C44_trie_count_files_to_answers",
    "Tongrams.C44_mph_count_files_to_answers",
    "Tongrams.C44_mph_prob_arpa_to_scores",
    "Tongrams.C44_trie_prob_arpa_to_scores",
    "Tongrams.C50_pef_count_trie",
    "Tongrams.C50_ef_count_trie",
    "Tongrams.C50_pef_backoff_trie"
   ],
   "note": "all four models (fast_ef grams for tries)"
  },
  {
   "property": "C45",
   "status": "proved",
   "theorems": [],
   "note": "orders outside 2..8 and remapping orders above 2 make every builder throw"
  },
  {
   "property": "C46",
   "status": "proved",
   "theorems": [
    "Tongrams.C46_score_tool_trie",
    "Tongrams.C46_score_tool_mph",
    "Tongrams.C50_pef_backoff_trie"
   ],
   "note": "both model families, from the bytes of the ARPA file and of the corpus"
  },
  {
   "property": "C47",
   "status": "proved",
   "theorems": [
    "Tongrams.C47_python_scores",
    "Tongrams.C47_python_lookup",
    "Tongrams.C47_python_lookup_absent",
    "Tongrams.C47_python_remapped_defect"
   ],
   "note": "the model is the one built from the files; that a saved and loaded model answers the same is C36"
  },
  {
   "property": "C48",
   "status": "proved",
   "theorems": [
    "Tongrams.C48_every_session_is_a_cursor_over_the_list",
    "Tongrams.C48_unsorted_refused",
    "Tongrams.C48_next_geq_beyond_universe_defect",
    "Tongrams.C48_value_equal_to_universe_defect"
   ],
   "note": ""
  },
  {
   "property": "C49",
   "status": "proved",
   "theorems": [
    "Tongrams.C49_pef_trie_returns_counts",
    "Tongrams.C49_ef_trie_answers_sessions",
    "Tongrams.C49_equal_values_wrong_count_defect",
    "Tongrams.C49_absent_bigram_found_defect"
   ],
   "note": "stored n-grams, and absent ones whose first missing search is for a non-zero id below a stored sibling, for pef grams; all absent ones of C25 for fast_ef grams with any ranks; the other absent ones are really misreported with pef grams (defect theorems)"
  },
  {
   "property": "C50",
   "status": "proved",
   "theorems": [
    "Tongrams.C50_count_trie",
    "Tongrams.C50_hash_count",
    "Tongrams.C50_backoff_trie",
    "Tongrams.C50_hash_backoff",
    "Tongrams.C50_pef_count_trie",
    "Tongrams.C50_ef_count_trie",
    "Tongrams.C50_pef_backoff_trie"
   ],
   "note": "composition of parsing, building, saving, loading and answering; hypotheses: emphf reads back what it writes; floats have 32 bits"
  },
  {
   "property": "C51",
   "status": "proved",
   "theorems": [
    "Tongrams.C51_sort_grams_text",
    "Tongrams.C51_distinct",
    "Tongrams.C51_last_line_lost_defect",
    "Tongrams.C51_stale_output_defect",
    "Tongrams.C51_sorted_files_are_input",
    "Tongrams.C51_sort_then_build"
   ],
   "note": "Hypotheses: words without spaces/tabs/newlines; each n-gram fits the memory; last batch of more than one n-gram (the defect theorem shows it is needed); output file empty for the pipeline."
  },
  {
   "property": "C52",
   "status": "proved",
   "theorems": [
    "Tongrams.C52_sort_arpa_text",
    "Tongrams.C52_sorted_sections_are_input",
    "Tongrams.C52_sort_then_build",
    "Tongrams.C52_two_blank_lines_defect"
   ],
   "note": "Hypotheses: exactly one blank line after each section before (a defect theorem shows it is needed), last batch of more than one n-gram, printed numbers readable; for the pipeline, printing must lose no digits."
  },
  {
   "property": "C53",
   "status": "proved",
   "theorems": [
    "Tongrams.C53_pef_count_trie",
    "Tongrams.C53_pef_backoff_trie",
    "Tongrams.C53_ef_count_trie",
    "Tongrams.C53_count_trie",
    "Tongrams.C53_backoff_trie"
   ],
   "note": "the numbers of bytes are C54; floating-point rounding of the entropies is abstracted (any F, any log2)"
  },
  {
   "property": "C54",
   "status": "proved",
   "theorems": [
    "Tongrams.C54_pef_count_trie",
    "Tongrams.C54_ef_count_trie",
    "Tongrams.C54_pef_backoff_trie",
    "Tongrams.C54_count_trie",
    "Tongrams.C54_backoff_trie",
    "Tongrams.C54_hash_count",
    "Tongrams.C54_hash_backoff",
    "Tongrams.C54_keys_per_gram_defect"
   ],
   "note": "stated for fast Elias-Fano grams; floating-point rounding of percentages is abstracted (any F)"
  },
  {
   "property": "C55",
   "status": "proved",
   "theorems": [
    "Tongrams.C55_pef_trie_interleaved_scores",
    "Tongrams.C55_absent_bigram_scored_defect"
   ],
   "note": "C55_pef_trie_interleaved_scores for all sessions and texts of PefScorable n-grams; C55_absent_bigram_scored_defect: other absent n-grams get wrong scores"
  },
  {
   "property": "C56",
   "status": "proved",
   "theorems": [
    "Tongrams.C56_ef_sequence_size",
    "Tongrams.C56_prefix_summed_size",
    "Tongrams.C56_indexed_codewords_size",
    "Tongrams.C56_compact_vector_size",
    "Tongrams.C56_fast_ef_size",
    "Tongrams.C56_hash_count_size",
    "Tongrams.C56_count_trie_size",
    "Tongrams.C56_empty_sequence_defect",
    "Tongrams.C56_pef_sequence_size",
    "Tongrams.C56_pef_grams_size",
    "Tongrams.C56_prefix_summed_pef_size",
    "Tongrams.C56_pef_count_trie_size",
    "Tongrams.C56_ef_count_trie_size",
    "Tongrams.C56_pef_backoff_trie_size",
    "Tongrams.C56_hash_backoff_size",
    "Tongrams.C56_backoff_trie_size"
   ],
   "note": "Bounds for five sequences, hash count models and count tries with fast Elias-Fano grams; backoff models are not stated. C56_empty_sequence_defect: a sequence of no values takes one bit per number of its universe."
  },
  {
   "property": "C57",
   "status": "proved",
   "theorems": [
    "Tongrams.C57_test_hash_compact_vector_wide",
    "Tongrams.C57_test_compact_vector",
    "Tongrams.C57_test_compact_vector_never_ends_defect",
    "Tongrams.C57_test_hash_compact_vector",
    "Tongrams.C57_test_fast_ef_sequence",
    "Tongrams.C57_test_uniform_pef_sequence",
    "Tongrams.C57_test_uniform_pef_aborts_defect",
    "Tongrams.C57_test_hash_misses_defect"
   ],
   "note": ""
  },
  {
   "property": "C58",
   "status": "proved",
   "theorems": [
    "Tongrams.C58_test_compares_every_count",
    "Tongrams.C58_perf_test_looks_up_each_line",
    "Tongrams.C58_count_trie",
    "Tongrams.C58_hash_count",
    "Tongrams.C58_pef_count_trie",
    "Tongrams.C58_ef_count_trie"
   ],
   "note": ""
  },
  {
   "property": "C59",
   "status": "proved",
   "theorems": [
    "Tongrams.C59_popcount_variants_agree",
    "Tongrams.C59_select_variants_agree",
    "Tongrams.C59_every_portable_result_is_kept",
    "Tongrams.C59_outside_the_precondition"
   ],
   "note": ""
  },
  {
   "property": "C60",
   "status": "proved",
   "theorems": [
    "Tongrams.C60_accepted_count_files_are_sorted_and_complete",
    "Tongrams.C60_accepted_arpa_sections_are_sorted_and_complete",
    "Tongrams.C60_count_trie_is_built_exactly_from_sorted_complete_files",
    "Tongrams.C60_backoff_trie_is_built_exactly_from_sorted_complete_sections",
    "Tongrams.C60_repeated_gram_accepted_defect",
    "Tongrams.C60_unknown_word_accepted_defect",
    "Tongrams.C60_missing_context_accepted_defect",
    "Tongrams.C60_unsorted_write_out_of_bounds_defect",
    "Tongrams.C60_missing_prefix_accepted_defect"
   ],
   "note": ""
  },
  {
   "property": "C61",
   "status": "proved",
   "theorems": [
    "Tongrams.C61_count_object",
    "Tongrams.C61_prob_object",
    "Tongrams.C61_bad_constructor_defect",
    "Tongrams.C61_missing_file_defect",
    "Tongrams.C61_type_not_checked_defect",
    "Tongrams.C61_object_freed",
    "Tongrams.C61_constructor_again_leaks_defect",
    "Tongrams.C61_remapped_scores_defect"
   ],
   "note": ""
  },
  {
   "property": "C62",
   "status": "proved",
   "theorems": [
    "Tongrams.C62_pef_searches_in_turns",
    "Tongrams.C62_pef_overlapping_searches_defect",
    "Tongrams.C62_lookup_does_not_depend_on_earlier_ones",
    "Tongrams.C62_serialised_lookups_are_right",
    "Tongrams.C62_serialised_lookups_end",
    "Tongrams.C62_concurrent_lookups_defect"
   ],
   "note": ""
  },
  {
   "property": "C63",
   "status": "proved",
   "theorems": [
    "Tongrams.C63_no_proper_beginning_is_loaded",
    "Tongrams.C63_cut_count_trie",
    "Tongrams.C63_cut_backoff_trie",
    "Tongrams.C63_cut_hash_count",
    "Tongrams.C63_cut_hash_backoff",
    "Tongrams.C63_cut_pef_count_trie",
    "Tongrams.C63_cut_pef_backoff_trie"
   ],
   "note": ""
  },
  {
   "property": "C64",
   "status": "proved",
   "theorems": [
    "Tongrams.C64_score_does_not_depend_on_the_structure",
    "Tongrams.C64_counts_do_not_depend_on_the_structure"
   ],
   "note": ""
  },
  {
   "property": "C65",
   "status": "proved",
   "theorems": [
    "Tongrams.C65_trie_totals_are_accurate",
    "Tongrams.C65_mph_totals_are_accurate",
    "Tongrams.C65_long_text_total_stops_defect",
    "Tongrams.C65_pef_totals_are_accurate"
   ],
   "note": ""
  },
  {
   "property": "C66",
   "status": "proved",
   "theorems": [
    "Tongrams.C66_trie_counts_with_collisions",
    "Tongrams.C66_trie_scores_with_collisions",
    "Tongrams.C66_mph_counts_with_collisions",
    "Tongrams.C66_one_hash_in_2_to_the_B_collides",
    "Tongrams.C66_pef_counts_with_collisions",
    "Tongrams.C66_ef_counts_with_collisions",
    "Tongrams.C66_pef_scores_with_collisions"
   ],
   "note": ""
  },
  {
   "property": "C67",
   "status": "proved",
   "theorems": [
    "Tongrams.C67_trie_total_of_the_file",
    "Tongrams.C67_mph_total_of_the_file",
    "Tongrams.C67_quantisation_within_spread",
    "Tongrams.C67_pef_total_of_the_file"
   ],
   "note": ""
  },
  {
   "property": "C68",
   "status": "proved",
   "theorems": [
    "Tongrams.C68_pef_perplexities",
    "Tongrams.C68_trie_perplexity_at_least_one",
    "Tongrams.C68_trie_perplexities",
    "Tongrams.C68_mph_perplexities",
    "Tongrams.C68_known_words_lost_defect"
   ],
   "note": ""
  },
  {
   "property": "C69",
   "status": "proved",
   "theorems": [
    "Tongrams.C69_print_stats_count_trie",
    "Tongrams.C69_print_stats_backoff_trie",
    "Tongrams.C69_print_stats_hash_count",
    "Tongrams.C69_print_stats_hash_backoff",
    "Tongrams.C69_count_trie_programs",
    "Tongrams.C69_backoff_trie_programs",
    "Tongrams.C69_hash_count_programs",
    "Tongrams.C69_hash_backoff_programs",
    "Tongrams.C69_refused_trie",
    "Tongrams.C69_refused_hash",
    "Tongrams.C69_missing_counts",
    "Tongrams.C69_large_numbers_wrap_defect",
    "Tongrams.C69_no_arpa_defect",
    "Tongrams.C69_unsorted_counts",
    "Tongrams.C69_unsorted_arpa"
   ],
   "note": ""
  },
  {
   "property": "C70",
   "status": "proved",
   "theorems": [
    "Tongrams.C70_count_trie",
    "Tongrams.C70_backoff_trie",
    "Tongrams.C70_hash",
    "Tongrams.C70_hash_count",
    "Tongrams.C70_hash_ties_defect",
    "Tongrams.C70_trie_ties_defect",
    "Tongrams.C70_uninitialised_defect"
   ],
   "note": ""
  },
  {
   "property": "C71",
   "status": "proved",
   "theorems": [
    "Tongrams.C71_builders_keep_their_bits",
    "Tongrams.C71_operations_succeed",
    "Tongrams.C71_reserve_defect",
    "Tongrams.C71_resize_defect",
    "Tongrams.C71_resize_smaller_defect",
    "Tongrams.C71_copy_defect",
    "Tongrams.C71_self_append_defect"
   ],
   "note": ""
  },
  {
   "property": "C72",
   "status": "proved",
   "theorems": [
    "Tongrams.C72_hash_counts",
    "Tongrams.C72_build_hash_writes_nothing",
    "Tongrams.C72_backoff_builder_defect",
    "Tongrams.C72_trie_counts"
   ],
   "note": ""
  },
  {
   "property": "C73",
   "status": "proved",
   "theorems": [
    "Tongrams.C73_find_cost",
    "Tongrams.C73_binary_search_present",
    "Tongrams.C73_binary_search_absent",
    "Tongrams.C73_select_ones",
    "Tongrams.C73_select_zeros",
    "Tongrams.C73_lookup_cost"
   ],
   "note": ""
  },
  {
   "property": "C74",
   "status": "proved",
   "theorems": [
    "Tongrams.C74_compact_vector",
    "Tongrams.C74_compact_vector_too_large_defect",
    "Tongrams.C74_hash_compact_vector",
    "Tongrams.C74_hash_compact_vector_too_large_defect",
    "Tongrams.C74_bit_vector_builder",
    "Tongrams.C74_bit_vector_builder_too_large_defect",
    "Tongrams.C74_ef_sequence"
   ],
   "note": ""
  },
  {
   "property": "C75",
   "status": "proved",
   "theorems": [
    "Tongrams.C75_counts_of_one_order",
    "Tongrams.C75_unigrams",
    "Tongrams.C75_scores_of_short_states"
   ],
   "note": ""
  }
 ]
}