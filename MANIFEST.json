{
 "claims": [
  {
   "property": "C01",
   "status": "proved",
   "theorems": [
    "Sliced.C01_decode",
    "Sliced.C01_decode_take"
   ],
   "note": ""
  },
  {
   "property": "C02",
   "status": "proved",
   "theorems": [
    "Sliced.C02_debug_abort",
    "Sliced.C02_release_drops",
    "Sliced.C02_lost",
    "Sliced.C02_only_last"
   ],
   "note": "the expectation is false; the theorems say exactly what happens instead"
  },
  {
   "property": "C03",
   "status": "proved",
   "theorems": [
    "Sliced.C03_cardinality"
   ],
   "note": ""
  },
  {
   "property": "C04",
   "status": "proved",
   "theorems": [
    "Sliced.C04_contains"
   ],
   "note": ""
  },
  {
   "property": "C05",
   "status": "proved",
   "theorems": [
    "Sliced.C05_select",
    "Sliced.C05_select_out"
   ],
   "note": ""
  },
  {
   "property": "C06",
   "status": "proved",
   "theorems": [
    "Sliced.C06_find",
    "Sliced.C06_next_geq",
    "Sliced.C06_next_geq_none",
    "Sliced.C06_next_geq_iff"
   ],
   "note": ""
  },
  {
   "property": "C07",
   "status": "proved",
   "theorems": [
    "Sliced.C07_uncompress_zeroed"
   ],
   "note": ""
  },
  {
   "property": "C08",
   "status": "proved",
   "theorems": [
    "Sliced.C08_uncompress",
    "Sliced.C08_stale"
   ],
   "note": ""
  },
  {
   "property": "C09",
   "status": "proved",
   "theorems": [
    "Sliced.C09_enumerator",
    "Sliced.C09_collect",
    "Sliced.C09_after_end",
    "Sliced.C09_endless",
    "Sliced.C09_endless_ub"
   ],
   "note": ""
  },
  {
   "property": "C10",
   "status": "proved",
   "theorems": [
    "Sliced.C10_intersection",
    "Sliced.C10_intersection_exists"
   ],
   "note": ""
  },
  {
   "property": "C11",
   "status": "proved",
   "theorems": [
    "Sliced.C11_overlap_wrong",
    "Sliced.C11_union",
    "Sliced.C11_union_exists"
   ],
   "note": "for encodings that are disjoint in memory or the same one; C11_overlap_wrong shows the result is wrong for a sequence stored inside another one (ss_union_block compares pointers of the two)"
  },
  {
   "property": "C12",
   "status": "proved",
   "theorems": [
    "Sliced.C12_intersection",
    "Sliced.C12_intersection_exists",
    "Sliced.C12_empty_ub"
   ],
   "note": ""
  },
  {
   "property": "C13",
   "status": "proved",
   "theorems": [
    "Sliced.C13_union",
    "Sliced.C13_union_exists",
    "Sliced.C13_empty_ub"
   ],
   "note": ""
  },
  {
   "property": "C14",
   "status": "proved",
   "theorems": [
    "Sliced.C14_intersection_perm",
    "Sliced.C14_union_many_perm",
    "Sliced.C14_union_many_repeat",
    "Sliced.C14_intersection_repeat",
    "Sliced.C14_intersection_comm",
    "Sliced.C14_union_comm",
    "Sliced.C14_intersection_self",
    "Sliced.C14_union_self"
   ],
   "note": ""
  },
  {
   "property": "C15",
   "status": "proved",
   "theorems": [
    "Sliced.C15_aligned",
    "Sliced.C15_jump_exact",
    "Sliced.C15_periodic",
    "Sliced.C15_periodic_exact",
    "Sliced.C15_bitmaps",
    "Sliced.C15_full",
    "Sliced.C15_history_partial",
    "Sliced.C15_agrees_partial",
    "Sliced.C15_few_slices",
    "Sliced.C15_wrong_after_long_jump"
   ],
   "note": "the general expectation is refuted by C15_wrong_after_long_jump; the restricted claim of the statement is proved for all histories (theorems suffixed _partial because they do not cover the refuted part); C15_aligned, C15_jump_exact and C15_periodic_exact say exactly which jumps are right, in terms of the data pointer: a misplaced data pointer may by coincidence still give a right answer"
  },
  {
   "property": "C16",
   "status": "proved",
   "theorems": [
    "Sliced.C16_duplicate_throws",
    "Sliced.C16_accepts_iff"
   ],
   "note": ""
  },
  {
   "property": "C17",
   "status": "proved",
   "theorems": [
    "Sliced.C17_empty_ub",
    "Sliced.C17_never_empty",
    "Sliced.C17_skipped",
    "Sliced.C17_collection"
   ],
   "note": ""
  },
  {
   "property": "C18",
   "status": "proved",
   "theorems": [
    "Sliced.C18_round_trip",
    "Sliced.C18_decode",
    "Sliced.C18_pairwise",
    "Sliced.C18_exists"
   ],
   "note": "the save format of the external essentials library is assumed (DESIGN.md section 4)"
  },
  {
   "property": "C19",
   "status": "proved",
   "theorems": [
    "Sliced.C19_filter",
    "Sliced.C19_default_keeps_all",
    "Sliced.C19_default_collection",
    "Sliced.C19_density"
   ],
   "note": "the floating-point quotient is an arbitrary function of length and last element; C19_density relates it to the exact quotient for any monotone rounding"
  },
  {
   "property": "C20",
   "status": "proved",
   "theorems": [
    "Sliced.C20_sequence_bits",
    "Sliced.C20_bytes_for",
    "Sliced.C20_index_bits"
   ],
   "note": ""
  },
  {
   "property": "C21",
   "status": "proved",
   "theorems": [
    "Sliced.C21_sequence_counters",
    "Sliced.C21_collection_counters"
   ],
   "note": ""
  },
  {
   "property": "C22",
   "status": "proved",
   "theorems": [
    "Sliced.C22_no_overread"
   ],
   "note": ""
  },
  {
   "property": "C23",
   "status": "proved",
   "theorems": [
    "Sliced.C23_decode_enumerate",
    "Sliced.C23_pairwise",
    "Sliced.C23_many",
    "Sliced.C23_needs_31",
    "Sliced.C23_one_element"
   ],
   "note": ""
  },
  {
   "property": "C24",
   "status": "proved",
   "theorems": [
    "Sliced.C24_decode_writes",
    "Sliced.C24_intersection_writes",
    "Sliced.C24_union_writes",
    "Sliced.C24_many_writes",
    "Sliced.C24_needs_23",
    "Sliced.C24_exact_buffer_overrun"
   ],
   "note": ""
  },
  {
   "property": "C25",
   "status": "proved",
   "theorems": [
    "Sliced.C25_size_slices",
    "Sliced.C25_size_ints",
    "Sliced.C25_size_full"
   ],
   "note": ""
  },
  {
   "property": "C26",
   "status": "proved",
   "theorems": [
    "Sliced.C26_injective",
    "Sliced.C26_prefix_free",
    "Sliced.C26_concatenation",
    "Sliced.C26_reencode"
   ],
   "note": ""
  },
  {
   "property": "C27",
   "status": "proved",
   "theorems": [
    "Sliced.C27_consistent",
    "Sliced.C27_contains_iff_next_geq"
   ],
   "note": ""
  },
  {
   "property": "C28",
   "status": "proved",
   "theorems": [
    "Sliced.C28_appends",
    "Sliced.C28_appends_valid",
    "Sliced.C28_used_twice"
   ],
   "note": ""
  },
  {
   "property": "C29",
   "status": "proved",
   "theorems": [
    "Sliced.C29_truncated",
    "Sliced.C29_short_ub",
    "Sliced.C29_missing_ub"
   ],
   "note": ""
  },
  {
   "property": "C30",
   "status": "proved",
   "theorems": [
    "Sliced.C30_intersection_fold",
    "Sliced.C30_union_fold"
   ],
   "note": ""
  },
  {
   "property": "C31",
   "status": "proved",
   "theorems": [
    "Sliced.C31_reorders"
   ],
   "note": ""
  },
  {
   "property": "C32",
   "status": "proved",
   "theorems": [
    "Sliced.C32_skip_to_value",
    "Sliced.C32_skip_to_value_data",
    "Sliced.C32_skip_to_position"
   ],
   "note": ""
  },
  {
   "property": "C33",
   "status": "proved",
   "theorems": [
    "Sliced.C33_erasure_build",
    "Sliced.C33_erasure_index",
    "Sliced.C33_erasure_queries",
    "Sliced.C33_erasure_enumerators",
    "Sliced.C33_erasure_set_operations",
    "Sliced.C33_can_abort",
    "Sliced.C33_build",
    "Sliced.C33_index",
    "Sliced.C33_index_get",
    "Sliced.C33_queries",
    "Sliced.C33_decode",
    "Sliced.C33_uncompress",
    "Sliced.C33_enumerator",
    "Sliced.C33_next_geq_enumerator",
    "Sliced.C33_pairwise_intersection",
    "Sliced.C33_pairwise_union",
    "Sliced.C33_many"
   ],
   "note": ""
  },
  {
   "property": "C34",
   "status": "proved",
   "theorems": [
    "Sliced.C34_union_alone",
    "Sliced.C34_intersection_alone",
    "Sliced.C34_one_after_other",
    "Sliced.C34_one_after_other_intersection",
    "Sliced.C34_union_with_intersection",
    "Sliced.C34_union_corrupted",
    "Sliced.C34_union_wrong",
    "Sliced.C34_intersection_corrupted",
    "Sliced.C34_intersection_wrong"
   ],
   "note": "Pairwise union and intersection, two calls, interleaved at the granularity of one phase of scratch-buffer use (clear, fill, read). The witness is a family of stored inputs, not one pair."
  },
  {
   "property": "C35",
   "status": "proved",
   "theorems": [
    "Sliced.C35_exact_size",
    "Sliced.C35_not_minimal"
   ],
   "note": ""
  },
  {
   "property": "C36",
   "status": "proved",
   "theorems": [
    "Sliced.C36_histograms",
    "Sliced.C36_collection"
   ],
   "note": ""
  },
  {
   "property": "C37",
   "status": "proved",
   "theorems": [
    "Sliced.C37_build_sequence",
    "Sliced.C37_build_index",
    "Sliced.C37_stuck",
    "Sliced.C37_loop_for_ever",
    "Sliced.C37_build_index_stuck"
   ],
   "note": ""
  },
  {
   "property": "C38",
   "status": "proved",
   "theorems": [
    "Sliced.C38_queries",
    "Sliced.C38_iterator",
    "Sliced.C38_enumerator",
    "Sliced.C38_geq_enumerator",
    "Sliced.C38_pairwise",
    "Sliced.C38_many",
    "Sliced.C38_index"
   ],
   "note": ""
  },
  {
   "property": "C39",
   "status": "proved",
   "theorems": [
    "Sliced.C39_accepted",
    "Sliced.C39_rejected",
    "Sliced.C39_silent_debug",
    "Sliced.C39_release_out_of_bounds",
    "Sliced.C39_release_wrong"
   ],
   "note": ""
  },
  {
   "property": "C40",
   "status": "proved",
   "theorems": [
    "Sliced.C40_cardinality",
    "Sliced.C40_cardinality_small",
    "Sliced.C40_decode",
    "Sliced.C40_uncompress"
   ],
   "note": ""
  },
  {
   "property": "C41",
   "status": "proved",
   "theorems": [
    "Sliced.C41_contains",
    "Sliced.C41_select",
    "Sliced.C41_next_geq",
    "Sliced.C41_select_short",
    "Sliced.C41_next_geq_short"
   ],
   "note": ""
  },
  {
   "property": "C42",
   "status": "proved",
   "theorems": [
    "Sliced.C42_intersect",
    "Sliced.C42_union"
   ],
   "note": ""
  },
  {
   "property": "C43",
   "status": "proved",
   "theorems": [
    "Sliced.C43_decode",
    "Sliced.C43_exact_size",
    "Sliced.C43_short_list",
    "Sliced.C43_uncompress"
   ],
   "note": ""
  },
  {
   "property": "C44",
   "status": "proved",
   "theorems": [
    "Sliced.C44_num_chunks",
    "Sliced.C44_num_chunks_wide",
    "Sliced.C44_decode",
    "Sliced.C44_uncompress",
    "Sliced.C44_uncompress_wrap",
    "Sliced.C44_decode_overrun"
   ],
   "note": ""
  },
  {
   "property": "C45",
   "status": "proved",
   "theorems": [
    "Sliced.C45_example",
    "Sliced.C45_example_file"
   ],
   "note": ""
  },
  {
   "property": "C46",
   "status": "proved",
   "theorems": [
    "Sliced.C46_print",
    "Sliced.C46_print_sequence",
    "Sliced.C46_few_slices"
   ],
   "note": ""
  },
  {
   "property": "C47",
   "status": "proved",
   "theorems": [
    "Sliced.C47_uniform",
    "Sliced.C47_clustered",
    "Sliced.C47_clustered_endless",
    "Sliced.C47_text_first",
    "Sliced.C47_text_wrong"
   ],
   "note": ""
  },
  {
   "property": "C48",
   "status": "proved",
   "theorems": [
    "Sliced.C48_select",
    "Sliced.C48_next_geq",
    "Sliced.C48_pairwise",
    "Sliced.C48_next_geq_overrun"
   ],
   "note": ""
  },
  {
   "property": "C49",
   "status": "proved",
   "theorems": [
    "Sliced.C49_contains",
    "Sliced.C49_decode",
    "Sliced.C49_select",
    "Sliced.C49_enumerator",
    "Sliced.C49_next_geq",
    "Sliced.C49_next_geq_enumerator",
    "Sliced.C49_enumerator_fault_unseen",
    "Sliced.C49_next_geq_endless",
    "Sliced.C49_uncompress",
    "Sliced.C49_intersect",
    "Sliced.C49_union",
    "Sliced.C49_intersect_many",
    "Sliced.C49_union_many"
   ],
   "note": ""
  },
  {
   "property": "C50",
   "status": "proved",
   "theorems": [
    "Sliced.C50_decode",
    "Sliced.C50_contains",
    "Sliced.C50_select",
    "Sliced.C50_enumerator",
    "Sliced.C50_next_geq",
    "Sliced.C50_next_geq_enumerator",
    "Sliced.C50_uncompress",
    "Sliced.C50_intersect",
    "Sliced.C50_union",
    "Sliced.C50_intersect_many",
    "Sliced.C50_union_many"
   ],
   "note": ""
  },
  {
   "property": "C51",
   "status": "proved",
   "theorems": [
    "Sliced.C51_build_options",
    "Sliced.C51_test_options",
    "Sliced.C51_build_bad_number",
    "Sliced.C51_build_missing_value",
    "Sliced.C51_test_missing_value",
    "Sliced.C51_exhaustive"
   ],
   "note": "std::stod and std::atoi are parameters"
  },
  {
   "property": "C52",
   "status": "proved",
   "theorems": [
    "Sliced.C52_build",
    "Sliced.C52_build_undefined",
    "Sliced.C52_script",
    "Sliced.C52_test",
    "Sliced.C52_pipeline"
   ],
   "note": "C52_build and C52_script take printing as a parameter that succeeds; C52_build_undefined instantiates it with the printing of C46"
  },
  {
   "property": "C53",
   "status": "proved",
   "theorems": [
    "Sliced.C53_input",
    "Sliced.C53_short_input",
    "Sliced.C53_text_input",
    "Sliced.C53_no_input",
    "Sliced.C53_options",
    "Sliced.C53_unknown_option",
    "Sliced.C53_missing_value",
    "Sliced.C53_program",
    "Sliced.C53_short_throws",
    "Sliced.C53_zero",
    "Sliced.C53_print"
   ],
   "note": ""
  },
  {
   "property": "C54",
   "status": "proved",
   "theorems": [
    "Sliced.C54_decode",
    "Sliced.C54_select",
    "Sliced.C54_contains",
    "Sliced.C54_enumerator"
   ],
   "note": ""
  },
  {
   "property": "C55",
   "status": "proved",
   "theorems": [
    "Sliced.C55_union_scratch",
    "Sliced.C55_intersection_scratch",
    "Sliced.C55_unions",
    "Sliced.C55_intersections",
    "Sliced.C55_unions_allRight",
    "Sliced.C55_intersections_allRight",
    "Sliced.C55_mixed",
    "Sliced.C55_unions_in_turn",
    "Sliced.C55_apart",
    "Sliced.C55_scattered",
    "Sliced.C55_bigSmall"
   ],
   "note": "A call that does not use the scratch objects has no step on shared state in the model, so the granularity of the interleaving matters only for the one call that does."
  },
  {
   "property": "C56",
   "status": "proved",
   "theorems": [
    "Sliced.C56_union_many_alone",
    "Sliced.C56_intersection_alone",
    "Sliced.C56_union_many_corrupted",
    "Sliced.C56_union_many_wrong",
    "Sliced.C56_intersection_corrupted",
    "Sliced.C56_intersection_wrong",
    "Sliced.C56_union_many_allRight",
    "Sliced.C56_intersection_allRight",
    "Sliced.C56_mixed"
   ],
   "note": "The interference of two calls of intersection is shown for lists within one slice; that suffices for a wrong result. One step of the interleaving is one call of uncompress_chunk or of a part of uncompress_chunk_and_merge / _and_intersect that uses the static objects, or the decoding of the bitmap."
  },
  {
   "property": "C57",
   "status": "proved",
   "theorems": [
    "Sliced.C57_contains_block",
    "Sliced.C57_select_block",
    "Sliced.C57_blocks_apart",
    "Sliced.C57_not_needed",
    "Sliced.C57_no_bytes",
    "Sliced.C57_slices_apart",
    "Sliced.C57_open",
    "Sliced.C57_cardinality",
    "Sliced.C57_contains",
    "Sliced.C57_select",
    "Sliced.C57_select_out",
    "Sliced.C57_next_geq",
    "Sliced.C57_next_geq_none",
    "Sliced.C57_intersection",
    "Sliced.C57_contains_needs",
    "Sliced.C57_no_skip_cardinality",
    "Sliced.C57_no_skip_decode",
    "Sliced.C57_no_skip_uncompress",
    "Sliced.C57_no_skip_enumerator",
    "Sliced.C57_no_skip_intersection",
    "Sliced.C57_no_skip_union",
    "Sliced.C57_no_skip_union_many",
    "Sliced.C57_no_skip_undefined",
    "Sliced.C57_no_skip_near",
    "Sliced.C57_no_skip_exact",
    "Sliced.C57_no_skip_select"
   ],
   "note": "Damage is at the granularity of whole slices, for contains and select in a slice stored as blocks of whole blocks: within a slice or block of which a byte is damaged nothing is claimed. For pairwise_intersection the damaged bytes must still be readable, because of the over-read of C23. For the skip pointers: the whole pointer area is damaged at once; intersection_many is not treated."
  },
  {
   "property": "C58",
   "status": "proved",
   "theorems": [
    "Sliced.C58_contains_any",
    "Sliced.C58_next_geq_any",
    "Sliced.C58_cardinality_any",
    "Sliced.C58_contains",
    "Sliced.C58_select",
    "Sliced.C58_select_out",
    "Sliced.C58_next_geq",
    "Sliced.C58_cardinality",
    "Sliced.C58_contains_total",
    "Sliced.C58_contains_linear",
    "Sliced.C58_next_geq_linear",
    "Sliced.C58_contains_jumps",
    "Sliced.C58_select_linear",
    "Sliced.C58_cardinality_exact"
   ],
   "note": "Cost is the number of addresses that determine the outcome in the model; a word read counts 8 bytes and no time or cache behaviour is modelled. The constants are upper bounds; only the factors in the number of slices are shown to be exact (all of it for cardinality)."
  },
  {
   "property": "C59",
   "status": "proved",
   "theorems": [
    "Sliced.C59_decode",
    "Sliced.C59_decode_iff",
    "Sliced.C59_mono",
    "Sliced.C59_31",
    "Sliced.C59_bitmap",
    "Sliced.C59_one_block",
    "Sliced.C59_mapped",
    "Sliced.C59_mapped_safe",
    "Sliced.C59_mapped_unsafe"
   ],
   "note": "The exact condition is for decode; for the other operations C23 gives 31 bytes as sufficient. A page that is mapped reads as zeros after the end of the file; what follows the last page is taken to be unreadable."
  },
  {
   "property": "C60",
   "status": "proved",
   "theorems": [
    "Sliced.C60_collection",
    "Sliced.C60_sequence",
    "Sliced.C60_no_wrap",
    "Sliced.C60_sequence_no_wrap",
    "Sliced.C60_order",
    "Sliced.C60_permuted",
    "Sliced.C60_append"
   ],
   "note": "Counters are unbounded in the model; C60_no_wrap shows that their final values, which are the largest they take, are below 2^64 for any realistic number of lists."
  },
  {
   "property": "C61",
   "status": "proved",
   "theorems": [
    "Sliced.C61_parse",
    "Sliced.C61_parse_unique",
    "Sliced.C61_cut_off",
    "Sliced.C61_first_word_ignored",
    "Sliced.C61_accepted",
    "Sliced.C61_exact",
    "Sliced.C61_otherwise",
    "Sliced.C61_short"
   ],
   "note": "Reading past the end of the file is undefined in the model; on a real system the rest of the last page of a mapped file reads as zeros. Lists that pass the filter and are not valid are the subject of C39."
  },
  {
   "property": "C62",
   "status": "proved",
   "theorems": [
    "Sliced.C62_decode",
    "Sliced.C62_decode_iff",
    "Sliced.C62_no_bitmaps",
    "Sliced.C62_first_bitmap",
    "Sliced.C62_between",
    "Sliced.C62_nowhere",
    "Sliced.C62_nowhere_decode",
    "Sliced.C62_one_block",
    "Sliced.C62_index",
    "Sliced.C62_index_first",
    "Sliced.C62_index_neighbours"
   ],
   "note": "The checked loads are in a second model of decode and of the iterator (Model/Aligned.lean); the other queries are modelled with unchecked loads, as x86-64 executes them."
  },
  {
   "property": "C63",
   "status": "proved",
   "theorems": [
    "Sliced.C63_round_fits",
    "Sliced.C63_round_nearest",
    "Sliced.C63_round_even",
    "Sliced.C63_round_mono",
    "Sliced.C63_density_sound",
    "Sliced.C63_density_complete",
    "Sliced.C63_density_special",
    "Sliced.C63_density_tie",
    "Sliced.C63_average",
    "Sliced.C63_average_large",
    "Sliced.C63_print",
    "Sliced.C63_print_sequence",
    "Sliced.C63_formats",
    "Sliced.C63_exact",
    "Sliced.C63_event",
    "Sliced.C63_rand_float",
    "Sliced.C63_events_glibc",
    "Sliced.C63_clustered"
   ],
   "note": "Rounding to nearest, ties to even, at the precision of each type (no extended precision, no fast-math); std::log2 stays a parameter."
  },
  {
   "property": "C64",
   "status": "proved",
   "theorems": [
    "Sliced.C64_number",
    "Sliced.C64_show_injective",
    "Sliced.C64_atoi",
    "Sliced.C64_space",
    "Sliced.C64_atoi_text",
    "Sliced.C64_stoull",
    "Sliced.C64_numbers_glibc",
    "Sliced.C64_numbers_iso",
    "Sliced.C64_pairs_glibc",
    "Sliced.C64_pairs_iso",
    "Sliced.C64_tokens_numbers",
    "Sliced.C64_tokens_pairs",
    "Sliced.C64_contains",
    "Sliced.C64_intersect",
    "Sliced.C64_union",
    "Sliced.C64_select",
    "Sliced.C64_next_geq",
    "Sliced.C64_arguments",
    "Sliced.C64_next_geq_queries",
    "Sliced.C64_select_queries",
    "Sliced.C64_pairwise_queries",
    "Sliced.C64_example_input",
    "Sliced.C64_example",
    "Sliced.C64_clustered_text",
    "Sliced.C64_read_query",
    "Sliced.C64_query_line",
    "Sliced.C64_split_lines"
   ],
   "note": "The library functions are modelled in the default locale; the conversion of numbers outside of int is a parameter with the C standard and 64-bit glibc as instances, and the finding is the difference. For pairs the equality with the token model needs that everything in the input is a number."
  },
  {
   "property": "C65",
   "status": "proved",
   "theorems": [
    "Sliced.C65_open",
    "Sliced.C65_cardinality",
    "Sliced.C65_contains",
    "Sliced.C65_next_geq",
    "Sliced.C65_select",
    "Sliced.C65_decode",
    "Sliced.C65_uncompress",
    "Sliced.C65_enumerator",
    "Sliced.C65_next_geq_enumerator",
    "Sliced.C65_intersection",
    "Sliced.C65_union",
    "Sliced.C65_union_many",
    "Sliced.C65_intersection_many",
    "Sliced.C65_type_needed",
    "Sliced.C65_offset_bad",
    "Sliced.C65_pointer_bad",
    "Sliced.C65_size_bad",
    "Sliced.C65_select_bad",
    "Sliced.C65_order_needed",
    "Sliced.C65_mmap",
    "Sliced.C65_get",
    "Sliced.C65_zero_size",
    "Sliced.C65_high_bits"
   ],
   "note": "For select nothing better than 'normal end, or the unreachable statement' holds, with a witness. next_geq_enumerator for arguments that do not decrease. How far the memory has to be readable is an upper bound, not exact."
  },
  {
   "property": "C66",
   "status": "proved",
   "theorems": [
    "Sliced.C66_cardinality",
    "Sliced.C66_uncompress",
    "Sliced.C66_contains",
    "Sliced.C66_select",
    "Sliced.C66_next_geq",
    "Sliced.C66_enumerator",
    "Sliced.C66_all_bitmaps",
    "Sliced.C66_elements",
    "Sliced.C66_suffices",
    "Sliced.C66_select_nowhere",
    "Sliced.C66_select_all",
    "Sliced.C66_index",
    "Sliced.C66_index_first"
   ],
   "note": "Loads only, as C62; set operations with checked alignment are in C70."
  },
  {
   "property": "C67",
   "status": "proved",
   "theorems": [
    "Sliced.C67_ratio",
    "Sliced.C67_ratio_small",
    "Sliced.C67_optimal",
    "Sliced.C67_insert",
    "Sliced.C67_union",
    "Sliced.C67_union_plain",
    "Sliced.C67_intersection",
    "Sliced.C67_ratio_reached",
    "Sliced.C67_insert_reached",
    "Sliced.C67_skip_reached",
    "Sliced.C67_larger",
    "Sliced.C67_optimal_both"
   ],
   "note": "Sizes are those of build_sequence outputs; the alternatives are sizes in the same layout, not programs."
  },
  {
   "property": "C68",
   "status": "proved",
   "theorems": [
    "Sliced.C68_intersection",
    "Sliced.C68_union",
    "Sliced.C68_union_self",
    "Sliced.C68_31",
    "Sliced.C68_mono",
    "Sliced.C68_15",
    "Sliced.C68_one_block",
    "Sliced.C68_mapped",
    "Sliced.C68_mapped_unsafe"
   ],
   "note": "A pairwise_union of two different sequences whose encodings overlap is not covered; output buffers with fewer than 23 spare slots are in C69."
  },
  {
   "property": "C69",
   "status": "proved",
   "theorems": [
    "Sliced.C69_intersection",
    "Sliced.C69_union",
    "Sliced.C69_union_self",
    "Sliced.C69_23",
    "Sliced.C69_mono",
    "Sliced.C69_one_block",
    "Sliced.C69_tool_intersect",
    "Sliced.C69_tool_union",
    "Sliced.C69_enough",
    "Sliced.C69_small_universe",
    "Sliced.C69_complete"
   ],
   "note": "A pairwise_union of two different sequences whose encodings overlap is not covered; output buffers that begin behind their own end are not covered."
  },
  {
   "property": "C70",
   "status": "proved",
   "theorems": [
    "Sliced.C70_intersection_many",
    "Sliced.C70_intersection_many_iff",
    "Sliced.C70_suffices_intersection_many",
    "Sliced.C70_apart_intersection_many",
    "Sliced.C70_stops",
    "Sliced.C70_intersection_many_search",
    "Sliced.C70_no_bitmap_slices",
    "Sliced.C70_first_bitmap_many",
    "Sliced.C70_many_where_pair_not",
    "Sliced.C70_intersection",
    "Sliced.C70_intersection_iff",
    "Sliced.C70_union",
    "Sliced.C70_union_iff",
    "Sliced.C70_union_many",
    "Sliced.C70_suffices",
    "Sliced.C70_suffices_many",
    "Sliced.C70_apart_intersection",
    "Sliced.C70_apart_union",
    "Sliced.C70_apart_many",
    "Sliced.C70_self",
    "Sliced.C70_nowhere",
    "Sliced.C70_first_bitmaps",
    "Sliced.C70_index",
    "Sliced.C70_index_neighbours"
   ],
   "note": "Loads only, as C62. For the many-way intersection, exact if lists of more than 32 slices are at addresses that are 2 modulo 4; C70_intersection_many_search shows that this cannot be dropped. A pairwise_union of two different sequences whose encodings overlap is not covered."
  },
  {
   "property": "C71",
   "status": "proved",
   "theorems": [
    "Sliced.C71_formula",
    "Sliced.C71_evaluates",
    "Sliced.C71_laws",
    "Sliced.C71_distributive",
    "Sliced.C71_absorption",
    "Sliced.C71_counts",
    "Sliced.C71_many_right",
    "Sliced.C71_many",
    "Sliced.C71_many_laws",
    "Sliced.C71_all_exists",
    "Sliced.C71_any_exists",
    "Sliced.C71_pair_exists",
    "Sliced.C71_many_distributive"
   ],
   "note": "Formulas have two-place operations; for the many-place ones see C30. The evaluation builds every intermediate result."
  },
  {
   "property": "C72",
   "status": "proved",
   "theorems": [
    "Sliced.C72_enumerator",
    "Sliced.C72_mono",
    "Sliced.C72_all",
    "Sliced.C72_collect",
    "Sliced.C72_31",
    "Sliced.C72_pair",
    "Sliced.C72_mapped"
   ],
   "note": "The enumerator of enumerator.hpp; the one of next_geq_enumerator.hpp reads single values and no vectors of bytes."
  },
  {
   "property": "C73",
   "status": "proved",
   "theorems": [
    "Sliced.C73_decode",
    "Sliced.C73_intersection",
    "Sliced.C73_union",
    "Sliced.C73_union_many",
    "Sliced.C73_intersection_many",
    "Sliced.C73_before",
    "Sliced.C73_union_room",
    "Sliced.C73_intersection_room"
   ],
   "note": "For every memory and every state of the static buffers; the exact room is for encodings, that of the pairwise operations is C69, that of decode C59."
  },
  {
   "property": "C74",
   "status": "proved",
   "theorems": [
    "Sliced.C74_decode",
    "Sliced.C74_intersection",
    "Sliced.C74_union",
    "Sliced.C74_union_many",
    "Sliced.C74_intersection_many",
    "Sliced.C74_table"
   ],
   "note": "For every memory and every state of the static buffers; pairwise_intersection needs a shuffle table with full rows (TabOk, as throughout), shown to be necessary."
  },
  {
   "property": "C75",
   "status": "proved",
   "theorems": [
    "Sliced.C75_queries",
    "Sliced.C75_uncompress",
    "Sliced.C75_next_geq_zero",
    "Sliced.C75_next_geq_enumerator",
    "Sliced.C75_enumerator",
    "Sliced.C75_intersection",
    "Sliced.C75_union",
    "Sliced.C75_union_many",
    "Sliced.C75_union_many_none",
    "Sliced.C75_intersection_many",
    "Sliced.C75_union_many_lists"
   ],
   "note": "The undefined cases (next_geq(0), pairwise_union, enumerator) are theorems that end in an error, for memories whose null page cannot be read."
  },
  {
   "property": "C76",
   "status": "proved",
   "theorems": [
    "Sliced.C76_search",
    "Sliced.C76_search_alternating",
    "Sliced.C76_slices",
    "Sliced.C76_pairwise_intersection",
    "Sliced.C76_pairwise_union",
    "Sliced.C76_union_many",
    "Sliced.C76_union_many_stored"
   ],
   "note": "Rounds of the loops over slices only; the moves within skip_to_value and advance are bounded by C58, the work on one slice by the size of a slice."
  },
  {
   "property": "C77",
   "status": "proved",
   "theorems": [
    "Sliced.C77_words",
    "Sliced.C77_words_rest",
    "Sliced.C77_text",
    "Sliced.C77_room",
    "Sliced.C77_room_intersect",
    "Sliced.C77_no_room",
    "Sliced.C77_generate",
    "Sliced.C77_queries",
    "Sliced.C77_session",
    "Sliced.C77_readme",
    "Sliced.C77_print",
    "Sliced.C77_few_lists",
    "Sliced.C77_quick_start",
    "Sliced.C77_quick_print",
    "Sliced.C77_union_overflow",
    "Sliced.C77_usage",
    "Sliced.C77_binary",
    "Sliced.C77_uniform"
   ],
   "note": "The session supposes that no list is empty, that 31 bytes of the last page are unused and that printing succeeds; C77_print, C77_few_lists and C77_quick_print say when it does not, C77_no_room and C77_union_overflow where the room ends. Random numbers and library functions are parameters (structure World)."
  },
  {
   "property": "C78",
   "status": "proved",
   "theorems": [
    "Sliced.C78_build",
    "Sliced.C78_build_good",
    "Sliced.C78_queries",
    "Sliced.C78_no_index",
    "Sliced.C78_answered",
    "Sliced.C78_scripts"
   ],
   "note": "C78_build holds for every disk; C78_queries supposes 31 unused bytes in the last page and room for each list in decode, and says of intersect and union exactly when they are defined; C78_answered is the case in which all commands print."
  },
  {
   "property": "C79",
   "status": "proved",
   "theorems": [
    "Sliced.C79_pairs",
    "Sliced.C79_lines",
    "Sliced.C79_arguments",
    "Sliced.C79_blank",
    "Sliced.C79_sound",
    "Sliced.C79_tests",
    "Sliced.C79_room",
    "Sliced.C79_room_many",
    "Sliced.C79_room_union"
   ],
   "note": "C79_pairs supposes that everything in the input is a number; C79_lines and C79_sound hold for every input; C79_tests and C79_room are about an index file with pairs of its sequences, one to a line; C79_room, C79_room_union (mapped file with 31 unused bytes in its last page) and C79_room_many say exactly when the four programs are defined."
  },
  {
   "property": "C80",
   "status": "proved",
   "theorems": [
    "Sliced.C80_history",
    "Sliced.C80_sound",
    "Sliced.C80_few_slices",
    "Sliced.C80_two",
    "Sliced.C80_same_block",
    "Sliced.C80_bitmap",
    "Sliced.C80_slice",
    "Sliced.C80_zero_after_end",
    "Sliced.C80_wrong",
    "Sliced.C80_periodic",
    "Sliced.C80_periodic_sound"
   ],
   "note": "supposes that no bound lies more than 32 non-empty slices beyond the largest one before it, or that the slice sizes repeat every 32 slices (C15 says what happens otherwise) and that 0 is not asked for after the end was reached (C80_zero_after_end says what happens then)"
  },
  {
   "property": "C81",
   "status": "proved",
   "theorems": [
    "Sliced.C81_same",
    "Sliced.C81_any",
    "Sliced.C81_stored",
    "Sliced.C81_length",
    "Sliced.C81_history",
    "Sliced.C81_reached",
    "Sliced.C81_reached_jump",
    "Sliced.C81_reads_any",
    "Sliced.C81_reads",
    "Sliced.C81_reads_history"
   ],
   "note": "the cost counted is the number of moves to another slice (a jump over 32 slices counts 32) and to another block; the bytes that the results depend on are bounded from these moves and a constant for each call"
  }
 ]
}