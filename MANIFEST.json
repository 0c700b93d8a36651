{
 "claims": [
  {
   "property": "C01",
   "status": "proved",
   "theorems": [
    "Sdsl.Props.C01_cnt",
    "Sdsl.Props.C01_cnt_table"
   ],
   "note": "arithmetic and byte-table variant; __builtin_popcountll variant not modelled"
  },
  {
   "property": "C02",
   "status": "proved",
   "theorems": [
    "Sdsl.Props.C02_hi",
    "Sdsl.Props.C02_lo",
    "Sdsl.Props.C02_zero"
   ],
   "note": "table variants"
  },
  {
   "property": "C03",
   "status": "proved",
   "theorems": [
    "Sdsl.Props.C03_sel",
    "Sdsl.Props.C03_sel_sse",
    "Sdsl.Props.C03_sel_bmi2"
   ],
   "note": "portable, SSE4.2 and BMI2 variants; ctz/pdep given their documented meaning"
  },
  {
   "property": "C04",
   "status": "proved",
   "theorems": [
    "Sdsl.Props.C04_write",
    "Sdsl.Props.C04_read",
    "Sdsl.Props.C04_write_read",
    "Sdsl.Props.C04_write_frame",
    "Sdsl.Props.C04_write_words"
   ],
   "note": ""
  },
  {
   "property": "C05",
   "status": "proved",
   "theorems": [
    "Sdsl.Props.C05_read_step",
    "Sdsl.Props.C05_write_step",
    "Sdsl.Props.C05_write_read_seq",
    "Sdsl.Props.C05_move"
   ],
   "note": ""
  },
  {
   "property": "C06",
   "status": "partial",
   "theorems": [
    "Sdsl.Props.C06_cnt32_wrong",
    "Sdsl.Props.C06_cnt32_partial"
   ],
   "note": "The property is false of the code: C06_cnt32_wrong is a refutation; C06_cnt32_partial characterises exactly the inputs on which cnt32 is right."
  },
  {
   "property": "C07",
   "status": "proved",
   "theorems": [
    "Sdsl.Props.C07_read_unary"
   ],
   "note": ""
  },
  {
   "property": "C08",
   "status": "proved",
   "theorems": [
    "Sdsl.Props.C08_next",
    "Sdsl.Props.C08_prev"
   ],
   "note": ""
  },
  {
   "property": "C09",
   "status": "proved",
   "theorems": [
    "Sdsl.Props.C09_cnt11",
    "Sdsl.Props.C09_cnt11_nocarry",
    "Sdsl.Props.C09_sel11",
    "Sdsl.Props.C09_hi11"
   ],
   "note": ""
  },
  {
   "property": "C10",
   "status": "proved",
   "theorems": [
    "Sdsl.Props.C10_rev",
    "Sdsl.Props.C10_map10",
    "Sdsl.Props.C10_map01",
    "Sdsl.Props.C10_cnt10",
    "Sdsl.Props.C10_cnt01"
   ],
   "note": ""
  },
  {
   "property": "C11",
   "status": "proved",
   "theorems": [
    "Sdsl.Props.C11_history",
    "Sdsl.Props.C11_get",
    "Sdsl.Props.C11_read_write",
    "Sdsl.Props.C11_bit",
    "Sdsl.Props.C11_word",
    "Sdsl.Props.C11_ctor",
    "Sdsl.Props.C11_ctor_list",
    "Sdsl.Props.C11_get_set_int"
   ],
   "note": ""
  },
  {
   "property": "C12",
   "status": "proved",
   "theorems": [
    "Sdsl.Props.C12_resize",
    "Sdsl.Props.C12_clean_padding",
    "Sdsl.Props.C12_padding_word_missing"
   ],
   "note": "C12_padding_word_missing records a deviation from the comment about the extra word."
  },
  {
   "property": "C13",
   "status": "partial",
   "theorems": [
    "Sdsl.Props.C13_eq_partial",
    "Sdsl.Props.C13_eq_bits",
    "Sdsl.Props.C13_eq_ignores_width",
    "Sdsl.Props.C13_less",
    "Sdsl.Props.C13_lessEq"
   ],
   "note": "operator< and > proved in full. The documented operator== (equal widths) is false of the code: C13_eq_ignores_width refutes it; C13_eq_bits characterises it exactly."
  },
  {
   "property": "C14",
   "status": "proved",
   "theorems": [
    "Sdsl.Props.C14_round_trip",
    "Sdsl.Props.C14_fixed_as_variable"
   ],
   "note": ""
  },
  {
   "property": "C15",
   "status": "proved",
   "theorems": [
    "Sdsl.Props.C15_bit_compress",
    "Sdsl.Props.C15_expand_width",
    "Sdsl.Props.C15_bit_compress_fixed_width"
   ],
   "note": "Proved for int_vector<0>; C15_bit_compress_fixed_width shows that the call on a fixed-width vector destroys the contents."
  },
  {
   "property": "C16",
   "status": "proved",
   "theorems": [
    "Sdsl.Props.C16_set_to_value",
    "Sdsl.Props.C16_set_to_value_shift64",
    "Sdsl.Props.C16_set_to_id",
    "Sdsl.Props.C16_flip",
    "Sdsl.Props.C16_mod"
   ],
   "note": "C16_set_to_value_shift64 records an undefined shift whose result is not used."
  },
  {
   "property": "C17",
   "status": "partial",
   "theorems": [
    "Sdsl.Props.C17_next_bit_found",
    "Sdsl.Props.C17_next_bit_none_partial",
    "Sdsl.Props.C17_next_bit_stale",
    "Sdsl.Props.C17_prev_bit"
   ],
   "note": "prev_bit proved in full. next_bit with no set position reads padding bits: C17_next_bit_stale refutes the full claim, C17_next_bit_none_partial needs clean padding."
  },
  {
   "property": "C18",
   "status": "proved",
   "theorems": [
    "Sdsl.Props.C18_rank_v"
   ],
   "note": "All six patterns; size < 2^64 bits."
  },
  {
   "property": "C19",
   "status": "partial",
   "theorems": [
    "Sdsl.Props.C19_rank_v5_partial",
    "Sdsl.Props.C19_reads_past_end"
   ],
   "note": "Exact for every i <= size for which word i/64 exists. The full claim is false of the code: C19_reads_past_end (rank(size) on a 64-bit vector obtained by resize reads past the allocation)."
  },
  {
   "property": "C20",
   "status": "partial",
   "theorems": [
    "Sdsl.Props.C20_rank_scan_partial",
    "Sdsl.Props.C20_reads_past_end"
   ],
   "note": "As C19: C20_reads_past_end refutes the full claim, C20_rank_scan_partial has the one needed restriction."
  },
  {
   "property": "C21",
   "status": "proved",
   "theorems": [
    "Sdsl.Props.C21_select_scan"
   ],
   "note": ""
  },
  {
   "property": "C22",
   "status": "proved",
   "theorems": [
    "Sdsl.Props.C22_select_mcl",
    "Sdsl.Props.C22_both_inits"
   ],
   "note": "All six patterns, init_slow and init_fast; the tables are abstract int_vectors (Props/ArrBridge justifies this). size+63 < 2^64."
  },
  {
   "property": "C23",
   "status": "partial",
   "theorems": [
    "Sdsl.Props.C23_il_partial",
    "Sdsl.Props.C23_construction_reads_past_end"
   ],
   "note": "Everything claimed, for every t_bs = 64*k, on vectors whose word size/64 is allocated. The full claim is false of the code: C23_construction_reads_past_end."
  },
  {
   "property": "C24",
   "status": "proved",
   "theorems": [
    "Sdsl.Props.C24_rrr_generic",
    "Sdsl.Props.C24_rrr15",
    "Sdsl.Props.C24_rrr15_codec"
   ],
   "note": "Generic template for every block size 1..256 and the specialisation for 15 (static tables built by the modelled loops), every sampling rate and bit sequence."
  },
  {
   "property": "C25",
   "status": "partial",
   "theorems": [
    "Sdsl.Props.C25_from_bit_vector",
    "Sdsl.Props.C25_from_sequence_partial",
    "Sdsl.Props.C25_unsorted_throws",
    "Sdsl.Props.C25_from_builder",
    "Sdsl.Props.C25_builder_errors",
    "Sdsl.Props.C25_empty_range",
    "Sdsl.Props.C25_max_position",
    "Sdsl.Props.C25_duplicates"
   ],
   "note": "Bit vector and builder constructors proved in full, range constructor for non-empty ranges below 2^64-1; C25_empty_range and C25_max_position show that the two exceptions are real. Select supports of the high part by contract (Props/BvBridge)."
  },
  {
   "property": "C26",
   "status": "proved",
   "theorems": [
    "Sdsl.Props.C26_encoding_length",
    "Sdsl.Props.C26_roundtrip",
    "Sdsl.Props.C26_decode_sum",
    "Sdsl.Props.C26_prefix_sum",
    "Sdsl.Props.C26_vector_roundtrip",
    "Sdsl.Props.C26_zero_undefined"
   ],
   "note": "All 64-bit values. For 0 the decoder evaluates 1ULL<<64; the theorems hold for every value this may yield (parameter sh) and, if it is taken to trap, for all sequences without 0 (C26_zero_undefined)."
  },
  {
   "property": "C27",
   "status": "proved",
   "theorems": [
    "Sdsl.Props.C27_encoding_length",
    "Sdsl.Props.C27_roundtrip",
    "Sdsl.Props.C27_decode_sum",
    "Sdsl.Props.C27_prefix_sum",
    "Sdsl.Props.C27_vector_roundtrip",
    "Sdsl.Props.C27_prefix_sum_reads_past_end"
   ],
   "note": "As C26. decode_prefix_sum needs 15 readable bits behind the codes (C27_prefix_sum_reads_past_end)."
  },
  {
   "property": "C28",
   "status": "partial",
   "theorems": [
    "Sdsl.Props.C28_code_unique",
    "Sdsl.Props.C28_encoding_length",
    "Sdsl.Props.C28_decode",
    "Sdsl.Props.C28_decode_prefix_sum",
    "Sdsl.Props.C28_roundtrip_partial",
    "Sdsl.Props.C28_vector_roundtrip_partial",
    "Sdsl.Props.C28_vector_roundtrip",
    "Sdsl.Props.C28_negative_shift"
   ],
   "note": "Decoder: all numbers up to 2^64 in full. Encoder: all numbers that have a Fibonacci digit at position <= 64 (in particular all below 4.49e13); for the others the code shifts by a negative amount (C28_negative_shift refutes the full claim). decode_prefix_sum in full for code sequences below 2^31 bits."
  },
  {
   "property": "C29",
   "status": "proved",
   "theorems": [
    "Sdsl.Props.C29_encoding_length",
    "Sdsl.Props.C29_roundtrip",
    "Sdsl.Props.C29_digits",
    "Sdsl.Props.C29_vector_roundtrip"
   ],
   "note": "Digit widths 2..30; 31 and 32 are not valid constant expressions in the source."
  },
  {
   "property": "C30",
   "status": "partial",
   "theorems": [
    "Sdsl.Props.C30_enc_vector_partial",
    "Sdsl.Props.C30_enc_vector_buffer_partial",
    "Sdsl.Props.C30_enc_vector_comma",
    "Sdsl.Props.C30_equal_neighbours",
    "Sdsl.Props.C30_uint32_decrease",
    "Sdsl.Props.C30_uint8_decrease",
    "Sdsl.Props.C30_reads_past_end"
   ],
   "note": "All four coders, both constructors, all densities, operator[]/sample/get_inter_sampled_values. Missing: inputs for which the code has undefined behaviour or returns wrong values, each refuted by a finding theorem (equal neighbours with Elias codes unless 1ULL<<64 is harmless, 16-bit look-ahead behind the memory, decreasing values in 8/16/32-bit containers). The comma coder with 64-bit values is covered without restriction (C30_enc_vector_comma)."
  },
  {
   "property": "C31",
   "status": "partial",
   "theorems": [
    "Sdsl.Props.C31_vlc_vector_partial",
    "Sdsl.Props.C31_vlc_vector",
    "Sdsl.Props.C31_vlc_vector_error",
    "Sdsl.Props.C31_rejects_and_shifts"
   ],
   "note": "In full for gamma, delta and comma coders including the exception; for the Fibonacci coder only the values its encoder handles (C28). C31_rejects_and_shifts shows what is false."
  },
  {
   "property": "C32",
   "status": "proved",
   "theorems": [
    "Sdsl.Props.C32_dac_vector",
    "Sdsl.Props.C32_dac_vector_dp_layout",
    "Sdsl.Props.C32_dac_vector_dp"
   ],
   "note": "All block widths 1..63 and all 64-bit values; for dac_vector_dp all layouts that fit the values, and the layout computed by the dynamic program for any cost arithmetic satisfying Cost.Ok (finite numbers, infinity)."
  },
  {
   "property": "C33",
   "status": "partial",
   "theorems": [
    "Sdsl.Props.C33_wt_int_partial",
    "Sdsl.Props.C33_select_missing",
    "Sdsl.Props.C33_wide_symbols_undefined",
    "Sdsl.Props.C33_empty_undefined"
   ],
   "note": "All non-empty sequences of symbols below 2^63, automatic or given level: access, rank, select, inverse_select, size, sigma; select throws for missing occurrences of symbols of the alphabet. Symbols from 2^63 on make the constructor undefined (C33_wide_symbols_undefined); rank(0,0) of the empty tree is undefined (C33_empty_undefined)."
  },
  {
   "property": "C34",
   "status": "partial",
   "theorems": [
    "Sdsl.Props.C34_wm_int",
    "Sdsl.Props.C34_rank_partial",
    "Sdsl.Props.C34_rank_wide_undefined",
    "Sdsl.Props.C34_empty_undefined"
   ],
   "note": "All non-empty sequences of 64-bit symbols, automatic or given level: access, select, inverse_select, size, sigma; rank for symbols below 2^63 (C34_rank_partial). rank evaluates 1ULL<<64 when a symbol is at least 2^63 (C34_rank_wide_undefined) and 1ULL<<(0u-1) on the empty tree (C34_empty_undefined)."
  },
  {
   "property": "C35",
   "status": "partial",
   "theorems": [
    "Sdsl.Props.C35_wt_pc_partial",
    "Sdsl.Props.C35_huff_partial",
    "Sdsl.Props.C35_blcd_partial",
    "Sdsl.Props.C35_dfs_order_wrong",
    "Sdsl.Props.C35_dfs_size_wrong",
    "Sdsl.Props.C35_path_undefined",
    "Sdsl.Props.C35_empty_undefined",
    "Sdsl.Props.C35_symbols_undefined"
   ],
   "note": "Any code-tree shape in BFS order: constructor, access, rank, select, inverse_select, interval_symbols, symbol_lte/gte, lex_count, lex_smaller_count, navigation, intersect, quantile; the Huffman and the balanced shape with depth bounds and optimality of the Huffman code. Partial: symbols below 2^56, non-empty sequences, BFS order; hutu_shape is not modelled. The code violates the claim for DFS order, path of absent symbols, the empty byte tree, and symbol 2^64-1 (C35_*_wrong, C35_*_undefined)."
  },
  {
   "property": "C36",
   "status": "partial",
   "theorems": [
    "Sdsl.Props.C36_backward_search_partial",
    "Sdsl.Props.C36_cyclic",
    "Sdsl.Props.C36_sentinel_wrong"
   ],
   "note": "csa_wt over wt_huff, wt_blcd, wt_int, wm_int; patterns with the sentinel inside are false of the code (C36_sentinel_wrong), exact characterisation for all patterns in C36_cyclic"
  },
  {
   "property": "C37",
   "status": "proved",
   "theorems": [
    "Sdsl.Props.C37_lf_psi"
   ],
   "note": "for csa_wt over the modelled wavelet trees and alphabets (text restrictions of the components: Fits)"
  },
  {
   "property": "C38",
   "status": "proved",
   "theorems": [
    "Sdsl.Props.C38_access",
    "Sdsl.Props.C38_sampled",
    "Sdsl.Props.C38_bwt_sampling_wrong"
   ],
   "note": "suffix-order and text-order sampling, every density; bwt_sampling is refuted (C38_bwt_sampling_wrong)"
  },
  {
   "property": "C39",
   "status": "proved",
   "theorems": [
    "Sdsl.Props.C39_kasai",
    "Sdsl.Props.C39_PHI",
    "Sdsl.Props.C39_semi_extern",
    "Sdsl.Props.C39_unique",
    "Sdsl.Props.C39_sentinel_needed"
   ],
   "note": "also construct_lcp_semi_extern_PHI; no read beyond the text: the result is defined"
  },
  {
   "property": "C40",
   "status": "proved",
   "theorems": [
    "Sdsl.Props.C40_sorted_stack",
    "Sdsl.Props.C40_sorted_int_stack"
   ],
   "note": "sorted_stack_support and sorted_int_stack, every allowed history, n below 2^63-64."
  },
  {
   "property": "C41",
   "status": "partial",
   "theorems": [
    "Sdsl.Props.C41_sorted_multi_stack_partial",
    "Sdsl.Props.C41_returned_flags_partial",
    "Sdsl.Props.C41_dup_out_of_bounds"
   ],
   "note": "Every history during which the stack holds at most 64*(n/64+1) entries. The code has no room for more duplicates: C41_dup_out_of_bounds refutes the full claim for every n."
  },
  {
   "property": "C42",
   "status": "partial",
   "theorems": [
    "Sdsl.Props.C42_membership",
    "Sdsl.Props.C42_next_prev_partial",
    "Sdsl.Props.C42_defined_answers_partial",
    "Sdsl.Props.C42_small",
    "Sdsl.Props.C42_shift_undefined"
   ],
   "note": "Membership in full. next/prev in full when an out-of-range shift yields an unspecified word (it is then ignored); under strict C++ every answer reached without undefined behaviour is right, and dictionaries of up to 63 positions are covered completely. C42_shift_undefined shows that the shifts do occur."
  },
  {
   "property": "C43",
   "status": "proved",
   "theorems": [
    "Sdsl.Props.C43_inverse",
    "Sdsl.Props.C43_steps"
   ],
   "note": "The constructor and operator[] for every permutation and every sampling parameter: the answer is the inverse, and for t_s >= 1 it takes at most t_s assignments to the cursor. The rank support over the marks is the mathematical rank."
  },
  {
   "property": "C44",
   "status": "partial",
   "theorems": [
    "Sdsl.Props.C44_new_file",
    "Sdsl.Props.C44_existing_file",
    "Sdsl.Props.C44_arbitrary_padding_partial",
    "Sdsl.Props.C44_file_loads",
    "Sdsl.Props.C44_sessions",
    "Sdsl.Props.C44_plain_new",
    "Sdsl.Props.C44_plain_existing",
    "Sdsl.Props.C44_stale_padding"
   ],
   "note": "All histories on new files, on files with zero padding (in particular all files written by this class), across sessions, and on plain files; the closed file is byte for byte the serialisation of the list. For files with non-zero padding only histories without gaps; with gaps the claim is false (C44_stale_padding). I/O errors, move and swap are not modelled."
  },
  {
   "property": "C45",
   "status": "partial",
   "theorems": [
    "Sdsl.Props.C45_uint128_arithmetic",
    "Sdsl.Props.C45_uint128_shift",
    "Sdsl.Props.C45_uint128_compare",
    "Sdsl.Props.C45_uint128_bits",
    "Sdsl.Props.C45_uint256_class",
    "Sdsl.Props.C45_uint256_native_partial",
    "Sdsl.Props.C45_native_shift_zero",
    "Sdsl.Props.C45_uint128_print"
   ],
   "note": "uint128_t (class) completely, uint256_t over the class completely. Over the compiler's 128-bit type everything except x << 0, which is undefined (C45_native_shift_zero)."
  },
  {
   "property": "C46",
   "status": "partial",
   "theorems": [
    "Sdsl.Props.C46_rmq_min_partial",
    "Sdsl.Props.C46_rmq_max_partial",
    "Sdsl.Props.C46_two_elements"
   ],
   "note": "Leftmost minimum (maximum) for all containers and ranges, except containers of exactly two elements in the wrong order, for which the constructor writes into a missing table (C46_two_elements)."
  },
  {
   "property": "C47",
   "status": "proved",
   "theorems": [
    "Sdsl.Props.C47_navigation_fits",
    "Sdsl.Props.C47_navigation",
    "Sdsl.Props.C47_ids",
    "Sdsl.Props.C47_unary_nodes_overflow"
   ],
   "note": "Full navigation interface on all suffix-tree shaped trees (and all trees that fit the reserved space). C47_unary_nodes_overflow shows that the shape is needed. The bit vector and select supports enter by their contracts (C21-C25)."
  },
  {
   "property": "C48",
   "status": "proved",
   "theorems": [
    "Sdsl.Props.C48_match_open",
    "Sdsl.Props.C48_match_close",
    "Sdsl.Props.C48_near_find_close",
    "Sdsl.Props.C48_near_find_open",
    "Sdsl.Props.C48_near_enclose",
    "Sdsl.Props.C48_near_enclose_none",
    "Sdsl.Props.C48_near_find_closing",
    "Sdsl.Props.C48_near_find_opening",
    "Sdsl.Props.C48_near_fwd_excess",
    "Sdsl.Props.C48_near_bwd_excess_partial",
    "Sdsl.Props.C48_near_rmq",
    "Sdsl.Props.C48_near_rmq_open",
    "Sdsl.Props.C48_near_fwd_excess_out_of_table",
    "Sdsl.Props.C48_near_bwd_excess_unaligned"
   ],
   "note": "Exact results of near_find_close, near_find_open, near_enclose (and near_find_closing, near_find_opening, near_fwd_excess, near_rmq, near_rmq_open) for every sequence, position and block size, against an independent definition of matching and enclosing pairs; existence and uniqueness of matches in balanced sequences. near_bwd_excess, not named in the claim, is only right for multiples of 8 (C48_near_bwd_excess_partial, witness C48_near_bwd_excess_unaligned)."
  },
  {
   "property": "C49",
   "status": "partial",
   "theorems": [
    "Sdsl.Props.C49_disjoint_partial",
    "Sdsl.Props.C49_tiling_partial",
    "Sdsl.Props.C49_alloc",
    "Sdsl.Props.C49_free",
    "Sdsl.Props.C49_realloc",
    "Sdsl.Props.C49_realloc_shrink",
    "Sdsl.Props.C49_write",
    "Sdsl.Props.C49_odd_request_overlaps_footer",
    "Sdsl.Props.C49_realloc_overlapping_copy",
    "Sdsl.Props.C49_realloc_reads_behind_arena"
   ],
   "note": "Proved for all histories with requests n % 8 != 1 (library requests are multiples of 8) in which realloc's memcpy is defined; negations proved for n % 8 = 1 and for the copy of realloc."
  },
  {
   "property": "C50",
   "status": "partial",
   "theorems": [
    "Sdsl.Props.C50_histories_partial",
    "Sdsl.Props.C50_histories_without_rename",
    "Sdsl.Props.C50_rename",
    "Sdsl.Props.C50_rename_self",
    "Sdsl.Props.C50_rename_missing",
    "Sdsl.Props.C50_names"
   ],
   "note": "All histories in which rename moves an existing file to another name, and all histories without rename. The other renames contradict the claim: C50_rename_self, C50_rename_missing."
  },
  {
   "property": "C51",
   "status": "proved",
   "theorems": [
    "Sdsl.Props.C51_begin_end",
    "Sdsl.Props.C51_moves",
    "Sdsl.Props.C51_compare",
    "Sdsl.Props.C51_deref"
   ],
   "note": ""
  },
  {
   "property": "C52",
   "status": "proved",
   "theorems": [
    "Sdsl.Props.C52_cnt_one_bits",
    "Sdsl.Props.C52_cnt_onezero_bits",
    "Sdsl.Props.C52_cnt_zeroone_bits"
   ],
   "note": ""
  },
  {
   "property": "C53",
   "status": "proved",
   "theorems": [
    "Sdsl.Props.C53_copy",
    "Sdsl.Props.C53_bitwise"
   ],
   "note": ""
  },
  {
   "property": "C54",
   "status": "partial",
   "theorems": [
    "Sdsl.Props.C54_lex_partial",
    "Sdsl.Props.C54_range_search_partial",
    "Sdsl.Props.C54_range_search_beyond_alphabet"
   ],
   "note": "Same sequences as C33. range_search_2d for a lower value bound inside the alphabet; a value interval starting at 2^max_level reports wrong points (C54_range_search_beyond_alphabet)."
  },
  {
   "property": "C55",
   "status": "partial",
   "theorems": [
    "Sdsl.Props.C55_wt_int_partial",
    "Sdsl.Props.C55_wm_int_partial",
    "Sdsl.Props.C55_wm_int_order_partial",
    "Sdsl.Props.C55_intersect_undefined",
    "Sdsl.Props.C55_range_search_beyond_alphabet",
    "Sdsl.Props.C55_symbol_gte_undefined"
   ],
   "note": "All non-empty sequences: node interface, intersect, quantile_freq, interval_symbols for all 64-bit symbols on wm_int and symbols below 2^63 on wt_int; symbol_lte, symbol_gte, restricted_unique_range_values and wm_int::range_search_2d for symbols below 2^63 (undefined shift otherwise, C55_symbol_gte_undefined). intersect with a threshold above the number of ranges is undefined (C55_intersect_undefined); range_search_2d reports wrong points for a value interval starting at 2^max_level (C55_range_search_beyond_alphabet)."
  },
  {
   "property": "C56",
   "status": "partial",
   "theorems": [
    "Sdsl.Props.C56_write_stream",
    "Sdsl.Props.C56_update_stream",
    "Sdsl.Props.C56_read_stream",
    "Sdsl.Props.C56_open_missing",
    "Sdsl.Props.C56_two_streams",
    "Sdsl.Props.C56_append_overwrites",
    "Sdsl.Props.C56_seekp_cur_uses_get_position",
    "Sdsl.Props.C56_seekp_cur_dangling",
    "Sdsl.Props.C56_seekg_outside_ignored"
   ],
   "note": "All histories on one stream with absolute, begin- and end-relative seeks (input also current-relative), and all interleavings on a writer/reader pair. False of the code: append mode, seekp relative to the current position, rejection of positions behind the end (negation theorems)."
  },
  {
   "property": "C57",
   "status": "partial",
   "theorems": [
    "Sdsl.Props.C57_inverse_access",
    "Sdsl.Props.C57_locate_partial",
    "Sdsl.Props.C57_bwt",
    "Sdsl.Props.C57_construct_isa"
   ],
   "note": "locate restricted like C36; everything else for all arguments"
  },
  {
   "property": "C58",
   "status": "proved",
   "theorems": [
    "Sdsl.Props.C58_alphabets",
    "Sdsl.Props.C58_largest_symbol_undefined"
   ],
   "note": "int_alphabet for symbols below 2^64-1; refuted for 2^64-1"
  },
  {
   "property": "C59",
   "status": "partial",
   "theorems": [
    "Sdsl.Props.C59_construct",
    "Sdsl.Props.C59_excess",
    "Sdsl.Props.C59_find_close",
    "Sdsl.Props.C59_find_close_close",
    "Sdsl.Props.C59_find_open",
    "Sdsl.Props.C59_find_open_open",
    "Sdsl.Props.C59_enclose",
    "Sdsl.Props.C59_enclose_none",
    "Sdsl.Props.C59_level_anc_partial",
    "Sdsl.Props.C59_level_anc_none",
    "Sdsl.Props.C59_rmq",
    "Sdsl.Props.C59_rmq_open",
    "Sdsl.Props.C59_rr_enclose",
    "Sdsl.Props.C59_double_enclose",
    "Sdsl.Props.C59_rr_enclose_naive",
    "Sdsl.Props.C59_level_anc_root",
    "Sdsl.Props.C59_find_open_degree_1",
    "Sdsl.Props.C59_find_open_unaligned",
    "Sdsl.Props.C59_level_anc_closing"
   ],
   "note": "Construction, find_close and rmq for all block sizes; find_open, enclose, rmq_open, rr_enclose (also naive) and double_enclose for t_sml_blk divisible by 8 and t_med_deg >= 2 (false otherwise, negations proved); level_anc for opening parentheses except level_anc(0,0), where it is false (proved)."
  },
  {
   "property": "C60",
   "status": "proved",
   "theorems": [
    "Sdsl.Props.C60_unique",
    "Sdsl.Props.C60_plain",
    "Sdsl.Props.C60_succinct",
    "Sdsl.Props.C60_buffer",
    "Sdsl.Props.C60_first_child",
    "Sdsl.Props.C60_buffer_max_wrong",
    "Sdsl.Props.C60_first_child_max_wrong"
   ],
   "note": "all four constructions; for int_vector_buffer with maxima the code is wrong and the negation is proved (C60_buffer_max_wrong)"
  },
  {
   "property": "C61",
   "status": "proved",
   "theorems": [
    "Sdsl.Props.C61_sct_min",
    "Sdsl.Props.C61_sct_max",
    "Sdsl.Props.C61_sada_min",
    "Sdsl.Props.C61_sada_max"
   ],
   "note": "both classes, minima and maxima"
  },
  {
   "property": "C62",
   "status": "proved",
   "theorems": [
    "Sdsl.Props.C62_construct",
    "Sdsl.Props.C62_root",
    "Sdsl.Props.C62_node",
    "Sdsl.Props.C62_unique",
    "Sdsl.Props.C62_select_leaf",
    "Sdsl.Props.C62_outer_leaves",
    "Sdsl.Props.C62_leaves",
    "Sdsl.Props.C62_parent",
    "Sdsl.Props.C62_children",
    "Sdsl.Props.C62_sibling",
    "Sdsl.Props.C62_lca",
    "Sdsl.Props.C62_depth",
    "Sdsl.Props.C62_node_depth"
   ],
   "note": "All functions for all LCP arrays; child, edge, sl and wl, which use the csa, are not part of this claim."
  },
  {
   "property": "C63",
   "status": "proved",
   "theorems": [
    "Sdsl.Props.C63_id",
    "Sdsl.Props.C63_inv_id",
    "Sdsl.Props.C63_leaf_id",
    "Sdsl.Props.C63_tlcp_idx"
   ],
   "note": "Bijection, inverse, and tlcp_idx, for all LCP arrays with a second zero."
  },
  {
   "property": "C64",
   "status": "proved",
   "theorems": [
    "Sdsl.Props.C64_cst",
    "Sdsl.Props.C64_construct",
    "Sdsl.Props.C64_csa",
    "Sdsl.Props.C64_nodes",
    "Sdsl.Props.C64_depth",
    "Sdsl.Props.C64_edge",
    "Sdsl.Props.C64_child",
    "Sdsl.Props.C64_child_leaf",
    "Sdsl.Props.C64_sl"
   ],
   "note": "For csa_wt with every alphabet and wavelet tree of the model, csa_sada (Elias codes: see C66) and csa_bitcompressed; rank and select supports by contract."
  },
  {
   "property": "C65",
   "status": "partial",
   "theorems": [
    "Sdsl.Props.C65_wl_partial",
    "Sdsl.Props.C65_wl_sl",
    "Sdsl.Props.C65_wl_sentinel_wrong"
   ],
   "note": "Proved for all symbols except the sentinel 0; for the sentinel the code is wrong (C65_wl_sentinel_wrong)."
  },
  {
   "property": "C66",
   "status": "partial",
   "theorems": [
    "Sdsl.Props.C66_construct",
    "Sdsl.Props.C66_csa_sada_partial",
    "Sdsl.Props.C66_reads_past_end"
   ],
   "note": "All queries, for all texts, coders and densities; for the Elias codes a word behind the codes must be readable (or 15 bits of the last word be free), without which the code reads past the end (C66_reads_past_end). Patterns without sentinel before their last symbol."
  },
  {
   "property": "C67",
   "status": "proved",
   "theorems": [
    "Sdsl.Props.C67_csa_bitcompressed"
   ],
   "note": "All queries, for all texts and alphabets."
  },
  {
   "property": "C68",
   "status": "proved",
   "theorems": [
    "Sdsl.Props.C68_bitcompressed",
    "Sdsl.Props.C68_byte",
    "Sdsl.Props.C68_wt",
    "Sdsl.Props.C68_sada"
   ],
   "note": "All arrays; lcp_support_sada for all texts. lcp_vlc and lcp_dac are thin wrappers of the vectors of other properties and not modelled."
  },
  {
   "property": "C69",
   "status": "proved",
   "theorems": [
    "Sdsl.Props.C69_tree",
    "Sdsl.Props.C69_tree_wt"
   ],
   "note": "For every tree of C62 and any exact representation of the stored values; instance lcp_wt."
  },
  {
   "property": "C70",
   "status": "partial",
   "theorems": [
    "Sdsl.Props.C70_tree2_partial",
    "Sdsl.Props.C70_tree2_last_partial",
    "Sdsl.Props.C70_wrong"
   ],
   "note": "The full claim is false (C70_wrong: a text of length 769 where the last value is 254 and the answer 0). Proved whenever the values of at least 254 left at the end have irreducible copies only if the first copy is, in particular if the last LCP value is below 254."
  },
  {
   "property": "C71",
   "status": "proved",
   "theorems": [
    "Sdsl.Props.C71_wt_rlmn",
    "Sdsl.Props.C71_any_inner",
    "Sdsl.Props.C71_empty"
   ],
   "note": "Proved for all sequences and all modelled inner trees (also for any inner tree that answers correctly, C71_any_inner), and for the empty sequence."
  },
  {
   "property": "C72",
   "status": "proved",
   "theorems": [
    "Sdsl.Props.C72_wt_ap",
    "Sdsl.Props.C72_empty"
   ],
   "note": "Proved for all sequences that fit the inner trees, and for the empty sequence. The length bound for a byte inner tree for offsets (fewer than 256 symbols) is needed: its file has 8 bits."
  },
  {
   "property": "C73",
   "status": "partial",
   "theorems": [
    "Sdsl.Props.C73_dfs_partial",
    "Sdsl.Props.C73_dfs_short_partial",
    "Sdsl.Props.C73_dfs_subtree",
    "Sdsl.Props.C73_dfs_at_root",
    "Sdsl.Props.C73_single_node_twice",
    "Sdsl.Props.C73_before_irrefl"
   ],
   "note": "Proved for trees with at least two leaves and depth below 2^32 (always true for at most 2^32 leaves), and for the subtrees of all nodes other than the root without a condition. False for the tree with one node, whose root is visited twice (C73_single_node_twice)."
  },
  {
   "property": "C74",
   "status": "proved",
   "theorems": [
    "Sdsl.Props.C74_bottom_up",
    "Sdsl.Props.C74_breadth_first",
    "Sdsl.Props.C74_before_irrefl"
   ],
   "note": "Bottom-up and breadth-first traversal, for all trees."
  },
  {
   "property": "C75",
   "status": "proved",
   "theorems": [
    "Sdsl.Props.C75_nnd"
   ],
   "note": "All densities, all bit vectors with size + density at most 2^64."
  },
  {
   "property": "C76",
   "status": "proved",
   "theorems": [
    "Sdsl.Props.C76_k2_tree_edges"
   ],
   "note": "Edges constructor and all queries. Numbers up to 2^53 (doubles exact), the height is an argument with the only condition that it covers the nodes."
  },
  {
   "property": "C77",
   "status": "partial",
   "theorems": [
    "Sdsl.Props.C77_k2_tree_matrix_partial",
    "Sdsl.Props.C77_matrix_total",
    "Sdsl.Props.C77_range_zero_matrix"
   ],
   "note": "range is false for matrices without ones (C77_range_zero_matrix): it reads an empty bit vector. Everything else proved."
  },
  {
   "property": "C78",
   "status": "proved",
   "theorems": [
    "Sdsl.Props.C78_inverse",
    "Sdsl.Props.C78_inverse_any"
   ],
   "note": "inv_multi_perm_support for all vectors of permutations; at most t_s steps."
  },
  {
   "property": "C79",
   "status": "proved",
   "theorems": [
    "Sdsl.Props.C79_wt_gmr_rs"
   ],
   "note": "wt_gmr_rs: constructor and all queries, number of symbols included."
  },
  {
   "property": "C80",
   "status": "proved",
   "theorems": [
    "Sdsl.Props.C80_wt_gmr",
    "Sdsl.Props.C80_agree"
   ],
   "note": "wt_gmr: constructor and all queries, number of symbols included; C80_agree compares both structures."
  },
  {
   "property": "C81",
   "status": "proved",
   "theorems": [
    "Sdsl.Props.C81_hyb_vector",
    "Sdsl.Props.C81_space",
    "Sdsl.Props.C81_straddling_superblock"
   ],
   "note": "hyb_vector and rank_support_hyb; wrong rank for a rate that does not divide 2^23 is proved separately"
  },
  {
   "property": "C82",
   "status": "proved",
   "theorems": [
    "Sdsl.Props.C82_construct",
    "Sdsl.Props.C82_balanced",
    "Sdsl.Props.C82_position",
    "Sdsl.Props.C82_node",
    "Sdsl.Props.C82_order",
    "Sdsl.Props.C82_nodes"
   ],
   "note": "Construction succeeds for every LCP array, balanced, one node per opening parenthesis and conversely, preorder, number of nodes."
  },
  {
   "property": "C83",
   "status": "partial",
   "theorems": [
    "Sdsl.Props.C83_root",
    "Sdsl.Props.C83_is_leaf",
    "Sdsl.Props.C83_bounds",
    "Sdsl.Props.C83_select_leaf",
    "Sdsl.Props.C83_outer_leaves",
    "Sdsl.Props.C83_leaves",
    "Sdsl.Props.C83_parent",
    "Sdsl.Props.C83_children",
    "Sdsl.Props.C83_sibling",
    "Sdsl.Props.C83_lca_partial",
    "Sdsl.Props.C83_lca_nested",
    "Sdsl.Props.C83_node",
    "Sdsl.Props.C83_depth",
    "Sdsl.Props.C83_node_depth",
    "Sdsl.Props.C83_lca_refuted"
   ],
   "note": "All navigation functions proved; lca is wrong for an ancestor other than the root and a descendant that is not its child (C83_lca_nested, C83_lca_refuted), proved for all other pairs (C83_lca_partial)."
  },
  {
   "property": "C84",
   "status": "proved",
   "theorems": [
    "Sdsl.Props.C84_id",
    "Sdsl.Props.C84_inv_id",
    "Sdsl.Props.C84_id_order",
    "Sdsl.Props.C84_tlcp_idx",
    "Sdsl.Props.C84_tlcp_node"
   ],
   "note": "id and inv_id are inverse bijections; tlcp_idx numbers the inner nodes in postorder."
  },
  {
   "property": "C85",
   "status": "partial",
   "theorems": [
    "Sdsl.Props.C85_cst",
    "Sdsl.Props.C85_construct",
    "Sdsl.Props.C85_depth",
    "Sdsl.Props.C85_edge",
    "Sdsl.Props.C85_child",
    "Sdsl.Props.C85_child_leaf",
    "Sdsl.Props.C85_sl_partial",
    "Sdsl.Props.C85_sl_n",
    "Sdsl.Props.C85_wl_partial",
    "Sdsl.Props.C85_sn",
    "Sdsl.Props.C85_sl_sentinel_wrong",
    "Sdsl.Props.C85_wl_sl",
    "Sdsl.Props.C85_wl_sentinel_wrong"
   ],
   "note": "Proved except sl of the leaf of the sentinel (C85_sl_sentinel_wrong) and wl for the sentinel (C85_wl_sentinel_wrong), where the code is wrong."
  },
  {
   "property": "C86",
   "status": "partial",
   "theorems": [
    "Sdsl.Props.C86_select_partial",
    "Sdsl.Props.C86_agrees",
    "Sdsl.Props.C86_long_vectors_wrong",
    "Sdsl.Props.C86_long_vectors_exist",
    "Sdsl.Props.C86_construct"
   ],
   "note": "Proved for less than 2^58 bits, or less than 2^60 bits with four ones; for 2^58 bits and more with at most one one the constructor divides by zero (C86_long_vectors_wrong)."
  },
  {
   "property": "C87",
   "status": "partial",
   "theorems": [
    "Sdsl.Props.C87_backward_partial",
    "Sdsl.Props.C87_forward_partial",
    "Sdsl.Props.C87_start",
    "Sdsl.Props.C87_large_symbols_wrong",
    "Sdsl.Props.C87_sentinel_wrong"
   ],
   "note": "Backward and forward extension, for csa_wt over wt_blcd and wt_int; patterns of non-zero symbols below 256. Refuted for larger symbols (cast to a byte) and for patterns with the sentinel."
  },
  {
   "property": "C88",
   "status": "partial",
   "theorems": [
    "Sdsl.Props.C88_csa_wt_partial",
    "Sdsl.Props.C88_csa_sada_partial",
    "Sdsl.Props.C88_csa_bitcompressed_partial",
    "Sdsl.Props.C88_sentinel_wrong"
   ],
   "note": "csa_wt, csa_sada, csa_bitcompressed; patterns without the sentinel. Refuted for patterns with the sentinel, which are never found."
  },
  {
   "property": "C89",
   "status": "partial",
   "theorems": [
    "Sdsl.Props.C89_search_sct3",
    "Sdsl.Props.C89_start_sct3",
    "Sdsl.Props.C89_search_sada_partial",
    "Sdsl.Props.C89_start_sada",
    "Sdsl.Props.C89_extract_sct3",
    "Sdsl.Props.C89_extract_sada",
    "Sdsl.Props.C89_extract_to_undefined",
    "Sdsl.Props.C89_sada_one_wrong"
   ],
   "note": "forward_search on cst_sct3 for all texts and patterns; on cst_sada for texts longer than the sentinel (refuted for the text 0); extract(cst, v) for all nodes but the root of a one-symbol text. extract(cst, v, text) is shown to be undefined for every node but the root."
  },
  {
   "property": "C90",
   "status": "partial",
   "theorems": [
    "Sdsl.Props.C90_samples",
    "Sdsl.Props.C90_access",
    "Sdsl.Props.C90_neighbours",
    "Sdsl.Props.C90_inverse_csa_wt",
    "Sdsl.Props.C90_inverse_csa_sada_partial",
    "Sdsl.Props.C90_inverse_csa_sada_wrong",
    "Sdsl.Props.C90_inverse_csa_sada_witness"
   ],
   "note": "Samples, access, neighbours and csa_wt are proved in full; isa of csa_sada is proved from the first sample on and shown to be wrong in front of it (2^64 wrap-around)."
  },
  {
   "property": "C91",
   "status": "partial",
   "theorems": [
    "Sdsl.Props.C91_supports",
    "Sdsl.Props.C91_bit_vectors",
    "Sdsl.Props.C91_integer_vectors",
    "Sdsl.Props.C91_wavelet_trees",
    "Sdsl.Props.C91_suffix_arrays",
    "Sdsl.Props.C91_lcp_arrays",
    "Sdsl.Props.C91_parentheses",
    "Sdsl.Props.C91_suffix_trees",
    "Sdsl.Props.C91_k2",
    "Sdsl.Props.C91_null_vector_wrong"
   ],
   "note": "Round trip proved for the default configurations of all classes listed; false for rank_support_v5 in classes that load it without its vector (C91_null_vector_wrong). bp_support_gg and louds_tree are not modelled; that the objects built by the constructors meet the conditions on widths and block counts is proved for select_support_mcl (C92) only."
  },
  {
   "property": "C92",
   "status": "proved",
   "theorems": [
    "Sdsl.Props.C92_stored",
    "Sdsl.Props.C92_rank_v",
    "Sdsl.Props.C92_rank_v5",
    "Sdsl.Props.C92_select_mcl",
    "Sdsl.Props.C92_sd_vector",
    "Sdsl.Props.C92_rrr_vector",
    "Sdsl.Props.C92_hyb_vector",
    "Sdsl.Props.C92_bit_vector_il",
    "Sdsl.Props.C92_wt_int",
    "Sdsl.Props.C92_wm_int"
   ],
   "note": "For rank_support_v5 the position i = size() is left out, as in C19; bit_vector_il under the condition of C23, wt_int under that of C33. The objects are those whose vectors hold the elements that the constructor models of these properties compute."
  },
  {
   "property": "C93",
   "status": "proved",
   "theorems": [
    "Sdsl.Props.C93_fifo",
    "Sdsl.Props.C93_two_queues",
    "Sdsl.Props.C93_same_directory_wrong"
   ],
   "note": "C93_fifo and C93_two_queues for m_buffer_size = 10000; C93_same_directory_wrong is the stated negative part."
  },
  {
   "property": "C94",
   "status": "partial",
   "theorems": [
    "Sdsl.Props.C94_cache_partial",
    "Sdsl.Props.C94_answers_partial",
    "Sdsl.Props.C94_new_wrong"
   ],
   "note": "False for the request 2^64-1 on an entry that was not written (C94_new_wrong); C94_cache_partial and C94_answers_partial are for all other requests."
  },
  {
   "property": "C95",
   "status": "partial",
   "theorems": [
    "Sdsl.Props.C95_short_array_wrong",
    "Sdsl.Props.C95_division_by_zero_wrong"
   ],
   "note": "The property is false of the code: C95_division_by_zero_wrong and C95_short_array_wrong are refutations. That the array is right for other texts is not proved."
  },
  {
   "property": "C96",
   "status": "partial",
   "theorems": [
    "Sdsl.Props.C96_arith_partial",
    "Sdsl.Props.C96_smallest_wrong",
    "Sdsl.Props.C96_diff",
    "Sdsl.Props.C96_order",
    "Sdsl.Props.C96_loop"
   ],
   "note": "C96_diff, C96_order and C96_loop in full; arithmetic with all distances but -2^63, for which += and -= are undefined (C96_smallest_wrong)."
  },
  {
   "property": "C97",
   "status": "proved",
   "theorems": [
    "Sdsl.Props.C97_round_trip",
    "Sdsl.Props.C97_size",
    "Sdsl.Props.C97_foreign_bytes_wrong"
   ],
   "note": "C97_round_trip and C97_size in full for the coding; the header of the vector, whose functions do not exist, is not modelled. C97_foreign_bytes_wrong: other bytes can be undefined to decode."
  },
  {
   "property": "C98",
   "status": "partial",
   "theorems": [
    "Sdsl.Props.C98_powers",
    "Sdsl.Props.C98_depth_partial",
    "Sdsl.Props.C98_depth_wrong",
    "Sdsl.Props.C98_contained",
    "Sdsl.Props.C98_overlap"
   ],
   "note": "C98_powers, C98_contained and C98_overlap in full; get_t for coordinates below a power of k that is below 2^64, for others it is undefined (C98_depth_wrong)."
  },
  {
   "property": "C99",
   "status": "proved",
   "theorems": [
    "Sdsl.Props.C99_inverse",
    "Sdsl.Props.C99_cache",
    "Sdsl.Props.C99_twice"
   ],
   "note": "C99_inverse, C99_cache and C99_twice in full."
  }
 ]
}