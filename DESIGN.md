# Formal model of sdsl-lite: design

## Trusted base

* Lean 4.33.0 kernel. Axioms allowed in any theorem: `propext`, `Classical.choice`, `Quot.sound`.
  No `sorry`, `admit`, own axioms, `native_decide`, `bv_decide`.
* The faithfulness of the model: the C++ is read, not run. Every model definition cites file and lines in /repo.
* The specification definitions in `lean/Verif/Spec.lean`, which are short and independent of the model.

## Modelling conventions

* A 64-bit word is `BitVec 64`; arithmetic on it wraps exactly as `uint64_t`.
* A word array is `List (BitVec 64)` holding all allocated words, including the padding word.
* Undefined behaviour is a distinct outcome: model functions that can hit it return `Option`, `none` meaning
  undefined behaviour. Sources of `none`: load or store outside the array, shift amount >= word size,
  table look-up outside the table. Hence `f args = some r` says both "no undefined behaviour" and "result r".
* Indices and sizes are `Nat`. Excluded by this: wrap-around of `size_t` for containers of 2^64 bits or more,
  and allocation failure.
* Loops are structural recursion or recursion with a decreasing measure. Where fuel is used, the theorem shows
  that the fuel suffices.
* Template parameters that are containers or support structures are modelled as parameters; the theorem assumes
  only their API contract, and the contract is itself proved for the concrete structures of the library.
* Not modelled: exceptions from `new`, the file system and the C++ stream state (streams are byte lists),
  `structure_tree` output, copy/move of support pointers unless stated, performance.

* Higher-level structures that only create `int_vector`s and read and write elements are modelled over `Arr`
  (width and list of numbers); `Props/ArrBridge.lean` proves that the word-level vector behaves like that.
* Bit vectors with rank and select supports inside other structures are `List Bool` with the functions of `Bv.lean`
  (undefined outside the documented argument range); `Props/BvBridge.lean` proves that plain bit vectors with
  `rank_support_v` and `select_support_mcl`, and `bit_vector_il`, behave like that. `get_int`/`set_int` on such bit vectors: `BvInt.lean`, justified in the same place.

## Findings: claims that are false of the code

Each has a refutation theorem with a concrete witness and, where useful, a `_partial` theorem with the exact domain.

* C06 `bits::cnt32` miscounts (`C06_cnt32_wrong`).
* C13 `int_vector::operator==` ignores the width (`C13_eq_ignores_width`).
* C12 after growing from 60 to 64 bits there is no padding word, and shrinking leaves stale bits (`C12_padding_word_missing`).
* C15 `bit_compress` on a fixed-width vector destroys it (`C15_bit_compress_fixed_width`).
* C16 `set_to_value` shifts by 64 for width 64; the result is not used (`C16_set_to_value_shift64`).
* C17 `next_bit` sees stale padding bits (`C17_next_bit_stale`).
* C19, C20 `rank_support_v5::rank(size())` and `rank_support_scan::rank(size())` read the word behind the allocation
  when the vector of C12 is used (`C19_reads_past_end`, `C20_reads_past_end`).
* C23 the constructor of `bit_vector_il` reads word `size/64` of its argument, which that vector does not have
  (`C23_construction_reads_past_end`).
* C25 `sd_vector` from an empty range has no select supports, so `rank(0)` is undefined (`C25_empty_range`); position `2^64-1`
  makes the size wrap to 0 and the constructor write out of bounds (`C25_max_position`). Sorted ranges with repeated values
  are accepted although the parameters can wrap around (`C25_duplicates`).
* C26, C27 decoding the value 0 (encoded as 2^64) evaluates `1ULL<<64` (`C26_zero_undefined`). The result of the shift is
  parameter `sh` of the model: every theorem holds for every value it can have, and for sequences without 0 even if it traps.
* C26, C27 `decode_prefix_sum` looks at 16 bits at a time and reads behind the memory if the codes end there
  (`C27_prefix_sum_reads_past_end`); the theorems ask for 15 readable bits after the codes.
* C28 `fibonacci::encode` shifts by `64-j < 0` for numbers all of whose Fibonacci digits are above position 64
  (`C28_negative_shift`).
* C30 `enc_vector`: equal neighbours are decoded by `1ULL<<64` (`C30_equal_neighbours`); `operator[]` reads behind the code
  memory (`C30_reads_past_end`); with 32-bit containers decreasing values come back `2^32` too large (`C30_uint32_decrease`); with
  8- and 16-bit containers they make the constructor write out of bounds (`C30_uint8_decrease`).
* C31 `vlc_vector` rejects `2^32-1` in containers of 32-bit numbers although it could store it, and inherits the negative shift of the
  Fibonacci coder (`C31_rejects_and_shifts`).
* C41 `sorted_multi_stack_support`: its duplication bits have room for `64*((n>>6)+1)` entries only; one more duplicate writes out of bounds
  (`C41_dup_out_of_bounds`, for every `n`).
* C42 `nn_dict_dynamic::next` shifts a word by 64 and `prev` by a negative amount (`C42_shift_undefined`); the result is not used, so the answers are right on
  machines where the shift itself is harmless.
* C45 `uint256_t::operator<<(0)` evaluates `low >> 128`; with the compiler's 128-bit type (`MODE_TI`) this is undefined (`C45_native_shift_zero`).
* C46 `rmq_support_sparse_table` of a container of two elements whose first is not the optimum: `m_table` is empty but `m_table[0][0] = 1` is executed
  (`C46_two_elements`).
* C33 `wt_int` of a sequence with a symbol from `2^63` on: the automatic level is 64 and the constructor evaluates `1ULL << 64` (`C33_wide_symbols_undefined`); `rank(0, 0)` of the
  empty tree evaluates `1ULL << (0u - 1)` (`C33_empty_undefined`).
* C34 `wm_int::rank` of a sequence with a symbol from `2^63` on evaluates `1ULL << 64` for every argument (`C34_rank_wide_undefined`); `rank(0, 0)` of the empty tree evaluates
  `1ULL << (0u - 1)` (`C34_empty_undefined`). `symbol_gte` (and `symbol_lte`) of such a tree do so too (`C55_symbol_gte_undefined`).
* C55 `intersect` with a threshold above the number of ranges forms an iterator beyond the end of a vector (`C55_intersect_undefined`); `wm_int::range_search_2d` has the defect of
  C54 (`C55_range_search_beyond_alphabet`).
* C35 `wt_pc` with the nodes in DFS order (`byte_tree<true>`, `int_tree<true>`): the loop that stores the nodes swaps the children of some nodes, so `lex_count` of the balanced shape counts
  the wrong symbols (`C35_dfs_order_wrong`), and the size of a node is wrong (`C35_dfs_size_wrong`). `path(c)` shifts by 64 for a symbol that does not occur and for the only symbol of a sequence
  (`C35_path_undefined`). The arrays of an empty `byte_tree` are uninitialised and are read (`C35_empty_undefined`). A symbol `2^64 - 1` makes the constructor write behind the table of
  frequencies (`C35_symbols_undefined`).
* C44 `int_vector_buffer` opened on an existing file trusts the padding bits of the last word. `int_vector<> v(9, 31, 5)` stores ones there; after a write far behind the end the new
  elements in the old last byte read 31 instead of 0 (`C44_stale_padding`). Files with zero padding, and histories without gaps, are correct.
* C54 `wt_int::range_search_2d` clips the upper value bound to `2^max_level` instead of `2^max_level - 1`; a search for symbols from `2^max_level` on then reports the points with
  symbol `2^max_level - 1` (`C54_range_search_beyond_alphabet`).
- C49: the keys of the free set contain the free flag, so a request with `n % 8 = 1` gets a block that is one byte too small
  (`C49_odd_request_overlaps_footer`). The `memcpy` of `mm_realloc` copies the *new* size from the old block: it reads behind the
  block, possibly behind the arena (`C49_realloc_reads_behind_arena`), and its regions overlap if the new block follows the old one
  (`C49_realloc_overlapping_copy`).
- C50: `ram_fs::rename(x, x)` deletes the file; renaming a missing file reports success and leaves an empty target, also over an
  existing one (`C50_rename_self`, `C50_rename_missing`).
- C56: append mode overwrites from the start (`C56_append_overwrites`); `seekp(off, cur)` starts from the get position, after growth
  from a dangling pointer (`C56_seekp_cur_uses_get_position`, `C56_seekp_cur_dangling`); `seekg` behind the end neither moves nor
  fails (`C56_seekg_outside_ignored`). `osfstream::tellp` is declared but not defined.
- C47: the constructor of `louds_tree` reserves 4 bits per leaf; a tree with long unary paths needs more and is written behind the
  end of the vector (`C47_unary_nodes_overflow`). Suffix trees have no unary nodes, the property is stated for those.

- C36: `backward_search` treats the text as cyclic: a pattern with the sentinel 0 inside, which cannot occur, is found if it occurs across the end (`C36_sentinel_wrong`;
  `C36_cyclic` is the exact characterisation).
- C38: `_bwt_sampling` stores full suffix array values but multiplies them by the density on access (`C38_bwt_sampling_wrong`).
- C58: `int_alphabet` of a text with the symbol `2^64 - 1` writes outside of an empty bit vector (`C58_largest_symbol_undefined`).
- C48: `near_fwd_excess` and `near_bwd_excess` admit the index 16 into tables for the indices 0..15: for `rel = 8` at the start of a byte the read is out of bounds
  (`C48_near_fwd_excess_out_of_table`); negative `rel` are safe. `near_bwd_excess` is wrong for block sizes that are not multiples of 8 (`C48_near_bwd_excess_unaligned`). `near_enclose`
  looks at `block_size - 1` positions, not at `block_size` as documented.
- C60: the constructions from an `int_vector_buffer` with `minimum = false` push falling values on `sorted_multi_stack_support`, which is made for ascending ones; for 3,1,0,2 they write `((()()))` instead of `((())())` (`C60_buffer_max_wrong`, `C60_first_child_max_wrong`). All callers in the library use minima.
- C65: `cst_sct3::wl(v, 0)` with the sentinel returns the leaf of the suffix `0` whenever the text itself is below `v`, because the Burrows-Wheeler transform treats the text as a cycle; the documentation promises `root()`, as no suffix starts with `0` and more symbols (`C65_wl_sentinel_wrong`, text `1 1 0`, node with label `1`).
- C73: in the suffix tree with one node the root is a leaf, and the depth-first iterator visits it twice, although the documentation says that leaves are visited once (`C73_single_node_twice`, for every tree with one node). By reading only: if the tree is deeper than 2^32, `m_stack_size` wraps around and the cached ancestors are overwritten; the implicit copy constructor copies the pointer `m_stack_cache` and both destructors delete it.
- C66: the default `csa_sada<>` can read the word behind the memory of its codes: for the text `2 2 1 1 3 2 3 1 0`, `psi[8]` (and with it `isa[5]`, `text[5]`) does so, a consequence of C30 (`C66_reads_past_end`).
- C70: `construct_first_child_and_lf_lcp` (lcp_support_tree2.hpp:263-282) looks, for the values that are left on the stack at the end, only at the mark of the first of several equal values, while the main loop combines the marks of all of them. If a later copy is irreducible, its value is stored as derivable, and `operator[]` follows LF to a wrong row: for `4 z 1 4 z 2 5 z 3 0` with `z` = 254 times 6, the last LCP value is 254 and `lcp_support_tree2` returns 0 (`C70_wrong`, all trees and all densities that do not divide 254).
- C77: `k2_tree::range` of a tree built from a matrix without ones reads the empty vector `k_l` (`adj`, `neigh` and `reverse_neigh` test for it): `C77_range_zero_matrix`.
- C81: `hyb_vector` with a superblock rate that does not divide 2^23 and more than 2^31 bits: a superblock can begin in one hblock and end in the next; `rank` and `access0` then take the hblock of the block (hyb_vector.hpp:658-661, 382-384) but offsets relative to the hblock of the superblock (216-217). `C81_straddling_superblock` proves a wrong rank for rate 3 and 2^31 + 256 ones. `k_sblock_size` is 32 bits wide and wraps for rates from 2^24 on, so the comparison with `sblock_ones` fails (by reading).
- C83: `cst_sada::lca(v, w)` for an ancestor v (not the root) and a descendant w returns `parent(w)`, so it is wrong unless w is a child of v: `double_enclose` is documented for disjoint pairs only, and `cst_sct3::lca` treats the nested case separately. `C83_lca_nested` is the general behaviour, `C83_lca_refuted` a tree, `C83_lca_partial` the pairs for which the claim holds. `node`, `sl` and `wl` call it with leaves only and are not affected.
- C85: `cst_sada::sl` of the leaf of the sentinel returns the leaf of the whole text instead of the root, for every text with another symbol (`C85_sl_sentinel_wrong`); `cst_sct3::sl` handles the case. `wl(v, 0)` is wrong as in C65 (`C85_wl_sentinel_wrong`). If the text is only the sentinel, the root is a leaf and `depth` is 0 though its label has length 1.
- C86: `select_0_support_sd` computes `64*bs` with `bs = 2^wl` in 64 bits. For a vector of at least 2^58 bits with at most one one (an sd_vector of a few bytes) this is 0 and the constructor divides by zero (`C86_long_vectors_wrong`, `C86_long_vectors_exist`); `select_support_sd<0>` works for these vectors.
- C87: bidirectional search casts every symbol of the pattern to `csa_wt<>::char_type`, a byte, whatever the CSA: with integer alphabets symbols from 256 on are searched as their remainder modulo 256 (`C87_large_symbols_wrong`: the pattern 257 is not found in the text 257, and found in the text 1). Patterns with a 0 are matched across the end of the text (`C87_sentinel_wrong`), as for `backward_search` (C36).
- C88: `forward_search` treats the sentinel as a symbol that does not occur: a pattern that ends with 0 is not found although it occurs, and `backward_search` finds it (`C88_sentinel_wrong`).
- C89: `extract(cst, v, text)` (suffix_tree_algorithm.hpp:169-185) has no `return` behind the call for the CSA: undefined for every node but the root (`C89_extract_to_undefined`). On `cst_sada` of the text that is only the sentinel, `forward_search` does not find the pattern 0, because the depth of the only node is 0 (`C89_sada_one_wrong`).
- C90: `isa[i]` of a `csa_sada` with `fuzzy_isa_sampling_support` is wrong for every position in front of the first sample (csa_sampling_strategy.hpp:866-873 with suffix_array_helper.hpp:558-569): `sample_leq` wraps around to the last sample, but `isa_of_csa_psi` computes `i - position` without a correction, so that nearly 2^64 steps of Psi follow and the row of the suffix `(2^64 + i) mod n` results (`C90_inverse_csa_sada_wrong`: all positions but the last if the text is not longer than the density; `C90_inverse_csa_sada_witness`). `csa_wt` is correct, since `isa_of_csa_wt` adds `size()`.
- C91: `k2_tree` (k2_tree.hpp:601-602), `k2_treap` (k2_treap.hpp:387-388), `dac_vector_dp` (dac_vector.hpp:297-298), the succinct alphabets and the text order sampling load their rank support with a null pointer and set the vector afterwards; `rank_support_v5::load` asserts that the pointer is not null (rank_support_v5.hpp:153), so with this rank support they cannot be loaded when assertions are enabled (`C91_null_vector_wrong`). `rmq_support_sparse_table::load` leaves the old rows in an object that becomes empty; they are never read. `louds_tree::serialize` (190-191) does not compile; not modelled.
- C93: `buffered_char_queue::init(dir, c)` does not use `c` for the name of its file (construct_lcp_helper.cpp:52-53), so all queues of a process with the same directory write to one file, and opening it truncates it: with 20000 bytes in each of two queues the first one returns bytes of the second one (`C93_same_directory_wrong`). The class is not used in the library.
- C94: a new `fast_cache` answers the request 2^64-1 with `true` and an uninitialised number, since empty entries are marked with -1 (`C94_new_wrong`).
- C95: `construct_lcp_bwt_based` divides `space_in_bit_for_lcp` by the number of values that are not known yet when it writes them to the file (construct_lcp.cpp:822); this number is zero if the largest LCP value is `lcp_value_max-1` or `lcp_value_max-2`, for example for 62 or 63 equal symbols (`C95_division_by_zero_wrong`).
- C95: `insert_lcp_values` (construct_lcp_helper.cpp:30-41) does not write values that are not known yet; if these are the last ones the new file is shorter than the old one, and the next call takes its length from the file. For 260 equal symbols the array has 191 instead of 261 entries (`C95_short_array_wrong`).
- C96: `random_access_const_iterator::operator+=` and `operator-=` negate the distance if it is negative (iterators.hpp:93-94, 101-102), which is undefined for -2^63 (`C96_smallest_wrong`).
- C97: `int_vector_serialize_vbyte_wrapper` and `int_vector_load_vbyte_wrapper` call functions that do not exist (int_vector_io_wrappers.hpp:44, 83), found by reading. Ten bytes with the overflow bit, which the coding never writes, make `load` shift by 70, which is undefined (`C97_foreign_bytes_wrong`).
- C98: `k2_treap::get_t` (k2_treap.hpp:99) shifts by 64 for `k = 2` and every coordinate of at least 2^63, likewise for `k = 4`, 8 and 16 (from 2^62, 2^63 and 2^60), and for `k = 3` and the coordinate 2^64-1 runs over the end of the table (`C98_depth_wrong`). The check `res <= 64` in the constructor from buffers (line 195) does not prevent it: it evaluates the undefined shift before `res` is 65 (by reading).
- C59: `level_anc(0, 0)` returns `size()` instead of 0 (`C59_level_anc_root`); for closing parentheses it yields the parent, or 0 if there is none (`C59_level_anc_closing`).
  With `t_med_deg = 1`, `find_open` (and `enclose`) may return 0 for an answer in the first block, because `bwd_excess_in_med_block` takes "arrived at block 0" for "block 0 has no
  answer" (`C59_find_open_degree_1`); with `t_sml_blk` not a multiple of 8 they inherit the error of `near_bwd_excess` (`C59_find_open_unaligned`). The defaults 256 and 32 are right.
- By reading only (not expressible in the value model): `bwt_of_csa_wt::select` calls a member that `csa_wt` does not have; the move assignment of `csa_wt` does not re-attach the ISA
  samples to the moved SA samples; the move constructors of `succinct_byte_alphabet` and `int_alphabet` do not initialise all reference members.

## Plan per property

| id | modelled | proof method |
|----|----------|--------------|
| C01 | `bits::cnt`, both portable variants, table `lt_cnt` | byte-wise decomposition; finite table by kernel evaluation |
| C02 | `bits::lo`, `bits::hi`, tables | case split, finite tables |
| C03 | `bits::_sel` and SSE variant of `sel` | byte prefix sums |
| C04 | `read_int`, `write_int` | bit extensionality |
| C05 | `*_and_move`, `move_left`, `move_right` | induction over field list |
| C06 | `cnt32` | false of the code: negation with witness and exact correctness domain |
| C07 | `read_unary*` | induction over words |
| C08 | `bits::next`, `bits::prev` | induction over words |
| C09 | `cnt11`, `sel11`, `hi11` | 2-bit block induction |
| C10 | `rev`, `map10`, `map01`, `cnt10`, `cnt01` | bit extensionality |
| C11 | `int_vector` get/set/memory layout | refinement to list, induction over history |
| C12 | `resize`, `bit_resize`, `memory_manager::resize` | bit extensionality |
| C13 | `operator==`, `operator<` | element-wise; `==` ignores width: negation + partial |
| C14 | `serialize`, `load` | round trip over byte lists |
| C15 | `bit_compress`, `expand_width` | loop invariant for in-place overlap |
| C16 | `set_to_value`, `set_to_id`, `flip` | loop invariants |
| C17 | `next_bit`, `prev_bit` | induction over words |
| C18-C20 | rank supports, all six pattern traits | loop invariants for construction, then query |
| C21-C22 | select supports | loop invariants |
| C23 | `bit_vector_il` | construction invariant |
| C24 | generic `rrr_vector` with supports, `binomial` codec; the wide `number_type` is `Nat` modulo its size, `trait::hi` and `trait::popcount` are mathematical. Specialisation `rrr_vector<15>`: the static tables are built by the modelled loops, `std::next_permutation` is modelled by its specification, the byte and word views of the 4-bit array `m_bt` are computed from the entries (little endian), the word-parallel sum of nibbles is computed on words | combinatorial number system bijection, two-pass construction invariant; for 15: the enumeration by `next_permutation` lists every block of a class once, nibble sums of the word loop equal the sum of the types |
| C25 | `sd_vector`, builder, rank and select supports; select on the high part by contract | high/low split, downward scan invariants |
| C26, C27 | Elias gamma and delta: encode, decode, tables, `decode_prefix_sum`, vector versions | round trip by induction over the sequence; tables against the code definition |
| C28 | Fibonacci coder: encode, decode, tables, `decode_prefix_sum`, vector versions; not the unused `decode1` | Zeckendorf representation |
| C29 | comma code, widths 2..30 (31 and 32 overflow `int` in a constant expression) | base digits |
| C30 | `enc_vector`: both constructors, `operator[]`, `sample`, `get_inter_sampled_values`; the C++ promotions of 8/16/32-bit differences are modelled | coder contract (proved for the four coders), invariants of the three passes |
| C31 | `vlc_vector` (dynamic width): constructors, `operator[]`, exception | same contract |
| C32 | `dac_vector<t_b>`: constructor, `operator[]`, `size`; `dac_vector_dp`: choice of the layout (with the arithmetic of the `double` costs abstracted to `Cost.Ok`), `construct_level`, `operator[]`, the size recomputed by `load`; the rank support and `bit_compress` by their contracts (C18-C25, C15); not iterators and serialization | position of block `(level, index)` is injective; levels by induction |
| C33 | `wt_int`: semi-external constructor (word-wise output and temporary files as lists), `operator[]`, `rank`, `select`, `inverse_select`; the bit vector with its rank and select supports by their contracts (C18-C25); not iterators, copies, serialization | the sequence of each level is the stable sort of the input by the top bits; every query position is the number of symbols of the current node before a fixed index of the sequence |
| C34 | `wm_int`: constructor, `operator[]`, `rank`, `select`, `inverse_select`; the bit vector by its contract; not iterators, copies, serialization | the sequence of each level is the stable partition by the bits above it; each query position is the start of the node plus the number of its symbols before |
| C35 | `wt_pc`: constructor, `operator[]`, `rank`, `select`, `inverse_select`, `interval_symbols`, `lex_count`, `lex_smaller_count`, node interface, `path`; `byte_tree` and `int_tree` (constructor, `symbol_gte`, `symbol_lte`); `huff_shape`, `balanced_shape`; the generic algorithms on it. The bit vector by its contract; the priority queue by "take the smallest pair"; not `hutu_shape`, iterators, copies, serialization | the nodes in BFS order are the subtrees of a code tree; each node holds the bits of its symbols; Huffman by the exchange argument, the depth by Fibonacci numbers |
| C54 | `wt_int::lex_count`, `lex_smaller_count`, `interval_symbols`, `range_search_2d` | as C33; the vectors `offsets` and `ones_before_os` of the 2d search are represented by the entries of the current path |
| C55 | `wt_algorithm.hpp`: `intersect`, `quantile_freq`, `interval_symbols`, `_symbol_lte`, `_symbol_gte`, `restricted_unique_range_values` over an abstract node interface; the node interfaces of `wt_int` and `wm_int`; `wm_int::range_search_2d`. The lazily evaluated `seq(v)` is modelled by its elements | any node interface that splits the symbols of a node between its children (`Refines`) makes the algorithms correct; both trees have such an interface (`Fixed`) |
| C36 | `backward_search` (one symbol, pattern), `count`, on `csa_wt` over the modelled `wt_huff`, `wt_blcd`, `wt_int`, `wm_int`, `wt_rlmn`, `wt_ap` (the last two over any of these as inner trees, also nested) and the three alphabet strategies, built by `construct_bwt` from the text and its suffix array (the suffix array itself is an argument, `IsSA`; qsufsort and divsufsort are not modelled) | cyclic matches as invariant of the interval, LF mapping theorem |
| C37 | `lf`, `psi`, `first_row_symbol` (linear and binary search) | sorted-suffix combinatorics |
| C38 | `_sa_order_sampling`, `_text_order_sampling`, `_bwt_sampling`, `csa_wt::operator[]`; `_fuzzy_sa_sampling`: see C90 | loop invariants; distance to a sampled suffix as measure |
| C57 | `_isa_sampling`, `_text_order_isa_sampling_support`, `isa`, `text`, `extract`, `locate`, `rank_bwt`, `select_bwt`, `construct_isa`, `construct_bwt`; the cache files are lists | iterated LF |
| C58 | `byte_alphabet`, `succinct_byte_alphabet`, `int_alphabet`: constructors and the access functions; not copying, moving and serialization | compaction invariant over the symbols seen |
| C59 | `bp_support_sada`: constructor with both vectors, `excess`, `fwd_excess`, `bwd_excess` with the scans of medium blocks and the way up and down the tree, `find_close`, `find_open`, `enclose`, `level_anc`, `median_block_rmq`, `rmq`, `rmq_open`, `rr_enclose`, `rr_enclose_naive`, `double_enclose`. Not modelled: caches (`USE_CACHE`), `select`, `preceding_closing_parentheses`, serialization; the rank support by its contract | the vectors hold the minimum and maximum excess of every block and node (heap indices by level); searches are correct by discrete continuity of the excess; `rmq` by an invariant "the minimum so far is attained in this region and strictly not after it" |
| C60 | `construct_supercartesian_tree_bp`, both overloads of `construct_supercartesian_tree_bp_succinct`, `construct_supercartesian_tree_bp_succinct_and_first_child`, with the models of `sorted_stack_support` and `sorted_multi_stack_support` (C40, C41). An `int_vector_buffer` is the list of its values | every loop iteration is a step of one abstract machine that writes a parenthesis per step; its stack holds exactly the unclosed parentheses; `C60_unique` shows that the specification leaves no freedom. Maxima from a buffer are wrong, see Findings | 
| C61 | `rmq_succinct_sct` and `rmq_succinct_sada`: constructors (with C60 and `bp_support_sada`, C59), `construct_bp_of_extended_cartesian_tree` with its explicit stack, `operator()`. Rank and select supports (`1` and `10`) by their contracts; copy, swap and serialization are not modelled | the leftmost best position has the pair that `rr_enclose` finds, by C60; the extended tree by induction over the explicit stack: the leaf of the best position has the last minimal excess |
| C62 | `cst_sct3`: constructor, `root`, `is_leaf`, `select_leaf`, `size`, `leftmost_leaf`, `rightmost_leaf`, `parent`, `sibling`, `select_child`, `degree`, `lca`, `depth`, `node_depth`, `node` and the private `first_l_index`, `select_l_index`, `psv`, `nsv`, `rmq` with the scans over words of the first-child bits. Parentheses with C59, construction with C60; rank and select by their contracts; `m_csa.sigma` is a number, the values of `m_lcp` are a list, `m_csa[.]` is a function. `child`, `edge`, `sl`, `wl` see C64, C65; iterators, copy, serialization not modelled | every index has a pair of parentheses; its position relative to others is decided by comparisons of LCP values (C60), from which each function is derived. The specification is in SpecCst.lean and mentions intervals of the LCP array only |
| C63 | `id`, `inv_id`, `nodes`, `tlcp_idx` of `cst_sct3` | the first-child ones are in bijection with the inner nodes; the root owns the bit of the first position. A zero behind the first position is needed (true for every text with a sentinel), otherwise `nodes()` would be one too large |
| C64 | `child`, `edge`, `sl` of `cst_sct3`, `get_char_pos`, on the models of `csa_wt` (C36 - C38, C57), `csa_sada` (C66) and `csa_bitcompressed` (C67) (`psi[]`, `operator[]`, `isa[]`, `bwt.rank`, alphabet). `char_pos` is part of the result of `child`; loops have fuel that is shown to suffice | SpecSufTree.lean defines occurrences and labels with prefixes of suffixes only; SufTree.lean relates them to intervals of the LCP array, so that C62 applies; `TreeOf` says how suffix array, samples and tree are constructed, `C64_construct` and `C64_csa` that this succeeds for every text |
| C65 | `wl` of `cst_sct3` | backward search step on the interval of the node; the resulting interval is a node since it is the interval of a string. Wrong for the sentinel, see Findings |
| C66 | `csa_sada`: the constructor (Psi from the BWT, its encoding with C30), `operator[]`, `rank_bwt` with its buffer, `select_bwt`; `psi[]`, `lf[]`, `isa[]`, `bwt[]`, `text[]`, `extract`, `backward_search`, `count`, `locate` for Psi-based CSAs. Alphabets (C37) and samples (C38, C57) as for `csa_wt`. The content of the buffer is arbitrary; caches (`USE_CSA_CACHE`), copy, serialization not modelled; `operator[]` has fuel that is shown to suffice | Psi restricted to the rows of a symbol increases, and `Psi[k] < i` iff `k` is below `C[c]` plus the rank; the searches keep that border between their bounds. `C66_construct`: every text has a `csa_sada`; neighbours of Psi differ and (for the Fibonacci code) differ by less than 35521738396875, so that the codes are defined |
| C67 | `csa_bitcompressed`: constructor, `operator[]`, `psi`, `rank_bwt`, `select_bwt` and the functions shared with C66 | as C66; the alphabet of the text is that of the BWT, a permutation |
| C68 | The constructors and `operator[]` of `lcp_bitcompressed`, `lcp_byte`, `lcp_wt` (its wavelet tree as in C36), `lcp_support_sada` (bit vector and select by contract, C21). The arrays come from `int_vector_buffer`s, modelled as lists; `lcp_vlc` and `lcp_dac` are thin wrappers of C31 and C32 and not modelled separately | invariants of the loops; lower_bound by bisection; permuted LCP values plus twice their index increase |
| C69 | `construct_first_child_lcp` with its succinct stack (C40) and `operator[]` of `lcp_support_tree`, on the model of `cst_sct3` (C62, C63). The file between construction and loading is a list | the loop follows the machine that writes the parentheses (C60), so that the k-th value is that of the k-th first child |
| C70 | `construct_first_child_and_lf_lcp` and `operator[]` of `lcp_support_tree2`, in the same way; `lf` is any function with the meaning proved in C36 and C66; the number of jumps is bounded by fuel, which is shown to suffice. Partial: the full claim is false, see Findings | the same machine with the marks; LCP values grow by one along LF where the BWT repeats |
| C71 | `wt_rlmn`: constructor for byte and integer alphabets, `size`, `operator[]`, `rank`, `inverse_select`, `select` over any modelled wavelet tree. The bit vectors `bl`, `bf` with their rank and select supports are used by contract (C21 - C25). Serialization, copy and iterators not modelled | the runs as positions where the symbol changes; `bf` is the image of `bl` under the map to `C[c]` + rank |
| C72 | `wt_ap`: counting with its growing table, sorting by frequency, classes, offsets, and the queries, over any modelled wavelet trees. `std::sort` is insertion sort (equal keys cannot occur); the temporary files are lists with the width of the file. `quantile_freq` etc. do not exist in this class; serialization, copy not modelled | ranks of the symbols in the sorted order determine class and offset; the two inner trees are used by their answers |
| C73 | `cst_dfs_const_forward_iterator` on the model of `cst_sct3` (C62): constructor, `operator++`, `operator==`, `visit`, `skip_subtree`, the cache of ancestors, `begin()`, `end()`, `begin(v)`, `end(v)`. The uninitialised `m_stack_size` of `begin(v)` is an arbitrary value. Copying is not modelled | induction over the subtrees with the cache as part of the invariant; a `for` loop is a function with fuel that every number above the number of visits satisfies. Partial: false for the tree with one node (see Findings), and nodes of depth 2^32 or more are excluded |
| C74 | `cst_bottom_up_const_forward_iterator` with `begin_bottom_up()`, `end_bottom_up()`, and `cst_bfs_iterator` (the queue is a list) on the model of `cst_sct3` | induction over the subtrees; for breadth first the visited nodes and the queue together are sorted by level and contain the children of all visited nodes |
| C75 | `nearest_neighbour_dictionary`: constructor, `size`, `ones`, `rank`, `select`, `prev`, `next`, for every sample density. The rank support of `m_contains_abs_sample` by contract (C18). Serialization, copy, swap not modelled | the marked blocks in front of block `b` are as many as the samples among the ones in front of `b*t`, since a block contains at most one sample |
| C76 | `k2_tree` built from edges: `build_from_edges` (queue, counting, in-place sorting, the switch from `k_t_` to `k_l_`), `adj`, `neigh`, `reverse_neigh`, `range`. Doubles are exact up to 2^53 (bound of the model); the height (a quotient of logarithms) is an argument, every height that covers the nodes is allowed. Bit vectors and rank by contract. Serialization, copy, swap, `operator==`, the constructor from files not modelled | processed nodes followed by the queue are the breadth-first order; every queue entry holds exactly the edges of its square, entries are disjoint; a weight `(e+1)·(j-i)` per entry bounds the number of nodes, hence all writes and the number of iterations; the sorting invariant counts the edges of a chunk. Queries by induction on the level, `range` with a stack of states with disjoint results |
| C77 | `k2_tree` built from a matrix: constructor, `_build_from_matrix`, `build_from_matrix` with the `int` counters. Queries as C76 | the blocks collected per level are the nodes of the level from left to right. `_partial`: `range` is false for matrices without ones (`C77_range_zero_matrix`) |
| C78 | `inv_multi_perm_support`: constructor (both passes over the cycles) and `operator[]`. The rank support of the marks by contract (C18). Copy, swap, iterators and serialization not modelled | a cycle of the whole permutation stays in its chunk; marks and back pointers as distances along the cycle, as for C43 |
| C79 | `wt_gmr_rs`: constructor (maximum, blocks, counts, unary bit vector, `m_sigma`, counting sort of the positions), `operator[]`, `rank`, `inverse_select`, `select`. Bit vectors and their select supports by contract (C21 - C25); the container `t_rac` of the positions is the array itself (`enc_vector` etc.: C30 - C32). Copy, swap and serialization not modelled | prefix sums of the counts as select positions; a cell of the counting sort lists the positions of one symbol in one block in increasing order |
| C80 | `wt_gmr`: constructor (as C79, then per chunk counts, unary bit vector and the permutation), `operator[]`, `rank`, `inverse_select`, `select`, with C78 for the inverse. Containers as for C79 | the key of a position (smaller symbols + earlier equal ones) is a bijection of the chunk, so the permutation is one, and its inverse is the key |
| C81 | `hyb_vector`: constructor (table of changes of 16-bit words, both passes, fast and slow ways for full and incomplete blocks, all four encodings, headers of blocks, superblocks and hblocks in byte memory), `access0`, `operator[]`, `get_int`; `rank_support_hyb::rank` for both bits. Byte vectors are lists of bytes, 16-, 32- and 64-bit accesses are little endian; the header of a block is assembled first and stored once; signed positions are kept as `last + 1`. Not modelled: `select_support_hyb` (prints a message and exits), serialisation, copying | block specification by counting ones and changes; encoders write the k-th change (or minority position) at byte k; decoders by parity of the number of changes; invariant of the second pass over the three header levels |
| C82 | `cst_sada`: constructor (both passes with their stacks, the unary numbers in the 4n-bit vector, which the second pass reads while it overwrites the vector from the left, and both calls of `resize`), `nodes`, `size`. The content of the new bit vector is an arbitrary word function; parentheses with C59; rank and select by their contracts. Not modelled: iterators, copy, serialization, the construction from a file (`construct_*` only pass the LCP array) | the stacks of the passes count the nodes that end and start at each position; the opening and the closing parenthesis of an interval lie in the blocks of its bounds, at a place given by the number of nodes around it; matching by excess |
| C83 | `root`, `is_leaf`, `lb`, `rb`, `select_leaf`, `leftmost_leaf`, `rightmost_leaf`, `size`, `parent`, `select_child`, `degree`, `sibling`, `lca`, `node`, `depth`, `node_depth` of `cst_sada`; the LCP array as a list, `m_csa[.]` as a function | with the positions of C82 and the specification of C59; the intervals are those of SpecCst.lean (as in C62). `lca` is wrong for some pairs, see Findings |
| C84 | `id`, `inv_id`, `tlcp_idx` of `cst_sada` | inner nodes are the patterns `11`; invariant of the binary search: its bounds are never in the second half of a leaf; closing parentheses of inner nodes are counted in postorder |
| C85 | `child`, `edge`, `sl`, `sl(v,i)`, `wl`, `sn` of `cst_sada`, on the same interface of the CSA as C64 | SpecSufTree.lean as in C64; `child` is a scan over the siblings whose first symbol is read by `get_char_pos`. `sl` and `wl` with exceptions, see Findings |
| C86 | `select_0_support_sd`: constructor and `select` with its three loops, on the model of `sd_vector` (C25); the four copies of the computation of the number of zeros are one function; words of `high` end with zeros (its constructor clears all words). `swap` (which does not exchange the vector pointer), copy, serialisation not modelled | position j of the high part stands for a position of the vector (behind the last one, or the begin of a block); zeros before it are monotone in j; the loops keep "zeros before j < i"; sizes of the parts from the logarithms exclude overflow |
| C87 | `bidirectional_search` (one step), `bidirectional_search_backward`, `bidirectional_search_forward` on `csa_wt` over the wavelet trees that are lexicographically ordered and modelled with `lex_count` (`wt_blcd`, `wt_int`; `wt_hutu` is not modelled), all alphabet strategies; the cast of the symbols to the symbol type of `csa_wt<>`, a byte, is part of the model. The suffix arrays are arguments | the rows of a pattern, sorted by the symbol behind it, are the rows of the reversed pattern sorted by the symbol in front of it; `lex_count` counts those with a smaller symbol; the reversed text has the same number of occurrences |
| C88 | `forward_search` for patterns and for one symbol, on `csa_wt`, `csa_sada`, `csa_bitcompressed`; `psi` evaluated after every symbol as in the code; the loops have fuel that is shown to suffice | the comparison decreases from row to row, because `psi` increases on the rows of one symbol; it is 0 exactly for the suffixes that start with the pattern; bisection |
| C89 | `forward_search` for one symbol and for patterns, `extract(cst, v)`, `extract(cst, v, text)` on the models of `cst_sct3` (C62, C64) and `cst_sada` (C82 - C85). `extract` of the CSA by its property (C57, C66, C67). `count`, `locate` only call the functions of the CSA (C36, C57, C66); `H0`, `Hk` (floating point) not modelled | the row behind an occurrence of the string decides whether the symbol of the pattern follows; all rows of the node continue alike inside of an edge; `child` at nodes |
| C90 | `_fuzzy_sa_sampling` (constructor, `is_sampled`, `operator[]`, `inv`), `_fuzzy_isa_sampling_support` (`sample_leq`, `sample_qeq`), used by `csa_wt` and `csa_sada`; bit vectors by their contract, `m_inv_perm` is the modelled `wt_int` over them | loop invariant with the list of chosen suffixes; one mark per block gives the selects; ranks of the marked rows are distinct, so `select(1, ·)` finds the block; steps of LF and Psi modulo `n` |
| C91 | `serialize` and `load` of 47 classes, member by member in the order of the code; the stream is a list of bytes, numbers are little endian, `int_vector` as in C14, addresses are member names. Not modelled: the structure tree, failing streams, the assertions that `m_size` fits the vector in `bp_support_*`, `bp_support_gg`, `louds_tree` | one lemma per class from lemmas for its template parameters; `select_support_mcl` by induction over the superblocks with the bit vector that tells long from short ones |
| C92 | the models of C18, C19, C22-C25, C33, C34, C81 together with that of C91; a stored vector is related to the model by its elements (`wordsOf`, `SelMcl.toMcl`, `sdOf`, `rrrOf`, `hybOf`, `ilOf`, `wtIntOf`, `wmIntOf`) | `mclBuild_apart`: a built `select_support_mcl` has a long or a short block for each superblock, never both, and enough of them, by induction over both constructions; `rank` and `select` depend on the bits in front of `size()` only; for `rank_support_v5` without `i = size()` as in C19; `C92_stored`: what the constructors compute is the contents of objects for every vector, from the lengths and widths of all arrays the constructions write (`V_build_len`, `mclBuild_fit`) |
| C93 | `buffered_char_queue`: constructor with `init`, `push_back`, `pop_front`; the buffers are byte lists of `m_buffer_size` (a parameter of the functions, 10000 in the theorems), the file system is a function from names to contents, opening the file truncates it. Not modelled: failures of the stream (a read behind the end of the file is `none`), the destructor | invariant: the contents are the rest of the read buffer, the blocks of the file that were not read, and the write buffer, or a part of the read buffer, which equals the write buffer then (`m_sync`) |
| C94 | `fast_cache`: constructor, `exists`, `write`; the table is a list of words. The places where the cache is used are behind macros and not modelled | an entry holds the last pair that was written to it; false for the request 2^64-1 (`C94_new_wrong`) |
| C95 | `construct_lcp_bwt_based` with the queue, the bit vectors of intervals, the phases and `insert_lcp_values`. `interval_symbols` (in the order of first occurrence) and `create_C_array` by their contracts; the number of bits `bb` of the first phase (a floating point computation with the size of the wavelet tree, 6 for small texts) is an argument; the main loop has fuel | refuted by two texts; the model is evaluated by the kernel, for the second text in groups of ten rounds whose states are given in closed form (`r0` to `r25`). Not proved: that the array is right for the other texts |
| C96 | all operators of `random_access_const_iterator`; the container is its `operator[]`, distances are integers in the range of signed 64-bit numbers, signed overflow is `none` | arithmetic modulo 2^64; induction over the loop. Partial: false for the distance -2^63 (`C96_smallest_wrong`) |
| C97 | the two loops over the elements; words and bytes are natural numbers, shifts by 64 or more are `none`, the end of the stream is `none`. The header is not modelled (its functions do not exist) | invariant of the decoder: the value so far plus 2^shift times what is left is the word; induction |
| C98 | `precomp` with its table and its four specialisations, the loop of `get_t`, `contained` and `overlap` with 64 bit wrap-around; construction and queries of the treap are not modelled | powers modulo 2^64; least exponent; linear arithmetic. Partial: `get_t` is undefined for coordinates above the largest power (`C98_depth_wrong`) |
| C99 | `construct_isa` for all permutations (C57 has it for suffix arrays); the cache is at most one list for each of the two keys, the files are those of C14 and C44 | induction over the loop: positions written so far hold their index, others are unchanged |
| C39 | `construct_lcp_kasai`, `construct_lcp_PHI`, `construct_lcp_semi_extern_PHI`; suffix array an argument, cache files are lists; `go`, `goPHI` and `construct_lcp_bwt_based2` are not modelled; `construct_lcp_bwt_based` see C95 | a suffix shares with its predecessor at least one symbol less than the preceding suffix (sandwich in the sorted order); in-place overwriting as invariant |
| C40, C41 | `sorted_stack_support`, `sorted_int_stack`, `sorted_multi_stack_support`: constructors, `push`, `pop`, `top`, `size`, `empty`; not copying and serialization | representation invariant (decreasing positions in 63-bit blocks with back pointers) over all histories |
| C42 | `nn_dict_dynamic`: constructor, assignment, `operator[]`, `next`, `prev`; the outcome of out-of-range shifts is a parameter | occupancy invariant of the 64-ary tree over all histories |
| C43 | `inv_perm_support`: constructor (both passes), `operator[]`; rank by contract | trace of the marked elements per cycle |
| C44 | `int_vector_buffer`: constructors for modes `out` and `in`, plain files, `read_block`, `write_block`, `read`, `write`, `push_back`, `buffersize`, `reset`, `close`, the proxy operators; files as byte lists with POSIX semantics, no I/O errors, assertions off; not move, `swap` and iterators | invariant: the buffer mirrors a block of the list, the file holds all other blocks and (if clean) this one; refinement over histories and over sessions on one file |
| C45 | `uint128_t` (class) and `uint256_t` over both forms of `uint128_t` (class, compiler type): all operators, `popcount`, `hi`, `select`, output as hexadecimal digits | value homomorphism, bitwise lemmas on concatenated numbers |
| C46 | `rmq_support_sparse_table`: constructor, `operator()`, both `min_max_trait`s; not copying and serialization | table invariant, joining overlapping windows |
| C47 | `louds_tree`: constructor over `cst_bfs_iterator` on an ordered tree, `root`, `nodes`, `is_leaf`, `degree`, `child`, `parent`, `id`; the bit vector and its select supports by their contracts; not copies and serialization (`swap` and `serialize` name members that do not exist, so they cannot be instantiated) | nodes are addressed by paths; the sequence is the degree sequence of the breadth-first list, the children of its `k`-th entry start at index 1 + the sum of the earlier degrees |
| C48 | `excess::impl` (all tables), `near_find_close`, `near_find_closing`, `near_fwd_excess`, `near_bwd_excess`, `near_find_open`, `near_find_opening`, `near_enclose`, `near_rmq`, `near_rmq_open`; excess values are integers | tables by kernel evaluation against the excess function; each scan returns the first (last) position with a given excess |
| C49 | `hugepage_allocator`: `mm_alloc`, `mm_free`, `mm_realloc` and all private functions on a word memory with boundary tags; `std::multimap` as a sorted list; null pointers as `free`/`alloc` of the client; not `mmap`, `in_address_space` and `determine_available_hugepage_memory` | invariant over all histories: tiling by tagged blocks, free set = free blocks, live allocations = used blocks; frame conditions for contents |
| C50 | `ram_fs`: `store`, `exists`, `file_size`, `content`, `remove`, `rename`, the file name functions; `std::map` as an association list; not locking and not disk files | refinement to a partial map over all histories |
| C56 | `ram_filebuf`: `open`, `seekpos`, `pubseekpos`, `pubseekoff`, `overflow`; the base class `std::streambuf` (`sputn`, `sgetn`); `osfstream` and `isfstream` on RAM-files: `seekp`, `seekg`, `tellg`, `read`, `write`. The pointers of the buffers carry the generation of the allocation they belong to; using one of an older generation is undefined | stream invariants over all histories; a reader next to a writer |
| C51 | `int_vector_iterator` | cursor invariant |
| C52 | `cnt_one_bits` and relatives | loop invariants |
| C53 | copying, bitwise assignment | loop invariants |

The table is updated as work proceeds; MANIFEST.json has the exact status.
