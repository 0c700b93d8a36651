{"id": "C01", "title": "Popcount is exact", "statement": "bits::cnt(x) returns the number of one bits of x for every 64-bit word x, in the arithmetic variant and in the byte-table variant.", "quantifier": "all 2^64 words, both compile-time variants", "why_tests_cant": "2^64 inputs; a wrong mask or carry shows only on particular bit patterns.", "anchors": ["include/sdsl/bits.hpp: bits::cnt", "lib/bits.cpp: bits::lt_cnt"]}
{"id": "C02", "title": "Lowest and highest set bit", "statement": "For every non-zero 64-bit word, bits::lo returns the index of the least significant one bit and bits::hi the index of the most significant one bit; both return 0 for the zero word.", "quantifier": "all 64-bit words", "why_tests_cant": "2^64 inputs; the functions branch over lookup tables and a de Bruijn multiplication.", "anchors": ["include/sdsl/bits.hpp: bits::lo, bits::hi", "lib/bits.cpp: lt_lo, lt_hi, lt_deBruijn_to_idx"]}
{"id": "C03", "title": "Select in a word", "statement": "For every word x and every i with 1 <= i <= popcount(x), bits::sel(x,i) returns the index of the i-th one bit counted from the least significant end.", "quantifier": "all words x and all i in [1..cnt(x)], portable and SSE variant", "why_tests_cant": "About 2^69 pairs; relies on byte-wise partial sums never carrying into the neighbouring byte.", "anchors": ["include/sdsl/bits.hpp: bits::sel, bits::_sel", "lib/bits.cpp: ps_overflow, lt_sel"]}
{"id": "C04", "title": "Bit-field write then read", "statement": "Writing the len-bit value x at bit offset off of a word array changes exactly bits off..off+len-1, and reading the same field returns x mod 2^len; a field that crosses a word boundary touches exactly two words, a field that does not touches exactly one, and no out-of-range shift is executed.", "quantifier": "all word contents, all values, all offsets 0..63, all lengths 1..64 (0..64 for reads)", "why_tests_cant": "Exhaustive testing over contents x offsets x lengths is impossible; off-by-one masks corrupt neighbours silently.", "anchors": ["include/sdsl/bits.hpp: bits::write_int, bits::read_int, bits::lo_set"]}
{"id": "C05", "title": "Moving bit cursor", "statement": "read_int_and_move / write_int_and_move act as read_int / write_int at the cursor and advance the cursor by exactly len bits, so a sequence of writes followed by the same sequence of reads returns the written values in order; move_right and move_left change the cursor position by exactly len.", "quantifier": "all sequences of (value,length) pairs, any start offset", "why_tests_cant": "Quantifies over unbounded sequences of variable-length fields.", "anchors": ["include/sdsl/bits.hpp: read_int_and_move, write_int_and_move, move_right, move_left"]}
{"id": "C06", "title": "32-bit popcount", "statement": "bits::cnt32(x) returns the number of one bits of x for every 32-bit x.", "quantifier": "all 32-bit words", "why_tests_cant": "The nibble sums overflow only on special patterns; sampled tests miss them.", "anchors": ["include/sdsl/bits.hpp: bits::cnt32"]}
{"id": "C07", "title": "Unary decoding", "statement": "read_unary at a bit position returns the number of zero bits before the next one bit at or after the position, for arbitrarily many intervening zero words, and read_unary_and_move moves the cursor just past that one bit; it reads only words up to the one holding that bit.", "quantifier": "all word arrays and positions that have a later one bit", "why_tests_cant": "Run lengths are unbounded and the code keeps an 8-bit remainder.", "anchors": ["include/sdsl/bits.hpp: read_unary, read_unary_and_move"]}
{"id": "C08", "title": "Next and previous set bit in a word array", "statement": "bits::next(word,i) returns the smallest position >= i holding a one bit and bits::prev(word,i) the greatest position <= i holding a one bit, whenever such a position exists, reading only words between the two positions.", "quantifier": "all word arrays, all positions", "why_tests_cant": "Unbounded scan over arbitrary arrays.", "anchors": ["include/sdsl/bits.hpp: bits::next, bits::prev"]}
{"id": "C09", "title": "Fibonacci terminator bit tricks", "statement": "Scanning a word from bit 0 (with a carry bit from the previous word) and cutting after every second consecutive one, bits::cnt11 returns the number of cuts and the outgoing carry, bits::sel11(x,i,c) the position of the i-th cut and bits::hi11(x) the position of the last cut (0 if none).", "quantifier": "all words, carries, and indices in range", "why_tests_cant": "The functions use a carry-propagating addition; 2^64 inputs.", "anchors": ["include/sdsl/bits.hpp: cnt11, sel11, hi11"]}
{"id": "C10", "title": "Word reversal and adjacent-pair maps", "statement": "bits::rev reverses the order of the 64 bits; map10/map01 mark exactly the positions i where bit i-1,i is 1,0 resp. 0,1 (with the carry as bit -1), and cnt10/cnt01 count them and return the top bit as carry.", "quantifier": "all words and carries", "why_tests_cant": "2^64 inputs.", "anchors": ["include/sdsl/bits.hpp: rev, map10, map01, cnt10, cnt01"]}
{"id": "C11", "title": "Bit-packed vector behaves as an array", "statement": "After any sequence of element assignments on an int_vector of width w, element i equals the last value assigned to it modulo 2^w, every other element is unchanged, and no access leaves the allocated words.", "quantifier": "all widths 1..64, all sizes, all histories of assignments and reads", "why_tests_cant": "Histories and sizes are unbounded; packing bugs surface only at particular index/width combinations.", "anchors": ["include/sdsl/int_vector.hpp: int_vector::get_int, set_int, operator[], int_vector_reference", "include/sdsl/memory_management.hpp: memory_manager::resize"]}
{"id": "C12", "title": "Resize keeps the prefix", "statement": "resize(n) leaves the first min(old,n) elements unchanged for every width and the memory access of all n elements stays inside the allocation.", "quantifier": "all vectors, all old and new sizes", "why_tests_cant": "Unbounded sizes; allocation is rounded to words.", "anchors": ["include/sdsl/int_vector.hpp: resize, bit_resize", "include/sdsl/memory_management.hpp: memory_manager::resize"]}
{"id": "C13", "title": "Equality and order of vectors", "statement": "operator== on int_vectors holds exactly when bit sizes, widths and all elements are equal (as documented), independent of the unused bits in the last word; operator< is the lexicographic order of the element sequences.", "quantifier": "all pairs of vectors", "why_tests_cant": "Depends on padding contents and on every word position.", "anchors": ["include/sdsl/int_vector.hpp: operator==, operator<, operator!="]}
{"id": "C14", "title": "Vector file round trip", "statement": "Loading what serialize wrote gives a vector with the same width, size and elements, and serialize returns exactly the number of bytes written; trailing data in the stream is left unread.", "quantifier": "all vectors of all widths and sizes", "why_tests_cant": "Unbounded inputs; format has a conditional width byte and word padding.", "anchors": ["include/sdsl/int_vector.hpp: serialize, load, write_header, read_header"]}
{"id": "C15", "title": "Width changes keep the values", "statement": "bit_compress leaves every element unchanged and reduces the width to the smallest one able to hold the maximum; expand_width to any larger width leaves every element unchanged. Both work in place, overwriting the array they read.", "quantifier": "all vectors, all widths and target widths", "why_tests_cant": "In-place overlap of source and destination depends on widths and size.", "anchors": ["include/sdsl/util.hpp: util::bit_compress, util::expand_width"]}
{"id": "C16", "title": "Bulk fills", "statement": "util::set_to_value(v,k) makes every element equal k mod 2^width, util::set_to_id makes element i equal i mod 2^width, and bit_vector::flip negates every bit; size and width are unchanged.", "quantifier": "all vectors, widths and values", "why_tests_cant": "set_to_value uses a word-cycling pattern whose period depends on width.", "anchors": ["include/sdsl/util.hpp: set_to_value, set_to_id, mod", "include/sdsl/int_vector.hpp: flip"]}
{"id": "C17", "title": "next_bit / prev_bit on bit vectors", "statement": "util::next_bit(v,i) returns the smallest set position >= i or v.bit_size() if none, util::prev_bit(v,i) the greatest set position <= i or v.bit_size() if none.", "quantifier": "all bit vectors and positions, independent of padding bits", "why_tests_cant": "Padding bits and word boundaries; unbounded vectors.", "anchors": ["include/sdsl/util.hpp: next_bit, prev_bit"]}
{"id": "C18", "title": "rank_support_v counts exactly", "statement": "rank_support_v<b,len> rank(i) equals the number of occurrences of the pattern ending before position i, for the patterns 0, 1, 10, 01, 00, 11, for every bit vector and every 0 <= i <= size().", "quantifier": "all bit vectors, all positions, all six patterns", "why_tests_cant": "Superblock/block boundaries at multiples of 512 bits; unbounded size.", "anchors": ["include/sdsl/rank_support_v.hpp", "include/sdsl/rank_support.hpp: rank_support_trait"]}
{"id": "C19", "title": "rank_support_v5 counts exactly", "statement": "rank_support_v5<b,len> rank(i) equals the number of occurrences of the pattern ending before position i for every bit vector and every 0 <= i <= size().", "quantifier": "all bit vectors, all positions, all six patterns", "why_tests_cant": "2048-bit superblocks with 12-bit packed relative counts; unbounded size.", "anchors": ["include/sdsl/rank_support_v5.hpp", "include/sdsl/rank_support.hpp"]}
{"id": "C20", "title": "rank_support_scan counts exactly", "statement": "rank_support_scan<b,len> rank(i) equals the number of pattern occurrences ending before i for every bit vector and every 0 <= i <= size().", "quantifier": "all bit vectors, positions, patterns", "why_tests_cant": "Unbounded vectors; partial last word.", "anchors": ["include/sdsl/rank_support_scan.hpp", "include/sdsl/rank_support.hpp"]}
{"id": "C21", "title": "select_support_scan finds the i-th occurrence", "statement": "select_support_scan<b,len> select(i) returns the position of the i-th occurrence of the pattern for every 1 <= i <= number of occurrences.", "quantifier": "all bit vectors, all i in range, all patterns", "why_tests_cant": "Unbounded vectors; carry between words.", "anchors": ["include/sdsl/select_support_scan.hpp", "include/sdsl/select_support.hpp"]}
{"id": "C22", "title": "select_support_mcl finds the i-th occurrence", "statement": "select_support_mcl<b,len> select(i) returns the position of the i-th occurrence of the pattern for every 1 <= i <= number of occurrences.", "quantifier": "all bit vectors, all i in range, all patterns, both construction routines", "why_tests_cant": "Superblocks of 4096 occurrences with a long/short split depending on log^4 n; unbounded vectors.", "anchors": ["include/sdsl/select_support_mcl.hpp"]}
{"id": "C23", "title": "Interleaved bit vector answers like the original", "statement": "bit_vector_il built from a bit vector returns the same bit at each position, the same get_int, and its rank and select supports equal the mathematical rank and select.", "quantifier": "all bit vectors, all block sizes that are powers of two > 64 bits", "why_tests_cant": "Index arithmetic interleaves counters and data; unbounded vectors.", "anchors": ["include/sdsl/bit_vector_il.hpp"]}
{"id": "C24", "title": "H0-compressed bit vector answers like the original", "statement": "rrr_vector<bs> built from a bit vector returns the same bits and get_int values, and its rank and select supports equal mathematical rank and select for every block size.", "quantifier": "all bit vectors, all block sizes, all positions", "why_tests_cant": "Combinatorial number system with binomials up to 256 bits; exponential number of blocks.", "anchors": ["include/sdsl/rrr_vector.hpp", "include/sdsl/rrr_vector_15.hpp", "include/sdsl/rrr_helper.hpp"]}
{"id": "C25", "title": "Sparse bit vector answers like the original", "statement": "sd_vector built from a bit vector, a strictly increasing sequence or the builder answers operator[], get_int, rank and select_1/select_0 as the bit vector with ones exactly at the given positions.", "quantifier": "all strictly increasing position sequences, all queries in range", "why_tests_cant": "Split of positions into high/low parts depends on logs of n and m.", "anchors": ["include/sdsl/sd_vector.hpp", "lib/sd_vector.cpp"]}
{"id": "C26", "title": "Elias-gamma code round trip", "statement": "Decoding the concatenation of elias_gamma codes of any sequence of 64-bit numbers returns the sequence; encoding_length is the exact number of bits.", "quantifier": "all sequences of 64-bit numbers", "why_tests_cant": "Unbounded sequences; codes cross word boundaries arbitrarily.", "anchors": ["include/sdsl/coder_elias_gamma.hpp"]}
{"id": "C27", "title": "Elias-delta code round trip", "statement": "Decoding the concatenation of elias_delta codes of any sequence returns the sequence; decode_prefix_sum returns the sum modulo 2^64 of the first n decoded numbers; encoding_length is the exact number of bits.", "quantifier": "all sequences of 64-bit numbers", "why_tests_cant": "Unbounded sequences; table-driven decoder with look-ahead.", "anchors": ["include/sdsl/coder_elias_delta.hpp", "lib/coder_elias_delta.cpp"]}
{"id": "C28", "title": "Fibonacci code round trip", "statement": "Decoding the concatenation of Fibonacci codes of any sequence of numbers >= 1 returns the sequence and every code ends with the first occurrence of 11.", "quantifier": "all sequences of numbers in [1..2^64-1]", "why_tests_cant": "Zeckendorf representation; table driven decoder.", "anchors": ["include/sdsl/coder_fibonacci.hpp", "lib/coder_fibonacci.cpp"]}
{"id": "C29", "title": "Comma code round trip", "statement": "Decoding the concatenation of comma codes of any sequence returns the sequence for digit widths where the code is defined.", "quantifier": "all sequences of 64-bit numbers, all digit widths", "why_tests_cant": "Unbounded sequences and many widths.", "anchors": ["include/sdsl/coder_comma.hpp"]}
{"id": "C30", "title": "Delta-compressed vector returns the original values", "statement": "enc_vector built from a container returns at every index the container's value, for every coder, sample density and container of unsigned values.", "quantifier": "all containers, all indices, all densities, value types of 8/16/32/64 bits", "why_tests_cant": "Depends on differences wrapping around and on sampling positions.", "anchors": ["include/sdsl/enc_vector.hpp"]}
{"id": "C31", "title": "Variable-length-code vector returns the original values", "statement": "vlc_vector built from a container returns at every index the container's value; a value the code cannot represent raises logic_error instead of being stored wrongly.", "quantifier": "all containers and indices, all densities", "why_tests_cant": "Unbounded sequences; boundary value 2^64-1.", "anchors": ["include/sdsl/vlc_vector.hpp"]}
{"id": "C32", "title": "Directly addressable codes return the original values", "statement": "dac_vector and dac_vector_dp built from a container return at every index the container's value, for every block width (resp. every admissible level layout).", "quantifier": "all containers, indices, block widths", "why_tests_cant": "Multi-level overflow bit vectors with rank-based addressing.", "anchors": ["include/sdsl/dac_vector.hpp"]}
{"id": "C33", "title": "Wavelet tree over integers", "statement": "wt_int answers access, rank, select and inverse_select exactly as the sequence it was built from.", "quantifier": "all integer sequences, all positions and symbols", "why_tests_cant": "Unbounded sequences; symbol width from the maximum value.", "anchors": ["include/sdsl/wt_int.hpp"]}
{"id": "C34", "title": "Wavelet matrix over integers", "statement": "wm_int answers access, rank, select and inverse_select exactly as the sequence it was built from.", "quantifier": "all integer sequences, all positions and symbols", "why_tests_cant": "Unbounded sequences; global zero/one partition per level.", "anchors": ["include/sdsl/wm_int.hpp"]}
{"id": "C35", "title": "Prefix-code wavelet tree", "statement": "wt_pc built for any prefix code shape answers access, rank, select and inverse_select exactly as the sequence it was built from, including symbols that do not occur (rank 0).", "quantifier": "all byte sequences, all prefix-code trees, all queries", "why_tests_cant": "Tree shapes and sequences are unbounded.", "anchors": ["include/sdsl/wt_pc.hpp", "include/sdsl/wt_helper.hpp"]}
{"id": "C36", "title": "Backward search finds all occurrences", "statement": "Starting from the full interval, backward_search with a pattern returns the interval of exactly those suffix array positions whose suffixes start with the pattern; an empty interval iff the pattern does not occur, and its size is the number of occurrences.", "quantifier": "all texts with unique smallest sentinel, all patterns", "why_tests_cant": "Texts and patterns are unbounded.", "anchors": ["include/sdsl/suffix_array_algorithm.hpp: backward_search, count"]}
{"id": "C37", "title": "LF and Psi are inverse permutations that walk the text", "statement": "For a CSA over BWT rank/select, SA[LF[i]] = SA[i]-1 (mod n), SA[psi[i]] = SA[i]+1 (mod n), and lf and psi are mutually inverse.", "quantifier": "all texts with unique smallest sentinel, all i", "why_tests_cant": "Unbounded texts.", "anchors": ["include/sdsl/suffix_array_helper.hpp: traverse_csa_wt, first_row_symbol", "include/sdsl/csa_wt.hpp"]}
{"id": "C38", "title": "Sampled suffix array access", "statement": "csa_wt::operator[] returns SA[i] for both suffix-order and text-order sampling at every density and terminates.", "quantifier": "all texts, all i, all densities", "why_tests_cant": "Termination and value rely on LF walk reaching a sample.", "anchors": ["include/sdsl/csa_wt.hpp: operator[]", "include/sdsl/csa_sampling_strategy.hpp"]}
{"id": "C39", "title": "LCP arrays", "statement": "construct_lcp_kasai and construct_lcp_PHI compute LCP[i] = length of the longest common prefix of the suffixes of rank i-1 and i, with LCP[0]=0, and never read beyond the text.", "quantifier": "all texts ending with a unique smallest sentinel", "why_tests_cant": "Amortised inner loop without bounds checks; unbounded texts.", "anchors": ["include/sdsl/construct_lcp.hpp: construct_lcp_kasai, construct_lcp_PHI", "lib/construct_isa.cpp"]}
{"id": "C40", "title": "Sorted stack is a stack", "statement": "sorted_stack_support (values bounded by n, strictly increasing pushes) behaves as a LIFO stack: push/pop/top/size/empty agree with a list for every history allowed by its precondition, within its allocated memory.", "quantifier": "all histories of push and pop", "why_tests_cant": "Histories are unbounded; top after pop relies on a previous-set-bit search.", "anchors": ["include/sdsl/sorted_stack_support.hpp", "include/sdsl/sorted_int_stack.hpp"]}
{"id": "C41", "title": "Sorted multi stack is a stack", "statement": "sorted_multi_stack_support (non-decreasing pushes of values < n) behaves as a LIFO stack for every history, within its allocated memory.", "quantifier": "all histories of push and pop", "why_tests_cant": "Histories are unbounded; capacity depends on number of duplicates.", "anchors": ["include/sdsl/sorted_multi_stack_support.hpp"]}
{"id": "C42", "title": "Dynamic nearest-neighbour dictionary", "statement": "nn_dict_dynamic behaves as a set of positions: operator[] is membership of the last written values, next(i) the smallest member >= i or size(), prev(i) the greatest member <= i or size().", "quantifier": "all sizes and all histories of bit assignments and queries", "why_tests_cant": "64-ary tree invariant must survive every history.", "anchors": ["include/sdsl/nn_dict_dynamic.hpp"]}
{"id": "C43", "title": "Inverse permutation support", "statement": "inv_perm_support over a permutation p returns the j with p[j]=i for every i and terminates after a bounded number of steps.", "quantifier": "all permutations, all i, all sampling densities", "why_tests_cant": "n! permutations; shortcut pointers on long cycles only.", "anchors": ["include/sdsl/inv_perm_support.hpp"]}
{"id": "C44", "title": "Disk-backed vector behaves as a growing array", "statement": "int_vector_buffer: any sequence of reads, writes (beyond the end: growing with zero fill), push_backs, buffer-size changes, resets and close agrees with a plain list, and the file after close is a valid int_vector file with that content.", "quantifier": "all histories, buffer sizes and widths", "why_tests_cant": "Block replacement depends on access history.", "anchors": ["include/sdsl/int_vector_buffer.hpp"]}
{"id": "C45", "title": "Wide integer arithmetic", "statement": "uint128_t (portable class) and uint256_t add, subtract, shift, compare, count and select exactly as 128/256-bit modular integers.", "quantifier": "all operand pairs and shift amounts in range", "why_tests_cant": "2^256 x 2^256 operands; carries between limbs.", "anchors": ["include/sdsl/uint128_t.hpp", "include/sdsl/uint256_t.hpp", "lib/uint128_t.cpp", "lib/uint256_t.cpp"]}
{"id": "C46", "title": "Range minimum query", "statement": "rmq_support_sparse_table(l,r) returns the leftmost position of the minimum (resp. maximum) in [l..r] for every sequence and every l <= r < size, and construction never accesses outside its table.", "quantifier": "all sequences, all ranges, min and max variants", "why_tests_cant": "All sequences and ranges; boundary lengths 1, 2, 3.", "anchors": ["include/sdsl/rmq_support_sparse_table.hpp"]}
{"id": "C47", "title": "LOUDS navigation", "statement": "In a louds_tree built from the breadth-first traversal of any suffix-tree shaped tree (no node with exactly one child), the constructor stays inside the reserved space, child/parent/degree/is_leaf/root agree with the tree, parent(child(v,i)) = v, nodes() is the number of nodes, and id is the level-order number, a bijection onto [0, nodes()).", "quantifier": "all finite ordered trees without unary nodes, all nodes and child indices; more generally all trees whose sequence fits into 4 bits per leaf", "why_tests_cant": "Unbounded trees.", "anchors": ["include/sdsl/louds_tree.hpp"]}
{"id": "C48", "title": "Balanced parentheses matching", "statement": "find_close / find_open / enclose style block-local scans (near_find_close, near_find_open, near_enclose) return the matching/enclosing parenthesis if it lies in the block and the documented 'not found' value otherwise.", "quantifier": "all balanced parentheses sequences, positions and block sizes", "why_tests_cant": "Byte table lookups over unbounded sequences.", "anchors": ["lib/bp_support_algorithm.cpp", "include/sdsl/bp_support_algorithm.hpp"]}
{"id": "C49", "title": "Heap allocator never hands out overlapping memory", "statement": "hugepage_allocator: after any sequence of alloc/free/realloc the live blocks are pairwise disjoint, inside the arena, large enough for the request, and blocks exactly tile the used region with consistent free list.", "quantifier": "all histories of alloc/free/realloc", "why_tests_cant": "Histories are unbounded; boundary tags and coalescing.", "anchors": ["lib/memory_management.cpp: hugepage_allocator"]}
{"id": "C50", "title": "In-memory file system", "statement": "ram_fs behaves as a map from names to byte strings for any history of store, exists, file_size, content, remove and rename.", "quantifier": "all histories of operations", "why_tests_cant": "Histories are unbounded.", "anchors": ["lib/ram_fs.cpp: ram_fs"]}
{"id": "C51", "title": "Vector iterators walk the elements", "statement": "Every iterator move (++, --, += and -= with positive or negative argument) on an int_vector moves by exactly that many elements, ==, < and - agree with element positions, and dereferencing an iterator at element i reads or writes element i.", "quantifier": "all widths, positions and distances", "why_tests_cant": "The 8-bit offset arithmetic wraps modulo 256 and the cases depend on width and offset; distances are unbounded.", "anchors": ["include/sdsl/int_vector.hpp: int_vector_iterator, int_vector_const_iterator"]}
{"id": "C52", "title": "Bit statistics of a vector", "statement": "util::cnt_one_bits, cnt_onezero_bits and cnt_zeroone_bits return the exact number of ones, 10-borders and 01-borders inside the vector, independent of the bits behind it.", "quantifier": "all vectors of all sizes and any content of the padding bits", "why_tests_cant": "Unbounded vectors; the last partial word and the carry between words must be handled together.", "anchors": ["include/sdsl/util.hpp: cnt_one_bits, cnt_onezero_bits, cnt_zeroone_bits"]}
{"id": "C53", "title": "Copies and bitwise assignment", "statement": "Copy construction and copy assignment give a vector with equal width, size and elements whatever the target held before; &=, |= and ^= between vectors of equal bit size combine exactly all bits.", "quantifier": "all vectors, all previous states of the target", "why_tests_cant": "Unbounded vectors; the target allocation may be larger, smaller or reused.", "anchors": ["include/sdsl/int_vector.hpp: copy constructor, operator=, operator&=, operator|=, operator^="]}
{"id": "C54", "title": "Order queries of the integer wavelet tree", "statement": "wt_int: lex_count and lex_smaller_count return the rank and the exact numbers of smaller (and greater) symbols in the interval for every symbol; interval_symbols lists exactly the symbols of the interval in ascending order with their two ranks; range_search_2d reports and counts exactly the points inside the index and value interval.", "quantifier": "all integer sequences, all intervals, all symbols and value bounds", "why_tests_cant": "Unbounded sequences; the recursion visits a data-dependent part of the tree and maps positions back up.", "anchors": ["include/sdsl/wt_int.hpp: lex_count, lex_smaller_count, interval_symbols, range_search_2d"]}
{"id": "C55", "title": "Generic wavelet-tree algorithms", "statement": "On wt_int and wm_int the node interface describes exactly the symbols with the given bit prefix, in order; intersect, quantile_freq, interval_symbols, symbol_lte, symbol_gte, restricted_unique_range_values (and range_search_2d of wm_int) return exactly what the definition over the sequence says, in ascending order of symbols.", "quantifier": "all integer sequences, all intervals, thresholds, quantiles, symbols and value bounds", "why_tests_cant": "Unbounded sequences; the algorithms walk a data-dependent part of the tree with a stack and rely on unsigned wrap-around for empty ranges.", "anchors": ["include/sdsl/wt_algorithm.hpp", "include/sdsl/wt_int.hpp: expand, root, is_leaf, sym, size, seq, path", "include/sdsl/wm_int.hpp: expand, root, is_leaf, sym, size, seq, path, range_search_2d"]}
{"id": "C56", "title": "RAM-file streams", "statement": "osfstream, isfstream and ram_filebuf on RAM-files behave as streams on a byte string: writes go to the put position and enlarge the file, seeking behind the end fills with zero bytes, append mode appends, reads deliver the bytes at the get position, positions outside of the file are rejected, and a writer and a reader on the same file (as in int_vector_buffer) always see each other's data even when the memory is reallocated.", "quantifier": "all files and all histories of open, seek, read, write, tell and clear on one stream, and all interleavings of positioned reads and writes on two streams", "why_tests_cant": "Histories and file sizes are unbounded; stale pointers after a reallocation work by luck in tests.", "anchors": ["lib/ram_filebuf.cpp: ram_filebuf", "lib/sfstream.cpp: osfstream, isfstream"]}
{"id": "C57", "title": "Inverse access, substrings and positions of csa_wt", "statement": "For every sampling density, isa[i] is the row of suffix i, text[i] the i-th symbol and extract(b,e) the substring, both with isa_sampling and with text_order_isa_sampling_support; locate returns the positions of all occurrences, each once; bwt, rank_bwt and select_bwt answer as the Burrows-Wheeler transform of the text; construct_isa inverts the suffix array.", "quantifier": "all texts with unique smallest sentinel, all positions, intervals, patterns and densities", "why_tests_cant": "Walks along LF from a sample with cyclic wrap-around; texts and densities are unbounded.", "anchors": ["include/sdsl/suffix_array_helper.hpp: isa_of_csa_wt, text_of_csa", "include/sdsl/suffix_array_algorithm.hpp: extract, locate", "include/sdsl/csa_sampling_strategy.hpp: _isa_sampling, _text_order_isa_sampling_support", "include/sdsl/csa_wt.hpp: rank_bwt, select_bwt", "include/sdsl/construct_bwt.hpp", "lib/construct_isa.cpp"]}
{"id": "C58", "title": "Alphabet strategies", "statement": "byte_alphabet, succinct_byte_alphabet and int_alphabet number the symbols of a text in ascending order: char2comp and comp2char are inverse to each other, char2comp of an absent symbol is 0, C[k] counts the smaller symbols and C[sigma] is the length.", "quantifier": "all non-empty texts of bytes (resp. integers), all symbols", "why_tests_cant": "In-place compaction of the counters; 2^64 symbols and unbounded texts.", "anchors": ["lib/csa_alphabet_strategy.cpp: byte_alphabet", "include/sdsl/csa_alphabet_strategy.hpp: succinct_byte_alphabet, int_alphabet"]}
{"id": "C59", "title": "Range min-max tree over balanced parentheses", "statement": "bp_support_sada: the constructor stays inside of its vectors; find_close, find_open and enclose return the matching and the closest enclosing parenthesis (size() without one); level_anc(i,d) the d-th ancestor; rmq the last position with minimal excess; rmq_open the first opening parenthesis of an interval that is not closed before its end; rr_enclose, rr_enclose_naive and double_enclose the first pair between, and the closest pair around, two disjoint pairs.", "quantifier": "all balanced sequences, all positions and intervals, all sizes of small and medium blocks", "why_tests_cant": "Whether an answer is found in the block, the medium block, or only via the tree depends on distances beyond any fixed sample; trees are incomplete for most sizes.", "anchors": ["include/sdsl/bp_support_sada.hpp"]}
{"id": "C60", "title": "Super-Cartesian trees as parentheses", "statement": "All constructions of suffix_tree_helper.hpp write the parentheses of the super-Cartesian tree: balanced, one pair per position in order, and the pair of s is around the pair of a later t iff no value in (s,t] is smaller (larger) than the value at s; this determines the sequence. The first-child bit of a position is zero iff an equal value precedes it with nothing smaller in between, and the returned number is that of the ones.", "quantifier": "all value sequences, minima and maxima (buffer variants: minima, values at most the size)", "why_tests_cant": "Stacks grow with the input; the lazy stack and the succinct stacks are only different from the plain one on particular orders of values.", "anchors": ["include/sdsl/suffix_tree_helper.hpp: construct_supercartesian_tree_bp, construct_supercartesian_tree_bp_succinct, construct_supercartesian_tree_bp_succinct_and_first_child"]}
{"id": "C61", "title": "Succinct range minimum structures", "statement": "rmq_succinct_sct and rmq_succinct_sada return the smallest position of a minimum (maximum) in [l,r].", "quantifier": "all value sequences, all l <= r, all block sizes (sct: whole bytes, degree at least two), all contents of the memory before the construction", "why_tests_cant": "All pairs (l,r) of unbounded sequences; answers come from different levels of the range min-max tree.", "anchors": ["include/sdsl/rmq_succinct_sct.hpp", "include/sdsl/rmq_succinct_sada.hpp"]}
{"id": "C62", "title": "Navigation in the compressed suffix tree cst_sct3", "statement": "cst_sct3 is constructed for every LCP array, and its nodes are exactly the LCP intervals: root, node, select_leaf, leftmost_leaf, rightmost_leaf and size yield the expected intervals; parent is the smallest interval properly around a node (the root for the root); degree and select_child list all children, which cut the interval into consecutive parts; sibling is the next child of the parent or the root; lca is the smallest interval around two nodes; depth is the smallest LCP value of the interval (the length of the suffix for a leaf); node_depth is the number of proper ancestors.", "quantifier": "all LCP arrays (first value zero, values at most the size), all nodes and pairs of nodes, all block sizes of the range min-max tree that consist of whole bytes", "why_tests_cant": "Trees of any shape; scans of the first-child bits cross word borders and give up after four words, which only large trees show.", "anchors": ["include/sdsl/cst_sct3.hpp: cst_sct3, parent, sibling, select_child, degree, lca, depth, node_depth, psv, nsv, rmq, select_l_index"]}
{"id": "C63", "title": "Node ids of cst_sct3", "statement": "id is a bijection between the nodes and [0, nodes()), leaves first; inv_id is its inverse; tlcp_idx(k) is the id, behind the leaves, of the node whose interval has a minimum of the LCP array at k.", "quantifier": "all LCP arrays with a zero behind the first position, all nodes, all ids", "why_tests_cant": "The binary searches run over rank structures of unbounded trees; the root takes the bit of the first position, a special case.", "anchors": ["include/sdsl/cst_sct3.hpp: id, inv_id, nodes, tlcp_idx"]}
{"id": "C64", "title": "cst_sct3 as the suffix tree of a text", "statement": "On a csa_wt, csa_sada or csa_bitcompressed of a text, the nodes of cst_sct3 are exactly the suffix intervals of the strings that occur; depth is the length of the label (longest common prefix of the suffixes below); edge(v,d) its d-th symbol; child(v,c) the child whose suffixes continue with c, with char_pos the row of a suffix that starts with this c, or the root; sl(v) the node whose label lacks the first symbol.", "quantifier": "all texts with unique smallest sentinel, all nodes, symbols and depths, all alphabets and wavelet trees, all sampling densities and strategies", "why_tests_cant": "Unbounded texts; the functions combine the tree, the LCP array and a compressed suffix array, with a choice between two ways of computing a position that depends on the densities.", "anchors": ["include/sdsl/cst_sct3.hpp: child, edge, sl, depth", "include/sdsl/suffix_tree_helper.hpp: get_char_pos"]}
{"id": "C65", "title": "Weiner links of cst_sct3", "statement": "wl(v,c) is the node of the suffixes that start with c followed by the label of v, or the root if there are none; in particular wl(sl(v),a) is v if the label of v starts with a.", "quantifier": "all texts with unique smallest sentinel, all nodes and symbols", "why_tests_cant": "Unbounded texts; the bounds come from rank queries on the Burrows-Wheeler transform, which treats the text as a cycle.", "anchors": ["include/sdsl/cst_sct3.hpp: wl"]}
{"id": "C66", "title": "The Psi-based compressed suffix array csa_sada", "statement": "csa_sada computes Psi from the Burrows-Wheeler transform and stores it in an enc_vector. psi goes to the next suffix and lf is its inverse; operator[] and isa return the suffix array and its inverse; text, extract and bwt return symbols of the text; rank_bwt counts a symbol in a prefix of the BWT and select_bwt is its inverse (size() if there are not enough); backward_search, count and locate find exactly the occurrences of a pattern.", "quantifier": "all texts with unique smallest sentinel, all positions, symbols and patterns (no sentinel before their last symbol), all coders, all densities and sampling strategies, any content of the rank buffer left by earlier queries", "why_tests_cant": "Unbounded texts; rank_bwt has five cases that depend on how the rows of a symbol lie between the samples, and reuses a buffer with old content behind a sentinel value.", "anchors": ["include/sdsl/csa_sada.hpp: csa_sada, operator[], rank_bwt, select_bwt", "include/sdsl/suffix_array_helper.hpp: traverse_csa_psi, isa_of_csa_psi, bwt_of_csa_psi, text_of_csa", "include/sdsl/suffix_array_algorithm.hpp: backward_search, count, locate, extract"]}
{"id": "C67", "title": "csa_bitcompressed", "statement": "csa_bitcompressed, which stores the suffix array and its inverse, answers all the queries of C66 correctly.", "quantifier": "all texts with unique smallest sentinel, all positions, symbols and patterns (no sentinel before their last symbol), all alphabets", "why_tests_cant": "Unbounded texts; rank_bwt is a binary search on Psi values with boundary cases; the alphabet is built from the text instead of the transform.", "anchors": ["include/sdsl/csa_bitcompressed.hpp: csa_bitcompressed, operator[], rank_bwt, select_bwt", "include/sdsl/suffix_array_helper.hpp: traverse_csa_saisa, bwt_of_csa_psi, text_of_csa"]}
{"id": "C68", "title": "Representations of the LCP array", "statement": "lcp_bitcompressed, lcp_byte and lcp_wt return the stored value for every position, with values of any size; lcp_support_sada, constructed from the LCP array and the inverse suffix array, returns the LCP value of every row.", "quantifier": "all arrays of 64-bit values (lcp_wt: non-empty; lcp_bitcompressed: values that fit), resp. all texts with their suffix and LCP arrays and every CSA access", "why_tests_cant": "Values of 255 and more go to a separate array that is found by binary search or rank; the bit vector of lcp_support_sada relies on a property of permuted LCP arrays.", "anchors": ["include/sdsl/lcp_bitcompressed.hpp: lcp_bitcompressed", "include/sdsl/lcp_byte.hpp: lcp_byte, operator[]", "include/sdsl/lcp_wt.hpp: lcp_wt, operator[]", "include/sdsl/lcp_support_sada.hpp: _lcp_support_sada, operator[]"]}
{"id": "C69", "title": "LCP values stored per node of cst_sct3", "statement": "lcp_support_tree: construct_first_child_lcp writes one value per inner node of the suffix tree, and operator[] returns the LCP value for every position.", "quantifier": "all LCP arrays and the trees cst_sct3 constructed for them, any exact representation of the stored values", "why_tests_cant": "The order of the values (a stack with equal entries) has to agree with the numbering of the nodes by the tree, for trees of any shape.", "anchors": ["include/sdsl/lcp_support_tree.hpp: _lcp_support_tree, operator[], construct_first_child_lcp"]}
{"id": "C70", "title": "LCP values stored per node and derived along LF", "statement": "lcp_support_tree2 stores small values per node and large ones only where they cannot be derived from the preceding suffix, or are sampled; operator[] returns the LCP value for every position.", "quantifier": "all texts, their LCP arrays and trees cst_sct3, all sampling densities", "why_tests_cant": "Only LCP values of 254 and more take the derived path, and only the values left on the stack at the end take the faulty one.", "anchors": ["include/sdsl/lcp_support_tree2.hpp: _lcp_support_tree2, operator[], construct_first_child_and_lf_lcp"]}
{"id": "C71", "title": "Run-length wavelet tree wt_rlmn", "statement": "A wt_rlmn built from a sequence returns its size and its symbols; rank(i,c) counts c in the first i symbols, also if c does not occur; inverse_select(i) returns the symbol at i and its rank; select(k,c) returns the position of the k-th c.", "quantifier": "all sequences (also the empty one) that the inner wavelet tree can represent, all positions and symbols of the symbol type, all modelled inner wavelet trees including nested wt_rlmn and wt_ap", "why_tests_cant": "Unbounded sequences; the queries combine two bit vectors, two tables and the inner tree, with separate cases for positions inside and after the last run of a symbol.", "anchors": ["include/sdsl/wt_rlmn.hpp: wt_rlmn, operator[], rank, inverse_select, select"]}
{"id": "C72", "title": "Alphabet-partitioned wavelet tree wt_ap", "statement": "A wt_ap built from a sequence returns its size and its symbols; rank(i,c) counts c in the first i symbols, also if c does not occur; inverse_select(i) returns the symbol at i and its rank; select(k,c) returns the position of the k-th c.", "quantifier": "all sequences (also the empty one) that the inner wavelet trees can represent, all positions and all 64-bit symbols, all modelled inner wavelet trees including nested wt_rlmn and wt_ap", "why_tests_cant": "Unbounded sequences and alphabets; the partition into classes depends on the frequencies of all symbols, and absent symbols share one extra class.", "anchors": ["include/sdsl/wt_ap.hpp: wt_ap, try_get_char_class_offset, operator[], rank, inverse_select, select"]}
{"id": "C73", "title": "Depth-first iterator of suffix trees", "statement": "The loop from begin() to end(), or from begin(v) to end(v), over a cst_sct3 ends and visits exactly the nodes that have no proper ancestor for which skip_subtree() was called, in depth-first order: leaves and skipped nodes once, other inner nodes a first time before and a second time after their descendants, with visit() 1 and 2.", "quantifier": "all LCP arrays, all nodes v, all sets of nodes at which skip_subtree() is called, all values of the uninitialised member", "why_tests_cant": "The iterator keeps the last ancestors in a cache of 128 entries and computes the others; deep trees mix both, and the end iterator is compared by node and flags only.", "anchors": ["include/sdsl/cst_iterators.hpp: cst_dfs_const_forward_iterator", "include/sdsl/cst_sct3.hpp: begin, end"]}
{"id": "C74", "title": "Bottom-up and breadth-first iterators of suffix trees", "statement": "The bottom-up loop over a cst_sct3 ends and visits every node exactly once, after all nodes to the left and all its descendants; the breadth-first loop ends and visits every node exactly once, by increasing depth and from left to right.", "quantifier": "all LCP arrays (trees of all shapes, also with one node)", "why_tests_cant": "Unbounded trees; termination depends on the comparison with the end iterator.", "anchors": ["include/sdsl/cst_iterators.hpp: cst_bottom_up_const_forward_iterator, cst_bfs_iterator", "include/sdsl/cst_sct3.hpp: begin_bottom_up, end_bottom_up"]}
{"id": "C75", "title": "Nearest neighbour dictionary", "statement": "A nearest_neighbour_dictionary built from a bit vector returns size and number of ones; rank(i) counts the ones in front of i, select(i) is the position of the i-th one, prev(i) the last one at or before i and next(i) the first one at or after i.", "quantifier": "all bit vectors (also empty or without ones), all sample densities, all positions for which the answer exists", "why_tests_cant": "Unbounded vectors; sampled and difference-coded ones are interleaved by two index formulas, and the block marks count samples only because two samples never share a block.", "anchors": ["include/sdsl/nearest_neighbour_dictionary.hpp: nearest_neighbour_dictionary, rank, select, prev, next"]}
{"id": "C76", "title": "k2-tree built from edges", "statement": "A k2_tree built from a non-empty list of edges answers adj, neigh (in increasing order), reverse_neigh (in increasing order) and range (every edge of the rectangle exactly once) for the graph with these edges; the main loop of the constructor ends and all its writes are inside the vectors it reserves.", "quantifier": "all lists of edges (any order, repetitions allowed), all k from 2 to 255, all heights that cover the nodes, all nodes and rectangles", "why_tests_cant": "Unbounded graphs; the constructor sorts the edges in place chunk by chunk while it keeps index ranges into the same vector in a queue, and the last level is moved to a second vector at the first node of that level.", "anchors": ["include/sdsl/k2_tree.hpp: build_from_edges, adj, neigh, reverse_neigh, range", "include/sdsl/k2_tree_helper.hpp: get_chunk_idx"]}
{"id": "C77", "title": "k2-tree built from a matrix", "statement": "A k2_tree built from a square matrix answers adj, neigh, reverse_neigh and range for the ones of the matrix; the construction succeeds if the tree has less than 2^31 bits.", "quantifier": "all square matrices, all k from 2 to 255, all heights that cover the matrix, all rows, columns and rectangles", "why_tests_cant": "Unbounded matrices; nodes are collected depth-first and written breadth-first, and a matrix without ones gives a tree without nodes.", "anchors": ["include/sdsl/k2_tree.hpp: k2_tree, build_from_matrix, range", "include/sdsl/k2_tree_helper.hpp: _build_from_matrix"]}
{"id": "C78", "title": "Inverse of a sequence of permutations", "statement": "For a vector whose chunks (the last one may be shorter) are permutations, inv_multi_perm_support is built without writing outside its vectors, and operator[](i) is the position j with perm[j] + (begin of the chunk of j) = i, after at most t_s steps.", "quantifier": "all vectors of permutations, all chunk sizes and all t_s > 0 (for t_s = 0 without the bound on the steps), all positions", "why_tests_cant": "Unbounded permutations; the marks and the back pointers depend on the cycles, and the marks of two cycles are numbered together.", "anchors": ["include/sdsl/wt_gmr.hpp: inv_multi_perm_support, operator[]"]}
{"id": "C79", "title": "wt_gmr_rs answers for the sequence", "statement": "A wt_gmr_rs built from a sequence returns its size, its number of different symbols and its symbols; rank(i, c) counts c among the first i symbols, also if c does not occur, select(i, c) is the position of the i-th c and inverse_select(i) the symbol with its rank.", "quantifier": "all sequences of less than 2^62 symbols below 2^62 (also the empty one), all positions, all symbols", "why_tests_cant": "Unbounded sequences and alphabets; counts per symbol and block are coded in unary in one bit vector, and the search inside a cell switches from a scan to a binary search at 50 entries.", "anchors": ["include/sdsl/wt_gmr.hpp: wt_gmr_rs, operator[], rank, inverse_select, select"]}
{"id": "C80", "title": "wt_gmr answers for the sequence", "statement": "A wt_gmr built from a sequence returns its size, its number of different symbols and its symbols; rank(i, c) counts c among the first i symbols, also if c does not occur, select(i, c) is the position of the i-th c and inverse_select(i) the symbol with its rank.", "quantifier": "all sequences of less than 2^62 symbols below 2^62 (also the empty one), all parameters t_s, all positions, all symbols", "why_tests_cant": "Unbounded sequences and alphabets; access inverts the permutation of a chunk, and rank and select combine two unary bit vectors with different orders of symbols and chunks.", "anchors": ["include/sdsl/wt_gmr.hpp: wt_gmr, operator[], rank, inverse_select, select"]}
{"id": "C81", "title": "hyb_vector keeps the bits and answers rank", "statement": "A hyb_vector built from a bit vector returns its size, its bits (operator[]), its words (get_int) and with rank_support_hyb the ranks of both bits; it never needs more bytes for its blocks than the plain bits take, than there are ones, or than there are bit changes. The superblock rate divides 2^23 (as the default 16 does) or the vector has at most 2^31 bits; otherwise ranks can be wrong, which is proved for rate 3.", "quantifier": "all bit vectors, all superblock rates below 2^24 (dividing 2^23, or vectors of at most 2^31 bits), all positions and lengths", "why_tests_cant": "Unbounded vectors; every block has one of four encodings, two of them distinguished only by comparing sizes, and offsets are split over three levels of headers, one of which needs vectors of more than 2^31 bits to matter.", "anchors": ["include/sdsl/hyb_vector.hpp: hyb_vector, access0, get_int, operator[]", "include/sdsl/hyb_vector.hpp: rank_support_hyb, rank"]}
{"id": "C82", "title": "cst_sada represents the LCP intervals by parentheses", "statement": "For every LCP array the constructor of cst_sada succeeds whatever the new bit vector contains before it is filled; the parentheses are balanced, with one leaf for every position; every opening parenthesis represents exactly one LCP interval and every LCP interval exactly one opening parenthesis, in preorder; nodes() is the number of LCP intervals.", "quantifier": "all non-empty LCP arrays (of less than 2^61 entries, none larger than the length), all block parameters of the parentheses support", "why_tests_cant": "Unbounded arrays; a pass over the LCP array from the back writes the numbers of opening parentheses in unary into the end of the vector, and a second pass reads them while it writes the parentheses from the front into the same vector.", "anchors": ["include/sdsl/cst_sada.hpp: cst_sada", "include/sdsl/cst_sada.hpp: nodes, size"]}
{"id": "C83", "title": "cst_sada navigates in the tree of LCP intervals", "statement": "root, is_leaf, lb, rb, select_leaf, leftmost_leaf, rightmost_leaf, size, parent, select_child, degree, sibling, lca, node, depth and node_depth of cst_sada return the node or number that the intervals of the LCP array prescribe. Proved except for lca of a node and its descendant, where the function is wrong unless the descendant is a child.", "quantifier": "all LCP arrays as in C82, all nodes", "why_tests_cant": "Unbounded trees; every function is a combination of jumps in the parentheses, and lca of an ancestor and a descendant at distance two needs a special tree.", "anchors": ["include/sdsl/cst_sada.hpp: parent, sibling, select_child, degree", "include/sdsl/cst_sada.hpp: lca, node", "include/sdsl/cst_sada.hpp: depth, node_depth"]}
{"id": "C84", "title": "cst_sada numbers its nodes", "statement": "id maps the nodes one to one to 0..nodes()-1 and inv_id is its inverse; leaves have the ids of their positions, inner nodes larger ids in preorder. tlcp_idx(k) is the number, in postorder, of the inner node that has the LCP value at k as its smallest.", "quantifier": "all LCP arrays as in C82, all nodes, all ids, all positions", "why_tests_cant": "Unbounded trees; inv_id is a binary search over positions that steps over the second half of a leaf.", "anchors": ["include/sdsl/cst_sada.hpp: id, inv_id", "include/sdsl/cst_sada.hpp: tlcp_idx"]}
{"id": "C85", "title": "cst_sada is the suffix tree of a text", "statement": "For a text, its suffix array and LCP array: depth is the length of the label of a node, edge reads the symbols of the label, child follows a symbol, sl removes the first symbol (sl(v, n) the first n symbols), wl prepends a symbol, sn is the position of the suffix of a leaf. Proved except for sl of the leaf of the sentinel and wl for the sentinel, where the functions are wrong.", "quantifier": "all texts with a unique smallest sentinel (of less than 2^61 symbols), every kind of CSA of the model, all nodes, all symbols", "why_tests_cant": "Unbounded texts; the functions combine psi, inverse suffix array, backward search and jumps in the parentheses; no test of sl starts at the leaf of the sentinel.", "anchors": ["include/sdsl/cst_sada.hpp: child, edge, sl, wl, sn", "include/sdsl/suffix_tree_helper.hpp: get_char_pos"]}
{"id": "C86", "title": "select_0_support_sd finds the zeros of an sd_vector", "statement": "For every sd_vector (from a bit vector, a sorted sequence or the builder) select_0_support_sd is built and select(i) is the position of the i-th zero, the same as that of select_support_sd<0>. Proved for vectors of less than 2^58 bits, and for less than 2^60 bits with at least four ones; for longer vectors with at most one one the constructor divides by zero, which is proved too.", "quantifier": "all sd_vectors of less than 2^58 bits (or 2^60 bits and four ones), all i from 1 to the number of zeros", "why_tests_cant": "Unbounded vectors; the number of zeros is computed from the high part in three different granularities with two cases each, and the overflow of the block size needs a vector of 2^58 bits, which as an sd_vector takes a few bytes.", "anchors": ["include/sdsl/sd_vector.hpp: select_0_support_sd, select"]}
{"id": "C87", "title": "Bidirectional search keeps both intervals", "statement": "Given the interval of a pattern in the suffix array of the text and the interval of the reversed pattern in the suffix array of the reversed text, bidirectional_search_backward and bidirectional_search_forward compute both intervals for the pattern extended to the left or to the right by another pattern, and return the number of its occurrences. Proved for patterns of non-zero symbols below 256; the symbols are cast to bytes, so that the claim is false for larger symbols, which is proved too.", "quantifier": "all texts with a unique smallest sentinel, every lexicographically ordered wavelet tree of the model, all patterns and extensions", "why_tests_cant": "Unbounded texts and patterns; the tests run both searches on sample files with bytes only, and the cast to bytes matters only for integer alphabets.", "anchors": ["include/sdsl/suffix_array_algorithm.hpp: bidirectional_search", "include/sdsl/suffix_array_algorithm.hpp: bidirectional_search_backward, bidirectional_search_forward"]}
{"id": "C88", "title": "Forward search finds the interval of a pattern", "statement": "forward_search, started with an interval of rows of the suffix array, returns exactly the part of the interval whose suffixes start with the pattern, and its size; started with all rows it returns the interval of the pattern and its number of occurrences. Proved for patterns without the sentinel 0; patterns that contain it are never found, which is proved too.", "quantifier": "all texts with a unique smallest sentinel, csa_wt, csa_sada and csa_bitcompressed with every alphabet strategy, all patterns (with symbols that do not occur, too long, empty), all intervals", "why_tests_cant": "Unbounded texts and patterns; two binary searches whose borders wrap around at 0, over a comparison that stops early at symbols that do not occur.", "anchors": ["include/sdsl/suffix_array_algorithm.hpp: forward_search"]}
{"id": "C89", "title": "Forward search and extraction on suffix trees", "statement": "forward_search on a suffix tree, started at the place of a string w (a node and a row, at the node or on the edge above it), moves to the place of w P and returns the number of occurrences of w P, 0 if there is none; extract(cst, v) returns the label of v. Proved for cst_sct3, and for cst_sada if the text is longer than the sentinel; the variant of extract that writes to an iterator has no return statement and is undefined for every node but the root, which is proved too.", "quantifier": "all texts with a unique smallest sentinel, every kind of CSA of the model, all nodes, all strings and patterns (also with the sentinel and with symbols that do not occur)", "why_tests_cant": "Unbounded texts and patterns; every step depends on whether the place is at a node or inside an edge, and on a row that is carried along; the undefined variant of extract is not called by the tests.", "anchors": ["include/sdsl/suffix_tree_algorithm.hpp: forward_search", "include/sdsl/suffix_tree_algorithm.hpp: extract"]}
{"id": "C90", "title": "Fuzzy samples of the suffix array and its inverse", "statement": "The fuzzy sampling stores one suffix of every block of sa_sample_dens suffixes: the one with the smallest row that is not smaller than the row of the previous sample, or the one with the smallest row if there is none. csa[i] of csa_wt and csa_sada with these samples equals the suffix array. sample_leq and sample_qeq return the neighbouring sample (cyclically), and isa[i], text[i] and extract of csa_wt and csa_sada with fuzzy_isa_sampling_support return the inverse suffix array, the text and its substrings.", "quantifier": "for all texts with their suffix arrays, all densities, all rows and positions, all wavelet trees and coders", "why_tests_cant": "The tests build csa_wt with fuzzy samples for a few files and density 32; csa_sada with fuzzy_isa_sampling_support is not tested at all, and a query in front of the first sample would not end in practice.", "anchors": ["include/sdsl/csa_sampling_strategy.hpp:254-382", "include/sdsl/csa_sampling_strategy.hpp:813-894", "include/sdsl/suffix_array_helper.hpp:490-570"]}
{"id": "C91", "title": "What serialize writes, load reads", "statement": "For every class and every object v of it: serialize writes some bytes and returns their number; load, called on any other object of the class (new or in use) on these bytes followed by others, reads exactly these bytes and leaves an object with the same members as v whose supports point to its own members (or to the vector given to load). Proved for the supports, bit vectors, integer vectors, wavelet trees, suffix arrays with their samplings and alphabets, LCP arrays, parentheses and range minimum structures, suffix trees, k2_tree and k2_treap in their default configurations. False for k2_tree, k2_treap and dac_vector_dp with rank_support_v5, whose load asserts that the vector is known; this is proved too.", "quantifier": "all objects whose members have the widths of their types, all objects that load is called on, all bytes that follow", "why_tests_cant": "The members are written and read in two separate functions of every class, with pointers that must be set again; tests store and load a few objects into new ones and compare answers, not members, and never load into an object in use.", "anchors": ["include/sdsl/select_support_mcl.hpp:424-500", "include/sdsl/rank_support_v5.hpp:145-157", "include/sdsl/sd_vector.hpp:404-427", "include/sdsl/wt_pc.hpp:656-683", "include/sdsl/cst_sct3.hpp: serialize, load", "include/sdsl/k2_tree.hpp:580-610", "include/sdsl/csa_sampling_strategy.hpp:770-797"]}
{"id": "C92", "title": "Supports that were built, written and read give the right answers", "statement": "A bit vector v and a rank_support_v, rank_support_v5 or select_support_mcl that was built for it are written one after the other and read into other objects. The support that was read, on the vector that was read, answers rank (rank_support_v5: for positions before the end, see C19) and select for v. For every v with less than 2^64-4095 bits such supports exist as objects that can be written. An sd_vector that was built for v, written and read answers all queries like v, and its select supports answer for the upper parts that were read. The same holds for rrr_vector, hyb_vector, bit_vector_il, wt_int and wm_int: an object that was built, written and read answers for the sequence it was built for (bit_vector_il and wt_int for the sequences for which C23 and C33 say that the object that was built does).", "quantifier": "all bit vectors (any unused bits in the last word, also after reading), all bit patterns, all supports whose vectors hold what the constructor computes, with long and short superblocks from init_slow and init_fast, all objects that load is called on", "why_tests_cant": "The support holds no copy of the vector and is only right together with the bits that were read; init_fast allocates one long superblock more than is written, and vectors with long superblocks from init_fast have at least 100000 bits, so a test sees few of them.", "anchors": ["include/sdsl/select_support_mcl.hpp:260-343", "include/sdsl/select_support_mcl.hpp:424-500", "include/sdsl/rank_support_v.hpp:65-149", "include/sdsl/rank_support_v5.hpp:65-157", "include/sdsl/sd_vector.hpp:404-427"]}
{"id": "C93", "title": "buffered_char_queue is a queue", "statement": "buffered_char_queue returns the bytes in the order in which they were pushed, whatever its buffers and its file contain at the beginning, as long as nobody else writes its file; two queues in different directories do not disturb each other. Two queues of a process that are initialised with the same directory use the same file, even with different symbols c, and return bytes of each other; this is proved too.", "quantifier": "all sequences of push_back and pop_front that pop only from a non-empty queue, also with changes of other files in between", "why_tests_cant": "The class has no test and no user in the library; the file is used only after 20000 bytes, and which of read buffer, file and write buffer holds the next byte depends on the whole history.", "anchors": ["include/sdsl/construct_lcp_helper.hpp:35-60", "lib/construct_lcp_helper.cpp:48-99"]}
{"id": "C94", "title": "fast_cache returns what was written", "statement": "After any calls of write, exists(i, x) is true if and only if the last request written to the entry of i was i, and x is the answer that was written then; so if only right answers are written only right answers are returned.", "quantifier": "all sequences of calls of write, all requests, all contents of uninitialised memory", "why_tests_cant": "Requests that are congruent modulo 1024 replace each other; the request 2^64-1 equals the mark of an empty entry, which no test asks for (the cache is behind a macro that no test sets).", "anchors": ["include/sdsl/fast_cache.hpp:12-35"]}
{"id": "C95", "title": "BWT based construction of the LCP array", "statement": "construct_lcp_bwt_based computes the LCP array of every text. False: it divides by zero if all values are known when they are written to the file for the first time (63 equal symbols), and the array is too short if the last values are not known when the file is written for the second time (260 equal symbols); both are proved.", "quantifier": "all texts (for the refutation: two texts, all numbers of rounds that suffice)", "why_tests_cant": "The tests construct the array for texts whose largest values avoid both cases: with 6 or 8 bits per value only the two largest values 61 and 62 (or 253 and 254) divide by zero, and the file must be written three times for the array to be short.", "anchors": ["lib/construct_lcp.cpp:617-845", "lib/construct_lcp_helper.cpp:18-46"]}
{"id": "C96", "title": "The iterator of the containers", "statement": "random_access_const_iterator: it + i, it - i and it[i] denote the position i further or back, x + (y - x) is y and y - (y - x) is x, ++ and -- undo each other, the comparisons are those of the positions, and a loop from begin() to end() visits all elements in order.", "quantifier": "all containers with less than 2^64 elements, all iterators, all signed distances (differences: positions below 2^63)", "why_tests_cant": "Negative distances are handed over between += and -= with a negation that is undefined for the smallest distance; positions wrap around at 2^64, which no test can reach with a container.", "anchors": ["include/sdsl/iterators.hpp:28-165"]}
{"id": "C97", "title": "Variable byte coding of vectors", "statement": "Decoding the bytes that the loop of int_vector_serialize_vbyte_wrapper writes for a vector, followed by any further bytes, gives the same vector with the loop of int_vector_load_vbyte_wrapper and leaves exactly the further bytes; the returned number is the number of bytes written; every word takes the least number of groups of seven bits, at most ten.", "quantifier": "all vectors of words of at most 64 bits, all bytes that follow", "why_tests_cant": "No test uses these classes (they call functions that do not exist and cannot be instantiated); the shift of the tenth byte is by 63, one group before it is undefined.", "anchors": ["include/sdsl/int_vector_io_wrappers.hpp:40-62", "include/sdsl/int_vector_io_wrappers.hpp:79-100"]}
{"id": "C98", "title": "Powers, depth and squares of the k2-treap", "statement": "exp, divexp and modexp of precomp are the power k^l, the quotient and the rest; get_t is the least t such that all coordinates are below k^t; contained and overlap decide whether the square of a node is inside of the rectangle of a query and whether they share a point.", "quantifier": "all parameters k >= 2, all exponents with k^l below 2^64, all 64 bit coordinates (get_t: those below a power of k that is below 2^64), all nodes whose square lies in the 64 bit coordinates, all rectangles", "why_tests_cant": "The specialisations for 2, 4, 8 and 16 shift where the general table multiplies; the table wraps around and the shifts are undefined at 2^64, which is reached only with coordinates near 2^64.", "anchors": ["include/sdsl/k2_treap_helper.hpp:41-145", "include/sdsl/k2_treap.hpp:84-101", "include/sdsl/k2_treap_algorithm.hpp:55-76"]}
{"id": "C99", "title": "Construction of the inverse suffix array", "statement": "construct_isa stores in the cache the inverse of the permutation that is stored as suffix array, from both sides; it leaves a cache that has the inverse as it is, throws without a suffix array, and a second call changes nothing.", "quantifier": "all permutations, all states of the cache", "why_tests_cant": "The tests only see the inverse through the samples of suffix arrays of a few texts, not for all permutations.", "anchors": ["lib/construct_isa.cpp:10-24"]}
