{
 "claims": [
  {
   "property": "C01",
   "status": "proved",
   "theorems": [
    "Base64.C01_encode_is_rfc4648",
    "Base64.C01_encode_length"
   ],
   "note": "for every byte string; alphabet and grouping specified independently of the code's bit strings"
  },
  {
   "property": "C02",
   "status": "partial",
   "theorems": [
    "Base64.C02_round_trip_partial",
    "Base64.C02_round_trip_iff",
    "Base64.C02_round_trip_refuted"
   ],
   "note": "false as stated: NUL bytes are dropped by base64Decode; exact result and exact domain proved"
  },
  {
   "property": "C03",
   "status": "proved",
   "theorems": [
    "Base64.C03_encode_with_length",
    "Base64.C03_decode_encode_with_length"
   ],
   "note": "encoded length below 2^31; beyond that see C166"
  },
  {
   "property": "C04",
   "status": "proved",
   "theorems": [
    "Base64.C04_padding_irrelevant",
    "Base64.C04_insert_pad"
   ],
   "note": ""
  },
  {
   "property": "C05",
   "status": "proved",
   "theorems": [
    "Url.C05_round_trip"
   ],
   "note": ""
  },
  {
   "property": "C06",
   "status": "proved",
   "theorems": [
    "Url.C06_encode_safe",
    "Url.C06_unreserved_unchanged",
    "Url.C06_reserved_escaped",
    "Url.C06_encode_injective",
    "Url.C06_encode_append"
   ],
   "note": ""
  },
  {
   "property": "C07",
   "status": "partial",
   "theorems": [
    "Url.C07_decode_safe_refuted",
    "Url.C07_decode_safe_partial",
    "Url.C07_no_percent_safe"
   ],
   "note": "false as stated: a '%' as last character reads past the terminating NUL; exact set of dangerous inputs proved"
  },
  {
   "property": "C08",
   "status": "proved",
   "theorems": [
    "Kmp.C08_first_occurrence"
   ],
   "note": "lengths and start below 2^31"
  },
  {
   "property": "C09",
   "status": "partial",
   "theorems": [
    "Kmp.C09_empty_pattern_refuted",
    "Kmp.C09_large_start_refuted",
    "Kmp.C09_defined_partial"
   ],
   "note": "false as stated: empty pattern, and starts whose int conversion is negative or wraps"
  },
  {
   "property": "C10",
   "status": "proved",
   "theorems": [
    "EditDistance.C10_least_edits"
   ],
   "note": "lengths below 2^31-1"
  },
  {
   "property": "C11",
   "status": "proved",
   "theorems": [
    "EditDistance.C11_zero_iff",
    "EditDistance.C11_symmetric",
    "EditDistance.C11_triangle",
    "EditDistance.C11_bounds"
   ],
   "note": "lengths below 2^31-1"
  },
  {
   "property": "C12",
   "status": "partial",
   "theorems": [
    "MathFns.C12_gcd",
    "MathFns.C12_gcd_nonneg",
    "MathFns.C12_gcd_refuted"
   ],
   "note": "false as stated for exactly two pairs of ints (INT_MIN % -1); proved for all others"
  },
  {
   "property": "C13",
   "status": "proved",
   "theorems": [
    "MathFns.C13_lcm",
    "MathFns.C13_lcm_zero",
    "MathFns.C13_lcm_overflow"
   ],
   "note": "product assumed to fit; overflow and lcm(0,0) shown undefined"
  },
  {
   "property": "C14",
   "status": "proved",
   "theorems": [
    "Fraction.C14_ctor_canonical",
    "Fraction.C14_ctor_defined",
    "Fraction.C14_ctor_zero",
    "Fraction.C14_ctor_values",
    "Fraction.C14_ops_canonical"
   ],
   "note": "constructor defined for all ints but INT_MIN; all operators"
  },
  {
   "property": "C15",
   "status": "proved",
   "theorems": [
    "Fraction.C15_exact",
    "Fraction.C15_defined",
    "Fraction.C15_div_zero"
   ],
   "note": "correct whenever the operation returns; returns when the products stay within ±INT_MAX"
  },
  {
   "property": "C16",
   "status": "proved",
   "theorems": [
    "Fraction.C16_eq",
    "Fraction.C16_order"
   ],
   "note": "cross products assumed to fit"
  },
  {
   "property": "C17",
   "status": "partial",
   "theorems": [
    "Fraction.C17_compound_partial",
    "Fraction.C17_compound_refuted",
    "Fraction.C17_exact_partial"
   ],
   "note": "false for /=: it divides the components as ints; exactly what it does: C17_exact_partial"
  },
  {
   "property": "C18",
   "status": "partial",
   "theorems": [
    "Fraction.C18_mixed_partial",
    "Fraction.C18_mixed_refuted",
    "Fraction.C18_only_refuted"
   ],
   "note": "false for int - Fraction and int / Fraction (operands swapped); n - f is right only if it is 0, n / f only if it is 1 or -1 (C18_only_refuted)"
  },
  {
   "property": "C19",
   "status": "partial",
   "theorems": [
    "BigNum.C19_ofInt_partial",
    "BigNum.C19_ofInt_refuted",
    "BigNum.C19_ofInt_too_long",
    "BigNum.C19_ofString_decimal"
   ],
   "note": "0 prints as the empty text and INT64_MIN is undefined; every other number that fits round-trips"
  },
  {
   "property": "C20",
   "status": "partial",
   "theorems": [
    "BigNum.C20_plus_partial",
    "BigNum.C20_plus_diverges_refuted",
    "BigNum.C20_plus_refuted",
    "BigNum.C20_plus_full_refuted",
    "BigNum.C20_plusInt_partial",
    "BigNum.C20_full_all_refuted"
   ],
   "note": "false as stated: different signs with a negative sum recurse for ever; every pair of numbers of the same sign of which one uses all cells is undefined (C20_full_all_refuted); all other cases proved"
  },
  {
   "property": "C21",
   "status": "partial",
   "theorems": [
    "BigNum.C21_minus_partial",
    "BigNum.C21_minus_refuted",
    "BigNum.C21_minusInt_partial",
    "BigNum.C21_full_all_refuted"
   ],
   "note": "false for two different negative operands; every pair of numbers with different signs of which one uses all cells is undefined (C21_full_all_refuted); all other sign cases proved"
  },
  {
   "property": "C22",
   "status": "partial",
   "theorems": [
    "BigNum.C22_times_partial",
    "BigNum.C22_times_refuted",
    "BigNum.C22_timesInt_partial",
    "BigNum.C22_full_all_refuted"
   ],
   "note": "false for negative right operands; factors which together have more digits than the array has cells are always undefined (C22_full_all_refuted); all others proved; N at most 20000000 so that no int overflows"
  },
  {
   "property": "C23",
   "status": "proved",
   "theorems": [
    "BigNum.C23_compare"
   ],
   "note": "canonical numbers (zero has positive sign)"
  },
  {
   "property": "C24",
   "status": "partial",
   "theorems": [
    "BigNum.C24_assign_partial",
    "BigNum.C24_assign_refuted",
    "BigNum.C24_sum_exact",
    "BigNum.C24_sum_iff_partial",
    "BigNum.C24_copy_refuted"
   ],
   "note": "False as stated: stale or indeterminate cells beyond the length take part in later additions. What a sum with an assigned number gives is exact (C24_sum_exact: the old digits at the places the new number lacks are added), with the exact condition for it to be right; with copies, every sum with a longer number is without a result."
  },
  {
   "property": "C25",
   "status": "partial",
   "theorems": [
    "MathFns.C25_binaryPow_correct_partial",
    "MathFns.C25_binaryPow_defined_partial",
    "MathFns.C25_binaryPow_special_partial",
    "MathFns.C25_binaryPow_refuted",
    "MathFns.C25_binaryPow_wrapping",
    "MathFns.C25_binaryPow_wrapping_refuted"
   ],
   "note": "false as stated: the last squaring overflows although the result fits; exact domain proved; modulo 2^64 in wrapping arithmetic except for 2^e with e >= 64"
  },
  {
   "property": "C26",
   "status": "proved",
   "theorems": [
    "MathFns.C26_generic_correct",
    "MathFns.C26_generic_total",
    "MathFns.C26_generic_nonpos"
   ],
   "note": "any semigroup, *= may be partial"
  },
  {
   "property": "C27",
   "status": "partial",
   "theorems": [
    "MathFns.C27_factorial",
    "MathFns.C27_factorial64",
    "MathFns.C27_permutation_partial",
    "MathFns.C27_permutation64_partial",
    "MathFns.C27_permutation_refuted",
    "MathFns.C27_binomial",
    "MathFns.C27_binomial64_partial",
    "MathFns.C27_binomial64_refuted",
    "MathFns.C27_invalid"
   ],
   "note": "permutation(n, 0) returns n instead of 1; binomial of 64-bit arguments is undefined if n - r (or r) exceeds the greatest int, because the loop counters are ints; everything else proved"
  },
  {
   "property": "C28",
   "status": "partial",
   "theorems": [
    "Stats.C28_double",
    "Stats.C28_container",
    "Stats.C28_int_partial",
    "Stats.C28_fn",
    "Stats.C28_stddev",
    "Stats.C28_int_refuted"
   ],
   "note": "double modelled by exact rationals; false for int arrays with elements whose square overflows"
  },
  {
   "property": "C29",
   "status": "proved",
   "theorems": [
    "Matrix.C29_sound",
    "Matrix.C29_exact",
    "Matrix.C29_int",
    "Matrix.C29_mismatch",
    "Matrix.C29_ring_laws"
   ],
   "note": "exact for any arithmetic that is exact when defined; total over a field and, with bounds, for int"
  },
  {
   "property": "C30",
   "status": "partial",
   "theorems": [
    "Matrix.C30_timesAssign_refuted",
    "Matrix.C30_pow_one_partial",
    "Matrix.C30_pow_refuted"
   ],
   "note": "false as stated: *= frees its rows twice on every call; pow never squares, does not return for exponent 0"
  },
  {
   "property": "C31",
   "status": "proved",
   "theorems": [
    "Matrix.C31_reduce",
    "Matrix.C31_no_columns"
   ],
   "note": "exact field arithmetic in place of double"
  },
  {
   "property": "C32",
   "status": "proved",
   "theorems": [
    "SegmentTree.C32_static"
   ],
   "note": "All sizes; exact arithmetic over an ordered commutative ring; the tree is also unchanged by queries."
  },
  {
   "property": "C33",
   "status": "partial",
   "theorems": [
    "SegmentTree.C33_refuted",
    "SegmentTree.C33_partial",
    "SegmentTree.C33_blocks_partial"
   ],
   "note": "False as stated (C33_refuted): addInterval/mulInterval never recompute the values of partially covered ancestors. C33_partial: right for every interval each earlier update contains or avoids, on the sizes of C34 (nonnegative factors for min/max). C33_blocks_partial: the exact answer of every query after every history on those sizes: a query joins the blocks into which its interval is cut, each changed by exactly the updates that contain the whole block."
  },
  {
   "property": "C34",
   "status": "partial",
   "theorems": [
    "SegmentTree.C34_sizes",
    "SegmentTree.C34_refuted",
    "SegmentTree.C34_partial"
   ],
   "note": "False as stated (C34_refuted, size 6). C34_sizes: memory safe for all histories exactly for sizes 2^k-1, 2^k, 2^k+1. C34_partial: queries alone are safe for every size; the empty vector recurses for ever."
  },
  {
   "property": "C35",
   "status": "proved",
   "theorems": [
    "Tree.C35_ancestors"
   ],
   "note": "Every tree of fewer than 2^30 nodes built by setRoot and addNode of new nodes; also: beyond the height getAncestor is undefined."
  },
  {
   "property": "C36",
   "status": "partial",
   "theorems": [
    "Tree.C36_refuted",
    "Tree.C36_partial",
    "Tree.C36_simple"
   ],
   "note": "False as stated (C36_refuted: two nodes at depth 5 meeting at the root). C36_partial gives the exact condition under which LCA is defined; then it is right. C36_simple: simple sufficient conditions."
  },
  {
   "property": "C37",
   "status": "proved",
   "theorems": [
    "Tree.C37_distance"
   ],
   "note": "Shortest-walk length, whenever LCA is defined."
  },
  {
   "property": "C38",
   "status": "proved",
   "theorems": [
    "BST.Props.C38_find"
   ],
   "note": "heap of nodes with null dereference as UB; fresh nodes at distinct addresses"
  },
  {
   "property": "C39",
   "status": "proved",
   "theorems": [
    "BST.Props.C39_wellformed"
   ],
   "note": ""
  },
  {
   "property": "C40",
   "status": "partial",
   "theorems": [
    "BST.Props.C40_refuted",
    "BST.Props.C40_use_after_erase_refuted",
    "BST.Props.C40_partial",
    "BST.Props.C40_queue_partial",
    "BST.Props.C40_lost_refuted"
   ],
   "note": "false as stated: erasing the last node in order of several dereferences null; after erasing a node with nodes on both sides parent links are stale and, whatever the tree, the node inserted last afterwards is never found (C40_lost_refuted); one erasure and the priority-queue discipline proved"
  },
  {
   "property": "C41",
   "status": "proved",
   "theorems": [
    "BST.Props.C41_neighbours"
   ],
   "note": ""
  },
  {
   "property": "C42",
   "status": "proved",
   "theorems": [
    "Trie.Props.C42_contain",
    "Trie.Props.C42_insert"
   ],
   "note": "The double array, tails, tail free list, block splitting and relocation are modelled with every vector access checked; proved by a representation invariant for all histories."
  },
  {
   "property": "C43",
   "status": "partial",
   "theorems": [
    "Trie.Props.C43_refuted",
    "Trie.Props.C43_partial",
    "Trie.Props.C43_absent_partial",
    "Trie.Props.C43_sheltered_partial",
    "Trie.Props.C43_beginning_partial",
    "Trie.Props.C43_program_partial"
   ],
   "note": "Refuted: removing a word which is not there can index past the end (t.remove(\"z\") on a new trie). Proved: removing a stored word removes exactly it; removing an absent one is undefined or changes nothing. Removing an absent word is proved to change nothing when each beginning of it that was ever shared has a word not before it in the alphabet (Spec/TrieAbsent), in particular when a word begins with it; programs of such removals are defined."
  },
  {
   "property": "C44",
   "status": "proved",
   "theorems": [
    "Trie.Props.C44_size"
   ],
   "note": "Holds for every history that does not hit the undefined behaviour of C43."
  },
  {
   "property": "C45",
   "status": "partial",
   "theorems": [
    "Trie.Props.C45_refuted",
    "Trie.Props.C45_remove_refuted",
    "Trie.Props.C45_endless_refuted",
    "Trie.Props.C45_sound_partial",
    "Trie.Props.C45_partial",
    "Trie.Props.C45_history_partial",
    "Trie.Props.C45_regular_partial"
   ],
   "note": "Refuted: the iterator loses words ({ab, ac, b} gives ab, ac) or never ends ({abc, abd}). Proved: every word shown is stored (any history); for tries built by insertions the iteration is complete and ends exactly if the set of words is Regular (a condition on shared beginnings), and then it is in alphabetical order; after any history of insertions and removals the same holds exactly if the history is RegularAfter (the beginnings which were ever shared by two stored words, and the words stored now)."
  },
  {
   "property": "C46",
   "status": "partial",
   "theorems": [
    "Trie.Props.C46_refuted",
    "Trie.Props.C46_forget_refuted",
    "Trie.Props.C46_partial",
    "Trie.Props.C46_all_refuted"
   ],
   "note": "Refuted: the mapper is a static member, so constructing a trie changes the mapper of all others. Proved: when all mappers agree on the letters in use, tries are independent sets under every interleaving. In every program: a trie constructed with a mapper that refuses a character makes every call on every other trie with a word that begins with it end the program (C46_all_refuted)."
  },
  {
   "property": "C47",
   "status": "proved",
   "theorems": [
    "Json.Props.C47_string_roundtrip",
    "Json.Props.C47_escape_injective",
    "Json.Props.C47_escape_safe",
    "Json.Props.C47_escape_means"
   ],
   "note": "All byte strings, any tab and depth."
  },
  {
   "property": "C48",
   "status": "proved",
   "theorems": [
    "Json.Props.C48_roundtrip",
    "Json.Props.C48_reload"
   ],
   "note": "Tab of white space; floats are in C79."
  },
  {
   "property": "C49",
   "status": "partial",
   "theorems": [
    "Json.Props.C49_refuted",
    "Json.Props.C49_array_refuted",
    "Json.Props.C49_terminates_partial",
    "Json.Props.C49_safe_partial",
    "Json.Props.C49_cut_refuted",
    "Json.Props.C49_guard_partial",
    "Json.Props.C49_exponent_refuted",
    "Json.Props.C49_space_refuted"
   ],
   "note": "Refuted (reads behind the end of every text which ends inside a string, or inside brackets after a number: C49_cut_refuted; exponents out of range or without digits behind their first character; bytes from 128 on outside strings). Proved: always ends; no undefined behaviour for well-formed texts without exponents and unicode escapes; for every text, well formed or not, with only ASCII characters outside strings (any bytes inside) and sound exponents, no undefined behaviour if a space and two quotes are appended, which never changes the value of a text that can be loaded. Missing: the full statement is false."
  },
  {
   "property": "C50",
   "status": "partial",
   "theorems": [
    "Json.Props.C50_refuted",
    "Json.Props.C50_ub_refuted",
    "Json.Props.C50_array_refuted",
    "Json.Props.C50_range_refuted",
    "Json.Props.C50_partial",
    "Json.Props.C50_exponent_partial",
    "Json.Props.C50_inside_refuted",
    "Json.Props.C50_unsigned_refuted",
    "Json.Props.C50_nearest_partial"
   ],
   "note": "Refuted (every exponent without sign: undefined with one digit, else its first digit is lost; every number with an exponent inside an array or object, at any depth, ends the program: C50_inside_refuted; ints out of range, which become the nearest int). Proved for literals without exponent anywhere, and with a signed exponent as the whole text; exact arithmetic."
  },
  {
   "property": "C51",
   "status": "proved",
   "theorems": [
    "Cont.Props.C51_program",
    "Cont.Props.C51_get",
    "Cont.Props.C51_ends",
    "Cont.Props.C51_insert",
    "Cont.Props.C51_erase",
    "Cont.Props.C51_set",
    "Cont.Props.C51_push_pop",
    "Cont.Props.C51_size",
    "Cont.Props.C51_safe"
   ],
   "note": "All member functions of Vector over lists, and every sequence of calls (C51_program); size is proved for lengths up to INT_MAX. Construction with a negative size and sizes beyond that: C166."
  },
  {
   "property": "C52",
   "status": "partial",
   "theorems": [
    "Cont.Props.C52_program_partial",
    "Cont.Props.C52_get_partial",
    "Cont.Props.C52_insert_partial",
    "Cont.Props.C52_erase_partial",
    "Cont.Props.C52_ends_partial",
    "Cont.Props.C52_sort_partial",
    "Cont.Props.C52_reverse_partial",
    "Cont.Props.C52_size_partial",
    "Cont.Props.C52_merge_partial",
    "Cont.Props.C52_refuted",
    "Cont.Props.C52_safe_partial"
   ],
   "note": "merge of lists that are not sorted is undefined (refuted); everything else holds, also for every sequence of calls."
  },
  {
   "property": "C53",
   "status": "proved",
   "theorems": [
    "Cont.Props.C53_program",
    "Cont.Props.C53_lifo",
    "Cont.Props.C53_empty",
    "Cont.Props.C53_size"
   ],
   "note": "All histories of push, pop, top, clear, with all values returned (C53_program)."
  },
  {
   "property": "C54",
   "status": "partial",
   "theorems": [
    "Cont.Props.C54_program_partial",
    "Cont.Props.C54_fifo_partial",
    "Cont.Props.C54_empty_partial",
    "Cont.Props.C54_ends_partial",
    "Cont.Props.C54_refuted"
   ],
   "note": "first/last of an empty queue are unchecked (refuted); FIFO order, dequeue and size hold, also for every sequence of enqueue and dequeue."
  },
  {
   "property": "C55",
   "status": "proved",
   "theorems": [
    "Cont.Props.C55_map",
    "Cont.Props.C55_map_size",
    "Cont.Props.C55_map_init",
    "Cont.Props.C55_set",
    "Cont.Props.C55_set_size"
   ],
   "note": "All histories of set, m[key], erase, clear (Map) and insert, erase, clear (Set)."
  },
  {
   "property": "C56",
   "status": "proved",
   "theorems": [
    "Cont.Props.C56_multiset_runs",
    "Cont.Props.C56_multiset",
    "Cont.Props.C56_multiset_init",
    "Cont.Props.C56_multimap_init",
    "Cont.Props.C56_multimap",
    "Cont.Props.C56_multimap_erased"
   ],
   "note": "All histories of insert, erase, clear (MultiSet); MultiMap has no member to add pairs, so it is described through its constructor."
  },
  {
   "property": "C57",
   "status": "proved",
   "theorems": [
    "Algo.Props.C57_zip"
   ],
   "note": "Any number of containers of one type; the zip loop, min_ and resize are modelled."
  },
  {
   "property": "C58",
   "status": "proved",
   "theorems": [
    "Algo.Props.C58_map",
    "Algo.Props.C58_filter",
    "Algo.Props.C58_map_effects",
    "Algo.Props.C58_filter_effects"
   ],
   "note": "Also for functions with state and effects on the elements; the function does not touch the container other than through its argument."
  },
  {
   "property": "C59",
   "status": "partial",
   "theorems": [
    "Rand.Props.C59_range_partial",
    "Rand.Props.C59_cover_partial",
    "Rand.Props.C59_invalid",
    "Rand.Props.C59_max",
    "Rand.Props.C59_refuted"
   ],
   "note": "Proved for max - min <= INT_MAX (range, coverage, invalid arguments); refuted for wider ranges, where the subtraction overflows."
  },
  {
   "property": "C60",
   "status": "partial",
   "theorems": [
    "Rand.Props.C60_refuted",
    "Rand.Props.C60_negative_partial"
   ],
   "note": "Refuted: undefined for exactly those outputs whose low 32 bits are >= 2^31; the remaining outputs cover exactly the negative ints."
  },
  {
   "property": "C61",
   "status": "partial",
   "theorems": [
    "Rand.Props.C61_lower_partial",
    "Rand.Props.C61_max_partial",
    "Rand.Props.C61_unit_partial",
    "Rand.Props.C61_invalid",
    "Rand.Props.C61_refuted",
    "Rand.Props.C61_upper_partial"
   ],
   "note": "Binary64 with correct rounding. Proved: result finite, >= min, monotone in the output, <= max for min = 0 and <= max + (max - min) / 2^52 always. Refuted: the result can be max or beyond it, and infinite for extreme ranges."
  },
  {
   "property": "C62",
   "status": "partial",
   "theorems": [
    "Rand.Props.C62_binomial_partial",
    "Rand.Props.C62_negBinomial_partial",
    "Rand.Props.C62_negBinomial_exists_partial",
    "Rand.Props.C62_poisson_partial",
    "Rand.Props.C62_binomial_refuted",
    "Rand.Props.C62_poisson_refuted",
    "Rand.Props.C62_negBinomial_refuted",
    "Rand.Props.C62_invalid"
   ],
   "note": "Exact arithmetic: inverse of the CDF proved for Binomial (n <= 33), NegativeBinomial, Geometric, Poisson. Refuted: Binomial(34, p) overflows; in binary64 Poisson(800) and NegativeBinomial(1100, 0.5) never return."
  },
  {
   "property": "C63",
   "status": "proved",
   "theorems": [
    "Geo.Props.C63_intersection"
   ],
   "note": "Exact arithmetic (reals); binary64 is C101."
  },
  {
   "property": "C64",
   "status": "partial",
   "theorems": [
    "Geo.Props.C64_line",
    "Geo.Props.C64_segment_partial",
    "Geo.Props.C64_segment_refuted",
    "Geo.Props.C64_degenerate_refuted",
    "Geo.Props.C64_degenerate_all_refuted"
   ],
   "note": "Exact arithmetic: disToLine is the distance; disToSegment never exceeds it by more than the eps of its comparisons allows. Refuted for segments shorter than eps and, in binary64, for all segments of length 0 (NaN, for all points up to 2^998)."
  },
  {
   "property": "C65",
   "status": "partial",
   "theorems": [
    "Geo.Props.C65_order_partial",
    "Geo.Props.C65_order_real",
    "Geo.Props.C65_eq_partial",
    "Geo.Props.C65_eq_refuted",
    "Geo.Props.C65_nan_refuted",
    "Geo.Props.C65_weak_refuted",
    "Geo.Props.C65_eq_all_refuted",
    "Geo.Props.C65_incomparable_refuted"
   ],
   "note": "< is a strict total (lexicographic) order without NaN, in binary64 and exactly. Refuted: == within eps is not transitive (around every point, in every dimension but 0) and points that are == may be <; all-NaN points compare equal to everything; a point with NaN as first coordinate is neither <, <=, > nor >= any point, itself included."
  },
  {
   "property": "C66",
   "status": "proved",
   "theorems": [
    "Graph.C66_vertices",
    "Graph.C66_edges",
    "Graph.C66_stable",
    "Graph.C66_limit"
   ],
   "note": "All histories of all calls."
  },
  {
   "property": "C67",
   "status": "proved",
   "theorems": [
    "Graph.C67_degrees",
    "Graph.C67_lists",
    "Graph.C67_defined",
    "Graph.C67_copy"
   ],
   "note": "All histories of constructions, changes of vertices and addEdge; also when such a history is defined."
  },
  {
   "property": "C68",
   "status": "partial",
   "theorems": [
    "Graph.C68_refuted",
    "Graph.C68_leak_refuted",
    "Graph.C68_owner_partial",
    "Graph.C68_destroy_partial",
    "Graph.C68_noleak_partial",
    "Graph.C68_copy_all_refuted",
    "Graph.C68_both_refuted",
    "Graph.C68_leak_all_refuted"
   ],
   "note": "Refuted: a copied vertex with edges makes two destructors delete the same edge; assignment leaks edges. Proved for histories in which no vertex with leaving edges is copied or assigned. In every program: a vertex with leaving edges and its copy are never both destroyed unless one is assigned to (C68_copy_all_refuted, C68_both_refuted), and an assignment loses the edges of its target for good (C68_leak_all_refuted)."
  },
  {
   "property": "C69",
   "status": "proved",
   "theorems": [
    "Base64.C69_encode_injective"
   ],
   "note": ""
  },
  {
   "property": "C70",
   "status": "proved",
   "theorems": [
    "Url.C70_decode_well_formed"
   ],
   "note": ""
  },
  {
   "property": "C71",
   "status": "partial",
   "theorems": [
    "BigNum.C71_compound_partial",
    "BigNum.C71_times_partial",
    "BigNum.C71_inc_dec_partial",
    "BigNum.C71_compound_refuted"
   ],
   "note": "value right immediately after the assignment; false for later arithmetic (stale digits)"
  },
  {
   "property": "C72",
   "status": "partial",
   "theorems": [
    "BigNum.C72_neg_partial",
    "BigNum.C72_neg_refuted",
    "BigNum.C72_order",
    "BigNum.C72_twice_partial",
    "BigNum.C72_zero_refuted"
   ],
   "note": "The value is right, and negating twice gives the number again. Refuted for every zero: -0 differs from 0, is smaller, and is printed as `-`; how numbers with either zero compare is given exactly (order). The copy has indeterminate cells beyond its length."
  },
  {
   "property": "C73",
   "status": "partial",
   "theorems": [
    "Base64.C73_foreign_partial",
    "Base64.C73_foreign_refuted"
   ],
   "note": "false as stated: foreign characters are read like '/'; exact behaviour proved"
  },
  {
   "property": "C74",
   "status": "proved",
   "theorems": [
    "Matrix.C74_values",
    "Matrix.C74_ragged",
    "Matrix.C74_zero"
   ],
   "note": "rows not shorter than the first; self-assignment (a no-op in the code) not modelled"
  },
  {
   "property": "C75",
   "status": "proved",
   "theorems": [
    "SegmentTree.C75_point"
   ],
   "note": "For the sizes of C34; all histories."
  },
  {
   "property": "C76",
   "status": "partial",
   "theorems": [
    "BST.Props.C76_refuted",
    "BST.Props.C76_partial",
    "BST.Props.C76_null_partial",
    "BST.Props.C76_count_partial"
   ],
   "note": "false as stated: only the node's own subtree is searched; right at the root, and for any node an answer that is not null is right; exactly n - 1 of the 2n answers of a tree with n nodes are not null, whatever its shape"
  },
  {
   "property": "C77",
   "status": "partial",
   "theorems": [
    "Trie.Props.C77_refuted",
    "Trie.Props.C77_partial"
   ],
   "note": "Refuted for alphabets larger than 26 letters (27 arcs are hard-wired in relocation). Proved for every adapter with codes 2 to 27."
  },
  {
   "property": "C78",
   "status": "partial",
   "theorems": [
    "Json.Props.C78_key_refuted",
    "Json.Props.C78_unicode_refuted",
    "Json.Props.C78_partial",
    "Json.Props.C78_plain_partial",
    "Json.Props.C78_unicode_partial"
   ],
   "note": "Refuted for keys with escapes and for unicode escapes (kept as they stand; exactly the ones with four hexadecimal digits are accepted). Proved for all other texts without exponents, ints in range; exact arithmetic."
  },
  {
   "property": "C79",
   "status": "proved",
   "theorems": [
    "Json.Props.C79_float_roundtrip"
   ],
   "note": "Exact arithmetic for the floats (the rounding of double is not modelled)."
  },
  {
   "property": "C80",
   "status": "partial",
   "theorems": [
    "Json.Props.C80_assign_partial",
    "Json.Props.C80_read_partial",
    "Json.Props.C80_assign_read_partial",
    "Json.Props.C80_size_partial",
    "Json.Props.C80_length_partial",
    "Json.Props.C80_count_partial",
    "Json.Props.C80_refuted",
    "Json.Props.C80_negative_refuted",
    "Json.Props.C80_append_partial"
   ],
   "note": "Refuted for negative indices (undefined behaviour). Proved for all paths with indices from 0 on."
  },
  {
   "property": "C81",
   "status": "partial",
   "theorems": [
    "Json.Props.C81_refuted",
    "Json.Props.C81_type_refuted",
    "Json.Props.C81_key_partial",
    "Json.Props.C81_index_partial",
    "Json.Props.C81_insert_refuted"
   ],
   "note": "Refuted: every missing key is inserted into the const object, with value null (C81_insert_refuted); undefined for non-objects. Proved for present keys and for arrays."
  },
  {
   "property": "C82",
   "status": "partial",
   "theorems": [
    "Json.Props.C82_odd_refuted",
    "Json.Props.C82_key_refuted",
    "Json.Props.C82_partial",
    "Json.Props.C82_odd_all_refuted",
    "Json.Props.C82_exact_partial",
    "Json.Props.C82_lost_refuted"
   ],
   "note": "Refuted for odd lists and keys that need an escape. Proved for the others, all keys being strings. Exact: every odd list is undefined (C82_odd_all_refuted), keys are found under their escaped form (C82_exact_partial), keys with control characters never (C82_lost_refuted)."
  },
  {
   "property": "C83",
   "status": "partial",
   "theorems": [
    "Json.Props.C83_refuted",
    "Json.Props.C83_partial",
    "Json.Props.C83_exact_partial"
   ],
   "note": "Refuted for strings that need an escape. Proved for the rest. Exactly those strings change (C83_exact_partial)."
  },
  {
   "property": "C84",
   "status": "proved",
   "theorems": [
    "Cont.Props.C84_lexicographic",
    "Cont.Props.C84_trichotomy",
    "Cont.Props.C84_transitive"
   ],
   "note": "std::lexicographical_compare modelled element by element."
  },
  {
   "property": "C85",
   "status": "proved",
   "theorems": [
    "Stream.Props.C85_read",
    "Stream.Props.C85_roundtrip"
   ],
   "note": "Over a model of std::istream written from the standard."
  },
  {
   "property": "C86",
   "status": "partial",
   "theorems": [
    "Stream.Props.C86_refuted",
    "Stream.Props.C86_start_partial",
    "Stream.Props.C86_end_partial",
    "Stream.Props.C86_terminates_partial",
    "Stream.Props.C86_exact_partial",
    "Stream.Props.C86_unique_partial"
   ],
   "note": "Refuted by six malformed texts. C86_exact_partial classifies every text: exactly which ones are undefined (Spec/StreamBad.lean), which ones give a vector, and that all others end the program; a text determines the vector it begins with; reading always ends."
  },
  {
   "property": "C87",
   "status": "partial",
   "theorems": [
    "Stream.Props.C87_value_partial",
    "Stream.Props.C87_zero_partial",
    "Stream.Props.C87_sign_partial",
    "Stream.Props.C87_refuted"
   ],
   "note": "Refuted for blank strings; the rest holds. Other types: C142, C143."
  },
  {
   "property": "C88",
   "status": "partial",
   "theorems": [
    "Rand.Props.C88_int_partial",
    "Rand.Props.C88_refuted",
    "Rand.Props.C88_bool"
   ],
   "note": "nextInt proved for max - min <= INT_MAX and refuted beyond; nextBool proved."
  },
  {
   "property": "C89",
   "status": "partial",
   "theorems": [
    "Rand.Props.C89_exact_refuted",
    "Rand.Props.C89_refuted",
    "Rand.Props.C89_binomial_partial"
   ],
   "note": "Binomial proved for every number type; refuted for NegativeBinomial, Geometric and Poisson at u = 1 (exact and binary64)."
  },
  {
   "property": "C90",
   "status": "partial",
   "theorems": [
    "Rand.Props.C90_partial",
    "Rand.Props.C90_refuted",
    "Rand.Props.C90_invalid"
   ],
   "note": "Binary64: number of outputs giving true is within 1 + c/2^53 of p 2^64; p = 0 never true; refuted for p = 1."
  },
  {
   "property": "C91",
   "status": "partial",
   "theorems": [
    "Rand.Props.C91_exponential_partial",
    "Rand.Props.C91_gamma_partial",
    "Rand.Props.C91_int_refuted",
    "Rand.Props.C91_finite_partial",
    "Rand.Props.C91_refuted",
    "Rand.Props.C91_zero_refuted",
    "Rand.Props.C91_invalid",
    "Rand.Props.C91_distribution_partial"
   ],
   "note": "Exact arithmetic: inverse CDF for Exponential and (sum) Gamma with whole k; number of outputs with result <= t proved. Binary64 with any log satisfying LogOk: finite and non-negative unless u = 1. Refuted: infinite for u = 1; lambda = 0 accepted; k >= 2^31 converted to int."
  },
  {
   "property": "C92",
   "status": "partial",
   "theorems": [
    "Rand.Props.C92_partial",
    "Rand.Props.C92_refuted"
   ],
   "note": "Proved for everything computed from the generator alone; refuted for NormalDistribution, whose spare value survives."
  },
  {
   "property": "C93",
   "status": "partial",
   "theorems": [
    "Rand.Props.C93_refuted",
    "Rand.Props.C93_partial"
   ],
   "note": "Refuted: the two evaluation orders differ on a concrete engine; the value for each order is characterised for even r."
  },
  {
   "property": "C94",
   "status": "partial",
   "theorems": [
    "Rand.Props.C94_binomial_partial",
    "Rand.Props.C94_binomial_refuted",
    "Rand.Props.C94_negBinomial_partial",
    "Rand.Props.C94_poisson_partial"
   ],
   "note": "Exact arithmetic; Binomial for n <= 33 (refuted beyond: the constructor overflows); NegativeBinomial and Poisson for k within int."
  },
  {
   "property": "C95",
   "status": "proved",
   "theorems": [
    "Rand.Props.C95_polar",
    "Rand.Props.C95_diverge",
    "Rand.Props.C95_invalid"
   ],
   "note": "Exact arithmetic, complete characterisation over an arbitrary engine."
  },
  {
   "property": "C96",
   "status": "partial",
   "theorems": [
    "Rand.Props.C96_partial",
    "Rand.Props.C96_refuted",
    "Rand.Props.C96_law"
   ],
   "note": "Exact arithmetic: the value is the first accepted candidate of Ahrens and Dieter plus the sum of floor(k) exponentials, and the accepted candidate has the gamma law (C96_law). Refuted for shapes of 2^31 and more."
  },
  {
   "property": "C97",
   "status": "partial",
   "theorems": [
    "Geo.Props.C97_compound_partial",
    "Geo.Props.C97_alias_partial",
    "Geo.Props.C97_alias_refuted",
    "Geo.Props.C97_index_partial",
    "Geo.Props.C97_index_refuted"
   ],
   "note": "Holds for arguments that are not coordinates of the target; refuted for p *= p[k], p /= p[k], whose exact result is given, and for the index, which is not checked."
  },
  {
   "property": "C98",
   "status": "partial",
   "theorems": [
    "Geo.Props.C98_zero_partial",
    "Geo.Props.C98_vector_partial",
    "Geo.Props.C98_cross",
    "Geo.Props.C98_refuted",
    "Geo.Props.C98_large_refuted",
    "Geo.Props.C98_small_refuted"
   ],
   "note": "Exact arithmetic. Refuted in binary64: for all points with a coordinate of 2^512 or more the squares overflow and normalize gives the zero vector; for all points with coordinates below 2^-538 they underflow and it gives infinities and NaNs. For the accuracy in between see C137."
  },
  {
   "property": "C99",
   "status": "partial",
   "theorems": [
    "Geo.Props.C99_constructors_partial",
    "Geo.Props.C99_partial",
    "Geo.Props.C99_refuted"
   ],
   "note": "Exact arithmetic: getPoint is exact for circles made by any constructor; area and perimeter are within 2e-8 relative. Refuted: PI is 3.1415926. For the accuracy in binary64 see C137."
  },
  {
   "property": "C100",
   "status": "partial",
   "theorems": [
    "Geo.Props.C100_leak_refuted",
    "Geo.Props.C100_exact",
    "Geo.Props.C100_partial",
    "Geo.Props.C100_refuted"
   ],
   "note": "Refuted (_refuted, _leak_refuted): every binary operator leaks its result, and a loop leaks without bound. C100_exact gives the number for all programs of assignments, compound assignments and loops; C100_partial says that exactly the programs without such operators leave nothing."
  },
  {
   "property": "C101",
   "status": "partial",
   "theorems": [
    "Geo.Props.C101_refuted",
    "Geo.Props.C101_partial",
    "Geo.Props.C101_small_refuted"
   ],
   "note": "Refuted by underflow of the cross product: whenever it is computed as 0, in particular for all directions with coordinates below 2^-538, no coordinate of the result is finite. Proved for whole coordinates up to 2^20, with an error bound; other coordinates: C137."
  },
  {
   "property": "C102",
   "status": "partial",
   "theorems": [
    "Graph.C102_partial",
    "Graph.C102_edge",
    "Graph.C102_self_refuted",
    "Graph.C102_self"
   ],
   "note": "Refuted for self-assignment of a vertex, whose exact effect is given; proved for different vertices and for edges."
  },
  {
   "property": "C103",
   "status": "partial",
   "theorems": [
    "Graph.C103_refuted",
    "Graph.C103_to_refuted",
    "Graph.C103_partial",
    "Graph.C103_stale"
   ],
   "note": "Refuted after a destruction; proved for all histories without destruction of objects and without edges constructed by the client."
  },
  {
   "property": "C104",
   "status": "partial",
   "theorems": [
    "Rand.Props.C104_init",
    "Rand.Props.C104_int_partial",
    "Rand.Props.C104_int_refuted",
    "Rand.Props.C104_double_partial",
    "Rand.Props.C104_double_refuted",
    "Rand.Props.C104_upper_partial"
   ],
   "note": "Proved: the constructors accept exactly the right ranges; integers stay in range and are all reached if max - min fits into an int; doubles with bounds up to 2^1022 are finite, not below min and at most (max - min) / 2^52 above max. Refuted: ranges wider than INT_MAX are accepted and every sample is undefined; max is returned; NaN is accepted."
  },
  {
   "property": "C105",
   "status": "proved",
   "theorems": [
    "Rand.Props.C105_defined",
    "Rand.Props.C105_owner",
    "Rand.Props.C105_client",
    "Rand.Props.C105_set"
   ],
   "note": "Proved for every legal program over an arbitrary engine."
  },
  {
   "property": "C106",
   "status": "proved",
   "theorems": [
    "Rand.Props.C106_global",
    "Rand.Props.C106_continue"
   ],
   "note": "Proved for every history; std::time is an input."
  },
  {
   "property": "C107",
   "status": "partial",
   "theorems": [
    "Rand.Props.C107_refuted",
    "Rand.Props.C107_seed_partial"
   ],
   "note": "Refuted: two distributions constructed in the same second agree on every sampling function. Partial: with the counting engine, times with different low 32 bits give different states; for the engine used, std::mt19937_64, C167 proves that the sequences differ."
  },
  {
   "property": "C108",
   "status": "partial",
   "theorems": [
    "Rand.Props.C108_real",
    "Rand.Props.C108_chiSquared_partial",
    "Rand.Props.C108_exponential_partial",
    "Rand.Props.C108_refuted"
   ],
   "note": "Exact over the reals. In binary64: exact for chi-squared from 2^-1021 on, relative error at most 2^-51 for the exponential between 2^-1021 and 2^1021. Refuted: lambda 49 is read back as 49 + 2^-47; the least positive double is rejected by ChiSquaredDistribution."
  },
  {
   "property": "C109",
   "status": "partial",
   "theorems": [
    "Stats.C109_int_variance",
    "Stats.C109_defined",
    "Stats.C109_container_refuted"
   ],
   "note": "C109_int_variance, C109_defined. C109_container_refuted: for 46340, 46340, 46339 the array version gives 0.222222328..., the container version 0.2222222222 (cancellation). Accuracy is bounded only if the sum of squares is at most 2^53."
  },
  {
   "property": "C110",
   "status": "partial",
   "theorems": [
    "Stats.C110_nonneg",
    "Stats.C110_array",
    "Stats.C110_equal_refuted"
   ],
   "note": "C110_nonneg, C110_array. C110_equal_refuted: the variance of 0.1, 0.1, 0.1 is 2^-112."
  },
  {
   "property": "C111",
   "status": "partial",
   "theorems": [
    "Stats.C111_sum",
    "Stats.C111_nan",
    "Stats.C111_whole",
    "Stats.C111_refuted"
   ],
   "note": "C111_sum, C111_whole, C111_nan (a NaN or infinities of both signs give NaN). C111_refuted: order matters, the mean of 0.1, 0.1, 0.1 is not 0.1, the mean of 2^1023, 2^1023 is infinite."
  },
  {
   "property": "C112",
   "status": "partial",
   "theorems": [
    "Stats.C112_negative_partial",
    "Stats.C112_int_min_refuted",
    "Stats.C112_empty",
    "Stats.C112_too_long"
   ],
   "note": "C112_negative_partial (missing: sample variance for INT_MIN, refuted by C112_int_min_refuted), C112_empty, C112_too_long. -0 and 0 are not distinguished."
  },
  {
   "property": "C113",
   "status": "proved",
   "theorems": [
    "Json.Mem.C113_independent_values",
    "Json.Mem.C113_value_is_determined"
   ],
   "note": "Statements whose source and target overlap are in C114. The bound on recursion depth stands for the stack, which is assumed large enough."
  },
  {
   "property": "C114",
   "status": "partial",
   "theorems": [
    "Json.Mem.C114_self_assignment_refuted",
    "Json.Mem.C114_own_element_refuted",
    "Json.Mem.C114_self_assignment_partial",
    "Json.Mem.C114_self_move"
   ],
   "note": "Refuted: copy assignment frees the target before it reads the source, so x = x (string, array, object), x = x[p] and x = std::move(x[p]) read freed memory, for every reachable state. Proved for scalars; x = std::move(x) gives null."
  },
  {
   "property": "C115",
   "status": "proved",
   "theorems": [
    "Json.Mem.C115_memory_belongs_to_variables",
    "Json.Mem.C115_no_leak"
   ],
   "note": "Allocation failure is not modelled."
  },
  {
   "property": "C116",
   "status": "partial",
   "theorems": [
    "Json.Props.C116_refuted",
    "Json.Props.C116_partial",
    "Json.Props.C116_modulo"
   ],
   "note": "Refuted: the value is converted to int, modulo 2^32. C116_modulo says exactly what is read."
  },
  {
   "property": "C117",
   "status": "proved",
   "theorems": [
    "Json.Props.C117_float_roundtrip",
    "Json.Props.C117_nearest",
    "Json.Props.C117_range",
    "Json.Props.C117_infinite"
   ],
   "note": "Conversion to float is round to nearest even; beyond the range it gives an infinity."
  },
  {
   "property": "C118",
   "status": "partial",
   "theorems": [
    "Json.Props.C118_array_loop",
    "Json.Props.C118_object_loop",
    "Json.Props.C118_const_range_refuted"
   ],
   "note": "Refuted for const ranges: begin() const and end() const of JSONIterator call themselves."
  },
  {
   "property": "C119",
   "status": "partial",
   "theorems": [
    "Graph.C119_vertices_partial",
    "Graph.C119_edges_partial",
    "Graph.C119_values",
    "Graph.C119_order_refuted",
    "Graph.C119_copy_refuted"
   ],
   "note": "Refuted: == compares identities and < values; copies get a new identity. Proved: strict weak order."
  },
  {
   "property": "C120",
   "status": "partial",
   "theorems": [
    "BST.Props.C120_amortized_partial",
    "BST.Props.C120_find_refuted"
   ],
   "note": "Amortised bound with the potential of Sleator and Tarjan over the actual pointer code (loop iterations = fuel of the model); erase of nodes other than the first breaks the tree (C40) and is not covered. Refuted for find, which does not splay: n iterations each time on a path, for every n."
  },
  {
   "property": "C121",
   "status": "proved",
   "theorems": [
    "SegmentTree.C121_depth",
    "SegmentTree.C121_static",
    "SegmentTree.C121_entries"
   ],
   "note": "Depth via results being independent of the fuel above ceil(log2 n) + 1; breadth by running the shared recursion with entries that count one. Exact arithmetic, positions without overflow."
  },
  {
   "property": "C122",
   "status": "partial",
   "theorems": [
    "BigNum.C122_refuted",
    "BigNum.C122_partial"
   ],
   "note": "Refuted: the returned reference dangles for every input (BigNum.h:222-237). Partial: the effect on the object, for numbers from -1 upwards (++) and all numbers (--), as in C71."
  },
  {
   "property": "C123",
   "status": "partial",
   "theorems": [
    "Matrix.C123_refuted",
    "Matrix.C123_exact_partial",
    "Matrix.C123_partial",
    "Matrix.C123_layout_partial",
    "Matrix.C123_double_refuted",
    "Matrix.C123_double_partial",
    "Matrix.C123_double_layout_partial"
   ],
   "note": "Refuted for 1 x 0 matrices (read of A[0][0]) and for Matrix<double>, which prints six places only. Partial: injectivity and layout for all int matrices with at least one column; for double matrices layout, and entries with the same text differ by at most a millionth (not at all from 2^33 on). Exact domain: a column, or no row (C123_exact_partial)."
  },
  {
   "property": "C124",
   "status": "partial",
   "theorems": [
    "SegmentTree.C124_refuted",
    "SegmentTree.C124_static_partial",
    "SegmentTree.C124_sound_partial",
    "SegmentTree.C124_adds_partial",
    "SegmentTree.C124_updates_partial",
    "SegmentTree.C124_factor_needed"
   ],
   "note": "Refuted: the nonexistent children of a leaf collect summands and factors, so adding 2^30 three times to the single element -2^31 overflows although the element always fits. Proved: without updates the condition suffices (all sizes); whatever is defined is right (with the restrictions of C33 and C75); additions and queries are defined when n * (max |v| + sum of |x|) fits an int, and histories with multiplications when n * (product of max(1, |factor|)) * (max |v| + sum of |x|) fits."
  },
  {
   "property": "C125",
   "status": "partial",
   "theorems": [
    "Matrix.C125_refuted",
    "Matrix.C125_mulTo_refuted",
    "Matrix.C125_partial",
    "Matrix.C125_noProduct_partial"
   ],
   "note": "Refuted twice: each product leaves its number of rows plus two blocks allocated, and *= always deletes its rows twice. Proved for every program without *=: it runs, every variable reads as the plain value, and after the scope exactly the blocks forgotten by products are allocated (none without products)."
  },
  {
   "property": "C126",
   "status": "partial",
   "theorems": [
    "Matrix.C126_echelon",
    "Matrix.C126_returns",
    "Matrix.C126_solutions_refuted",
    "Matrix.C126_residual_refuted",
    "Matrix.C126_exact_partial",
    "Matrix.C126_sum",
    "Matrix.C126_times",
    "Matrix.C126_times_integer",
    "Matrix.C126_times_integer_refuted",
    "Matrix.C126_eq"
   ],
   "note": "Echelon form is proved for every arithmetic (rounding, truncation, NaN), termination for all doubles, correct rounding of sums, an error bound for products and exactness for integers. Refuted: rounding loses solutions (two equal rows (49, 1) reduce to rank 2), and a small pivot gives a 'solution' with residual 1. Partial: exact whenever every intermediate result is a double."
  },
  {
   "property": "C127",
   "status": "proved",
   "theorems": [
    "Rand.Props.C127_gamma",
    "Rand.Props.C127_exponential",
    "Rand.Props.C127_chiSquared",
    "Rand.Props.C127_normal",
    "Rand.Props.C127_studentT",
    "Rand.Props.C127_uniform",
    "Rand.Props.C127_bernoulli",
    "Rand.Props.C127_poisson",
    "Rand.Props.C127_binomial",
    "Rand.Props.C127_negBinomial",
    "Rand.Props.C127_geometric",
    "Rand.Props.C127_iid"
   ],
   "note": "Exact arithmetic. Each sampler is shown to follow an explicit procedure on the sequence of uniform numbers (whenever it returns and no output is 2^64-1), and that procedure is shown to have the named law under the product of uniform measures, with the rest of the sequence independent. Rounding and the 2^64 grid of real outputs are outside (C88, C94 count on the grid)."
  },
  {
   "property": "C128",
   "status": "partial",
   "theorems": [
    "Trie.Props.C128_equivalence",
    "Trie.Props.C128_substitute",
    "Trie.Props.C128_other_trie",
    "Trie.Props.C128_loop",
    "Trie.Props.C128_again_refuted"
   ],
   "note": "Everything proved except the last clause, which is refuted: in the trie with abc and abd two increments lead back to begin()."
  },
  {
   "property": "C129",
   "status": "partial",
   "theorems": [
    "Trie.Props.C129_refuted",
    "Trie.Props.C129_leak_refuted",
    "Trie.Props.C129_partial",
    "Trie.Props.C129_ever"
   ],
   "note": "Refuted with removals: n rounds of insert(a), remove(a) leave an empty trie with n tails. Proved for histories without removals (tables linear in the total length of the distinct words), and with removals a bound by everything ever inserted."
  },
  {
   "property": "C130",
   "status": "proved",
   "theorems": [
    "MathFns.C130_gcd_fib",
    "MathFns.C130_gcd",
    "MathFns.C130_gcd_sharp",
    "MathFns.C130_pow",
    "MathFns.C130_pow_int"
   ],
   "note": "The bound for gcd is sharp. The number of products is stated as the number of products on which the result depends."
  },
  {
   "property": "C131",
   "status": "proved",
   "theorems": [
    "Fraction.Props.C131_form",
    "Fraction.Props.C131_text",
    "Fraction.Props.C131_determined",
    "Fraction.Props.C131_cast"
   ],
   "note": "The text is exact (canonical decimal), and determined by the value."
  },
  {
   "property": "C132",
   "status": "proved",
   "theorems": [
    "Geo.Props.C132_exact",
    "Geo.Props.C132_orientation",
    "Geo.Props.C132_len",
    "Geo.Props.C132_line",
    "Geo.Props.C132_segment"
   ],
   "note": "binary64 with correctly rounded sqrt"
  },
  {
   "property": "C133",
   "status": "partial",
   "theorems": [
    "Json.Props.C133_plain",
    "Json.Props.C133_exponent_refuted",
    "Json.Props.C133_point_refuted",
    "Json.Props.C133_small_exponent_partial",
    "Json.Props.C133_exponent_partial"
   ],
   "note": "Proved without an exponent. Refuted with one: the mantissa is multiplied by a rounded power of ten (3e-1, 5e-324, 0.001e+310, 0e+400). With an exponent it holds for exponents 0 to 22 and a mantissa that is a double; otherwise the relative error is at most 2^-51 if mantissa, power and result are within 10^-300..10^300. Exponents must have a sign character (C50). pow is taken as correctly rounded. Also: a minus sign and a point without digits is accepted and read as 0 (C133_point_refuted)."
  },
  {
   "property": "C134",
   "status": "partial",
   "theorems": [
    "Json.Props.C134_refuted",
    "Json.Props.C134_special_refuted",
    "Json.Props.C134_close_partial",
    "Json.Props.C134_large_partial",
    "Json.Props.C134_six_partial",
    "Json.Props.C134_exact_partial",
    "Json.Props.C134_tiny_refuted"
   ],
   "note": "Refuted: six places only; infinity and NaN are written as texts that cannot be loaded. What holds: error at most half a millionth and one rounding, sign kept, a second trip changes nothing; doubles from 2^33 on and those read from at most six places survive. Exactly the doubles read for some number with six digits after the point survive (C134_exact_partial); all below half a millionth become 0 (C134_tiny_refuted)."
  },
  {
   "property": "C135",
   "status": "partial",
   "theorems": [
    "BigNum.C135_refuted",
    "BigNum.C135_self_refuted",
    "BigNum.C135_growing_partial"
   ],
   "note": "Refuted: BigNum<5> x(10); --x; x += 10 leaves 29, because a shorter value leaves its old digits behind. Proved for programs in which no variable gets shorter other than by a new declaration (factorials, Fibonacci numbers, sums). A variable holding 0 prints the empty text (C19). Also refuted: x = x, which copies overlapping memory with memcpy."
  },
  {
   "property": "C136",
   "status": "proved",
   "theorems": [
    "Rand.Props.C136_binomial",
    "Rand.Props.C136_negBinomial",
    "Rand.Props.C136_geometric",
    "Rand.Props.C136_poisson"
   ],
   "note": "exp and pow are assumed accurate to one unit in the last place (ExpOk, PowOk); satisfiability is shown. Outside the stated ranges the code fails: C62 (lambda = 800, small p^r, n = 34), C89 (greatest output). Deviations: (8n+38)/2^53, (4r+20k+6)/2^53, (12k+18)/2^53."
  },
  {
   "property": "C137",
   "status": "proved",
   "theorems": [
    "Geo.Props.C137_len",
    "Geo.Props.C137_distance",
    "Geo.Props.C137_normalize",
    "Geo.Props.C137_dot",
    "Geo.Props.C137_cross",
    "Geo.Props.C137_line",
    "Geo.Props.C137_segment",
    "Geo.Props.C137_intersection",
    "Geo.Props.C137_circle",
    "Geo.Props.C137_point"
   ],
   "note": "sqrt, cos and sin are modelled as correctly rounded (Fp.dbl). Outside the range of moderate size squares overflow or underflow. The EPS term of disToSegment is real: C64_segment_refuted."
  },
  {
   "property": "C138",
   "status": "proved",
   "theorems": [
    "SegmentTree.C138_sum",
    "SegmentTree.C138_extremes",
    "SegmentTree.C138_nan",
    "SegmentTree.C138_whole"
   ],
   "note": "Sum of absolute values at most 2^1023 (otherwise the sum may overflow to infinity). C138_nan shows why NaN is excluded from the extremes: the result then depends on the order. Histories of updates with fractions are not bounded."
  },
  {
   "property": "C139",
   "status": "partial",
   "theorems": [
    "Json.Props.C139_refuted",
    "Json.Props.C139_exact_partial",
    "Json.Props.C139_rfc_partial",
    "Json.Props.C139_start_partial"
   ],
   "note": "Refuted: anything may follow the value (`null x`), keys may be any value, numbers may have dashes and points anywhere, an unknown escape is read as a backslash, and more. C139_exact_partial characterises the texts read and the values returned exactly, by a grammar; C139_rfc_partial: all JSON texts without exponents are among them. Whether a text outside of the grammar ends the program or is undefined behaviour is the subject of C49."
  },
  {
   "property": "C140",
   "status": "partial",
   "theorems": [
    "Cont.Props.C140_push_refuted",
    "Cont.Props.C140_erase_refuted",
    "Cont.Props.C140_list_partial",
    "Cont.Props.C140_stack_partial",
    "Cont.Props.C140_queue_partial",
    "Cont.Props.C140_map_partial",
    "Cont.Props.C140_vector_partial",
    "Cont.Props.C140_vector_exact_partial"
   ],
   "note": "Holds for List (also sort and reverse), Stack, Queue and Map: every program runs as if a reference were the position (or key) of its element. Refuted for Vector: pushing to a full Vector and erasing an element invalidate references to elements that stay. Vector within its capacity and without insert/erase: holds; for every program with a Vector, exactly which references stay valid is proved. Which references std::vector, list, deque and map invalidate is taken from the C++ standard."
  },
  {
   "property": "C141",
   "status": "partial",
   "theorems": [
    "Cont.Props.C141_refuted",
    "Cont.Props.C141_list_partial",
    "Cont.Props.C141_vector_partial",
    "Cont.Props.C141_assoc_partial",
    "Cont.Props.C141_stack_queue_partial",
    "Cont.Props.C141_queue_calls_partial",
    "Cont.Props.C141_frame_partial"
   ],
   "note": "Holds for List, Vector, Set, MultiSet and Map (C++17 order of evaluation). Refuted for Stack and Queue, whose operator= returns a copy: (a = b).push(x) is lost; there it holds if the result of an assignment is only read."
  },
  {
   "property": "C142",
   "status": "partial",
   "theorems": [
    "Stream.Props.C142_int_partial",
    "Stream.Props.C142_int64_value_partial",
    "Stream.Props.C142_int64_partial",
    "Stream.Props.C142_unsigned_value_partial",
    "Stream.Props.C142_unsigned_partial",
    "Stream.Props.C142_bool_partial",
    "Stream.Props.C142_bool_value_partial",
    "Stream.Props.C142_char_partial",
    "Stream.Props.C142_string_partial",
    "Stream.Props.C142_refuted"
   ],
   "note": "Holds for all int, long long, unsigned and bool values, for characters other than white space and for strings without white space (also with white space before and any text after). Refuted for others: strings are cut at the first blank, a blank char is undefined behaviour. operator>> and operator<< are taken from the C++ standard. For double see C168."
  },
  {
   "property": "C143",
   "status": "partial",
   "theorems": [
    "Stream.Props.C143_refuted",
    "Stream.Props.C143_partial"
   ],
   "note": "Refuted: m_from is a reference, so that an object made from a literal dangles after its statement, and one made from a variable sees later changes. Holds, for every T, if objects are made from variables that are not changed afterwards, or used in the expression that makes them."
  },
  {
   "property": "C144",
   "status": "partial",
   "theorems": [
    "Rand.Props.C144_normal",
    "Rand.Props.C144_gamma_partial",
    "Rand.Props.C144_student_partial",
    "Rand.Props.C144_student_refuted"
   ],
   "note": "Holds for NormalDistribution without exception. Gamma with a fractional shape: holds unless one of the 1024 largest outputs is drawn (C91). Refuted for StudentTDistribution: a chi-squared sample can be 0, and the division by it gives no number; holds for even r if all outputs lie between 2^11 and 2^64 - 1025. Of <cmath> only sqrt correctly rounded, log with relative error 2^-52, and pow into [0, 1] are assumed. One zero: the sign of zero is not modelled."
  },
  {
   "property": "C145",
   "status": "proved",
   "theorems": [
    "BST.Props.C145_dictionary",
    "BST.Props.C145_unique"
   ],
   "note": "For equal ranks any node of that rank may be found; for different ranks the output is unique (C145_unique). Erasing other nodes than the first is C40."
  },
  {
   "property": "C146",
   "status": "partial",
   "theorems": [
    "Tree.C146_getters_partial",
    "Tree.C146_setters_partial",
    "Tree.C146_move_refuted",
    "Tree.C146_setFa_refuted",
    "Tree.C146_second_root_refuted",
    "Tree.C146_new_refuted",
    "Tree.C146_move_all_refuted",
    "Tree.C146_second_root_all_refuted"
   ],
   "note": "Proved for one root and nodes that are each added once, below a node already there (getHeight and getAncestor: C35). The setters called directly change exactly their own field (C146_setters_partial). Refuted for a node added again (stale ancestors, still among the sons of the old father), for setFa and addSon called directly, for a second setRoot, and before the first one (indeterminate root and heights). The refutations for a node added again and for a second root hold in every tree and for every such node (C146_move_all_refuted, C146_second_root_all_refuted)."
  },
  {
   "property": "C147",
   "status": "partial",
   "theorems": [
    "SegmentTree.C147_history_partial",
    "SegmentTree.C147_query_refuted",
    "SegmentTree.C147_update_refuted",
    "SegmentTree.C147_end_refuted",
    "SegmentTree.C147_refuted"
   ],
   "note": "Proved for intervals that contain a position (they are clipped) and for reversed updates with 0 < lv and rv < size, which change nothing. Refuted: every query without positions is undefined, on every tree, except one that begins right behind the last position, which can return a value ({9, 5, 7}: the maximum at position 3 is 9); updates before 0 or behind the end are undefined."
  },
  {
   "property": "C148",
   "status": "partial",
   "theorems": [
    "Json.C148_needed_partial",
    "Json.C148_stack_partial",
    "Json.C148_refuted",
    "Json.C148_reject_refuted",
    "Json.C148_nested_partial"
   ],
   "note": "Proved for every text, well formed or not, when the stack holds one call of parse_next more than the text has opening brackets. Refuted in general: for every stack size the well-formed text [[[...]]] overflows the stack, and so does every text beginning with enough brackets, whatever follows. Also proved: with any room the result is either an overflow or the right one, and at least as many nested calls are needed as there are values in each other in the result (C148_needed_partial)."
  },
  {
   "property": "C149",
   "status": "partial",
   "theorems": [
    "GcdTypes.C149_endless_refuted",
    "GcdTypes.C149_refuted",
    "GcdTypes.C149_wrong_refuted",
    "GcdTypes.C149_gcd_partial",
    "GcdTypes.C149_extreme_refuted",
    "GcdTypes.C149_lcm_partial",
    "GcdTypes.C149_lcm_refuted"
   ],
   "note": "Refuted: with an unsigned type and a negative value gcd(-6, 9u) is 1, and for a negative short and the unsigned 2^31 the loop never ends; lcm of two shorts is cut to a short. Proved for all types when both values are not negative, or when nothing is converted to unsigned; excluded are the pairs of -1 and the least value, which are undefined."
  },
  {
   "property": "C150",
   "status": "partial",
   "theorems": [
    "FactTypes.C150_refuted",
    "FactTypes.C150_endless_refuted",
    "FactTypes.C150_factorial_partial",
    "FactTypes.C150_factorial_signed_partial",
    "FactTypes.C150_factorial_wrap_partial",
    "FactTypes.C150_permutation_partial",
    "FactTypes.C150_permutation_wrap_partial",
    "FactTypes.C150_permutation_signed_partial",
    "FactTypes.C150_permutation_refuted",
    "FactTypes.C150_permutation_zero_refuted",
    "FactTypes.C150_domain_partial",
    "FactTypes.C150_binomial_partial",
    "FactTypes.C150_binomial_wrap_partial",
    "FactTypes.C150_binomial_signed_partial",
    "FactTypes.C150_binomial_refuted"
   ],
   "note": "Refuted: factorial(13u) is 1932053504; factorial of the greatest value of any type but int and the signed 64-bit type never ends; permutation of unsigned shorts overflows int; binomial with n - r above 2147483647 overflows its int counters. Proved: the exact value for every type whenever it is representable (and the counters suffice), the residue in the wrapping types, undefined in the signed ones; negative arguments and r > n end the program. permutation(n, 0) is n in every type. binomial does not compile for types smaller than int."
  },
  {
   "property": "C151",
   "status": "partial",
   "theorems": [
    "PowTypes.C151_fraction_refuted",
    "PowTypes.C151_fraction_partial",
    "PowTypes.C151_double",
    "PowTypes.C151_double_whole",
    "PowTypes.C151_double_special",
    "PowTypes.C151_matrix_refuted",
    "PowTypes.C151_matrix_zero_refuted",
    "PowTypes.C151_matrix_partial"
   ],
   "note": "Refuted for Fraction: 3^17 is an int, but the needless last squaring computes 3^32 and overflows; proved: the exact domain (the last square must fit) and the exact power in lowest terms on it. Refuted for Matrix: every power of a square matrix from 2 on is undefined (*= destroys twice), the power 0 is a 1x1 zero matrix; the power 1 is a copy without a leak. Proved for double: relative error at most (n-1)/2^52 unless the power is near overflow or underflow, exact for whole numbers up to 2^53. BigNum does not compile with this function (its *= is const)."
  },
  {
   "property": "C152",
   "status": "partial",
   "theorems": [
    "Cont.Props.C152_map",
    "Cont.Props.C152_set",
    "Cont.Props.C152_multiset",
    "Cont.Props.C152_multimap_refuted",
    "Cont.Props.C152_multimap_partial",
    "Cont.Props.C152_order",
    "Cont.Props.C152_order_pairs"
   ],
   "note": "Refuted for MultiMap only: MultiMaps with the same pairs are different if two pairs with one key were given in a different order (and find() cannot tell them apart); proved with the order of the values of each key taken into account. Everything else proved."
  },
  {
   "property": "C153",
   "status": "partial",
   "theorems": [
    "Fraction.Props.C153_actual_partial",
    "Fraction.Props.C153_overflow_refuted",
    "Fraction.Props.C153_statements_refuted",
    "Fraction.Props.C153_sound_partial",
    "Fraction.Props.C153_small_partial",
    "Fraction.Props.C153_swapped_partial"
   ],
   "note": "Refuted: 1/65536 + 1/65536 overflows though both values are fractions of ints, and n - f, n / f and f /= g compute something else (C17, C18). Proved without these three: no program gives a wrong value, takes a wrong branch or ends without a division by 0, whatever the numbers; with numerators, denominators and int operands up to 32767 every program is defined. Programs with n - y and n / y compute exactly what they compute over the rationals with the operands swapped (C153_swapped_partial); only x /= y is left out (C17_exact_partial). For every program, with all statements: exactly which values a defined run leaves (Spec/FractionActual.lean), and that it ends only at a quotient by 0 (C153_actual_partial)."
  },
  {
   "property": "C154",
   "status": "proved",
   "theorems": [
    "Kmp.C154_all",
    "Kmp.C154_replace",
    "Kmp.C154_steps"
   ],
   "note": "Proved; the empty pattern is undefined (C09)."
  },
  {
   "property": "C155",
   "status": "partial",
   "theorems": [
    "Pieces.C155_encode_partial",
    "Pieces.C155_encode_pieces_partial",
    "Pieces.C155_decode_partial",
    "Pieces.C155_decode_exact_partial",
    "Pieces.C155_decode_refuted",
    "Pieces.C155_url_partial",
    "Pieces.C155_url_exact_partial",
    "Pieces.C155_url_refuted"
   ],
   "note": "urlEncode: C06_encode_append. base64Encode: true exactly if the first piece has a multiple of three bytes or the second is empty. Refuted for base64Decode (Zg== and b28=: padding between the pieces is dropped and the bits run on) and urlDecode (%4 and 1). Exact domains for a first piece before any second one: base64Decode exactly behind a multiple of four characters that are not padding (decode_exact), urlDecode exactly if the first piece does not end within a group of % and two characters (url_exact); behind a well formed beginning also undefined behaviour is that of the rest alone."
  },
  {
   "property": "C156",
   "status": "proved",
   "theorems": [
    "JsonStore.C156_url",
    "JsonStore.C156_base64"
   ],
   "note": "Client program over the JSON, URL and base64 models. That codes are needed at all is shown by examples: an uncoded key with a line feed is lost by writing and reading (C78), and toString gives a quote back with a backslash."
  },
  {
   "property": "C157",
   "status": "partial",
   "theorems": [
    "Matrix.C157_sum",
    "Matrix.C157_sum_defined",
    "Matrix.C157_new_refuted",
    "Matrix.C157_product_refuted",
    "Matrix.C157_reduce_refuted",
    "Matrix.C157_reduce_partial",
    "Matrix.C157_int_refuted",
    "Matrix.C157_int_partial"
   ],
   "note": "Sums and differences: exact, and defined for numerators and denominators below 2^15. Refuted: memset makes every cell of a new Matrix<Fraction> 0/0, so no product ever returns (proved for all matrices); reduce divides with Fraction::operator/=, an int quotient of the components (C17), and with int division for Matrix<int>, so (2, 1) becomes (1, 0). Proved when all divisions of the elimination leave no remainder."
  },
  {
   "property": "C158",
   "status": "partial",
   "theorems": [
    "Json.Props.C158_control_refuted",
    "Json.Props.C158_injection_refuted",
    "Json.Props.C158_rfc_partial",
    "Json.Props.C158_exact_partial",
    "Json.Props.C158_denotes_partial"
   ],
   "note": "Refuted: control characters without a short escape are written as they are (not JSON), and keys are written as they are, so that a key with a quote in it makes other members. Proved: with keys in escaped form, the text is JSON exactly if no string or key has such a control character; and it denotes the value, floats to six places."
  },
  {
   "property": "C159",
   "status": "proved",
   "theorems": [
    "Tree.C159_same",
    "Tree.C159_build",
    "Tree.C159_query",
    "Tree.C159_exact"
   ],
   "note": "Rounds of the three loops are counted; getDistance is one LCA. Exactly one table entry per binary digit of the depth. The bound for LCA is about the calls that are defined (see C36). C159_exact gives the exact number of rounds of getAncestor and LCA."
  },
  {
   "property": "C160",
   "status": "partial",
   "theorems": [
    "BigNum.C160_refuted",
    "BigNum.C160_growing_partial",
    "BigNum.C160_factorial_partial",
    "BigNum.C160_sum_partial"
   ],
   "note": "Refuted: summing 10, 9, ..., 1 with s += i; --i gives 145, as the variable i keeps the digit 1 of 10 above its own. Proved for all programs whose variables never get shorter (numbers non-negative); the factorial loop and the upward sum loop are right for every bound that fits."
  },
  {
   "property": "C161",
   "status": "proved",
   "theorems": [
    "EditDistance.C161_common",
    "EditDistance.C161_reverse",
    "EditDistance.C161_append",
    "EditDistance.C161_subsequence",
    "EditDistance.C161_disjoint",
    "EditDistance.C161_hamming",
    "EditDistance.C161_found"
   ],
   "note": "Proved for all texts whose lengths fit an int (as C10)."
  },
  {
   "property": "C162",
   "status": "partial",
   "theorems": [
    "Cont.By.Props.C162_fraction_set_partial",
    "Cont.By.Props.C162_fraction_map_partial",
    "Cont.By.Props.C162_fraction_sort_partial",
    "Cont.By.Props.C162_fraction_refuted",
    "Cont.By.Props.C162_bigNum_set_partial",
    "Cont.By.Props.C162_bigNum_sort_partial",
    "Cont.By.Props.C162_bigNum_refuted",
    "Cont.By.Props.C162_point_set_partial",
    "Cont.By.Props.C162_point_refuted",
    "Cont.By.Props.C162_vertex_set_partial",
    "Cont.By.Props.C162_vertex_refuted",
    "Cont.By.Props.C162_sort"
   ],
   "note": "Refuted: comparing 65536/65537 with 65537/65536 overflows, so a Set, Map or sort with both is undefined; a Set<BigNum> can contain 0 and -0; with a NaN point a Set seems to contain every point of the line; vertices with equal values are one element although != says they differ. Proved: Fractions up to 46340, BigNums other than -0, points without NaN; vertices by their values; stable sorting for every type whose < compares a key."
  },
  {
   "property": "C163",
   "status": "partial",
   "theorems": [
    "Fraction.Props.C163_actual_partial",
    "Fraction.Props.C163_actual_small_partial",
    "Fraction.Props.C163_telescope_partial",
    "Fraction.Props.C163_refuted",
    "Fraction.Props.C163_sound_partial",
    "Fraction.Props.C163_small_partial"
   ],
   "note": "Refuted: the loop adding 1/(i(i+1)) overflows from K = 1290 on, though all its values are fractions of ints up to K = 46339; K/(K+1) for all smaller K. Proved without x /= y, n - y, n / y: no wrong value, no wrong number of rounds; everything defined up to 32767. For every program, with all statements: exactly which values a defined run leaves (Spec/FractionActual.lean), and how often its loops run (C163_actual_partial). Every program whose actual values stay up to 32767, without x /= 0, is defined (C163_actual_small_partial)."
  },
  {
   "property": "C164",
   "status": "proved",
   "theorems": [
    "Matrix.C164_rank",
    "Matrix.C164_system",
    "Matrix.C164_invertible",
    "Matrix.C164_back",
    "Matrix.C164_again"
   ],
   "note": "Exact arithmetic over any field. For double see C126, for Fraction and int C157; without columns reduce is undefined (C31_no_columns)."
  },
  {
   "property": "C165",
   "status": "proved",
   "theorems": [
    "Kmp.C165_forward",
    "Kmp.C165_delay",
    "Kmp.C165_most"
   ],
   "note": "Lengths and start below 2^31 and a non-empty pattern; the other inputs are in C09."
  },
  {
   "property": "C166",
   "status": "partial",
   "theorems": [
    "BigSizes.C166_size_refuted",
    "BigSizes.C166_size_partial",
    "BigSizes.C166_clear_partial",
    "BigSizes.C166_clear_refuted",
    "BigSizes.C166_search_partial",
    "BigSizes.C166_search_refuted",
    "BigSizes.C166_distance_partial",
    "BigSizes.C166_distance_refuted",
    "BigSizes.C166_encode_partial",
    "BigSizes.C166_encode_refuted",
    "BigSizes.C166_vector_partial"
   ],
   "note": "Refuted; exact answers for every size: sizes count modulo 2^32 with sign, clear() removes that many or overflows, kmpSearch sees that many characters or none, editDistance of 2^31 characters and the empty text is -2^31, base64Encode throws. Without a length base64Encode is right for every size."
  },
  {
   "property": "C167",
   "status": "proved",
   "theorems": [
    "Rand.Props.C167_seeds",
    "Rand.Props.C167_values",
    "Rand.Props.C167_times",
    "Rand.Props.C167_alive"
   ],
   "note": "The engine std::mt19937_64 is modelled after the C++ standard; the model reproduces its published numbers. Here the claims hold for this engine, those of the other claims for every engine."
  },
  {
   "property": "C168",
   "status": "partial",
   "theorems": [
    "Stream.Props.C168_large_refuted",
    "Stream.Props.C168_missing_refuted",
    "Stream.Props.C168_read",
    "Stream.Props.C168_trip_partial",
    "Stream.Props.C168_six_partial",
    "Stream.Props.C168_int_partial",
    "Stream.Props.C168_refuted",
    "Stream.Props.C168_vector_read",
    "Stream.Props.C168_vector_end",
    "Stream.Props.C168_vector_partial",
    "Stream.Props.C168_point",
    "Stream.Props.C168_only",
    "Stream.Props.C168_exact_partial",
    "Stream.Props.C168_vector_exact_partial"
   ],
   "note": "Reading is exact: the nearest double for every literal (C168_read, C168_vector_read). Writing is refuted, because << writes six significant digits: 0.1 + 0.2 and 0.3 look alike, and infinity cannot be read. What holds: a relative error of at most 5/1000000 before the number is rounded, no further change by a second trip (for every finite double, subnormal numbers included), and no change at all for what was read from at most six digits. operator>> and operator<< of double are taken from the C++ standard and libstdc++. C168_vector_end: an unfinished text, or a wrong character behind an element, ends the program. Exact: a finite double survives writing and reading if and only if it is what is read from some number of at most six significant digits in range (C168_exact_partial). A Vector survives if and only if each element does (C168_vector_exact_partial). Refuted as well, for all texts of the kind: a number of 10^309 or more behind the first, or no number behind a comma, makes reading undefined (C168_large_refuted, C168_missing_refuted). For every text: what is read is a Vector of numbers at the beginning of the text (C168_only)."
  },
  {
   "property": "C169",
   "status": "partial",
   "theorems": [
    "Stats.C169_double_partial",
    "Stats.C169_int_partial",
    "Stats.C169_array_partial",
    "Stats.C169_int_array_partial",
    "Stats.C169_refuted"
   ],
   "note": "Refuted as stated (C169_refuted: the variance of 0.1, 0.1, 0.1 is positive, that of two tiny different numbers is 0, that of four numbers of size 2^511 is infinite). What holds for all data: the relative error of (n+6)/2^52 plus twice (four times for the sample versions) the square of the error of the mean, which is at most (n+1)/2^52 times the mean of the absolute values, and 2^-1071. The array version of variance for ints uses another formula: C109."
  },
  {
   "property": "C170",
   "status": "partial",
   "theorems": [
    "Threads.C170_apart_partial",
    "Threads.C170_ids_partial",
    "Threads.C170_ends_partial",
    "Threads.C170_race_partial",
    "Threads.C170_pairs_partial",
    "Threads.C170_vertex_refuted",
    "Threads.C170_refuted",
    "Threads.C170_trie_refuted",
    "Threads.C170_random_refuted"
   ],
   "note": "Refuted: the counters of vertices and edges, the mapper of Trie and the generator of the random functions are static and unprotected; witnesses: two vertices with identity 0, a trie for digits that rejects a digit, the same random number in two threads. Exactly which pairs of calls race (C170_pairs_partial); without such pairs every order of steps gives each thread the results it has alone. Threads interleave access by access; a data race is undefined, so the refuting orders are only one possible effect."
  },
  {
   "property": "C171",
   "status": "partial",
   "theorems": [
    "SegmentTree.C171_init_refuted",
    "SegmentTree.C171_node_refuted",
    "SegmentTree.C171_query_refuted",
    "SegmentTree.C171_history_partial",
    "SegmentTree.C171_node_partial",
    "SegmentTree.C171_short"
   ],
   "note": "Refuted for init (it resets only the flags of leaves, so pending updates of inner nodes hit the new contents), for updates at a node (pending updates of ancestors come later) and for queries at a node. Partial: both are right if the positions concerned are settled, i.e. queried alone since the last update that contains them; then histories with init and nodes behave like C33/C75. init with a shorter vector is undefined (C171_short). Calls with l, r, o that do not belong together, and init for part of the tree, are not treated."
  },
  {
   "property": "C172",
   "status": "partial",
   "theorems": [
    "Json.Props.C172_tab_refuted",
    "Json.Props.C172_empty_refuted",
    "Json.Props.C172_layout_partial",
    "Json.Props.C172_brace_partial",
    "Json.Props.C172_breaks_partial",
    "Json.Props.C172_tab_all_refuted"
   ],
   "note": "Refuted: `pad.erase(0, 2)` takes two characters off the indentation of a closing brace whatever the tab is (wrong for every tab of a length other than two and every object with members; a tab of one character from depth 2 on), and an empty object is written with an empty line. Proved for tabs of two characters and objects with members; for every tab, the exact indentation, the number of line breaks, and that quotes and brackets match. Keys in escaped form (dump writes keys as they are, see C158)."
  },
  {
   "property": "C173",
   "status": "partial",
   "theorems": [
    "BigNum.C173_read_partial",
    "BigNum.C173_ofInt_partial",
    "BigNum.C173_read_below",
    "BigNum.C173_read_refuted",
    "BigNum.C173_write_partial",
    "BigNum.C173_value_partial",
    "BigNum.C173_zero_refuted",
    "BigNum.C173_write_refuted",
    "BigNum.C173_text",
    "BigNum.C173_text_refuted",
    "BigNum.C173_outside"
   ],
   "note": "Refuted: the cells above the length are stale after assignment and indeterminate in copies; an assignment never changes the length, so digits written above it are not part of the number (BigNum() stays 0 whatever is written) but take part in later sums, and a top digit overwritten with 0 leaves a leading zero that breaks comparison and printing. Proved: reading below the length for every number and everywhere for numbers with clean cells; any sequence of assignments below the length that leaves the top digit nonzero; indices outside the array are undefined. What is printed for any integers written is exact (the decimal texts of the cells)."
  },
  {
   "property": "C174",
   "status": "partial",
   "theorems": [
    "BigNum.C174_plus",
    "BigNum.C174_minus_value",
    "BigNum.C174_minus",
    "BigNum.C174_times",
    "BigNum.C174_refuted",
    "BigNum.C174_text_refuted"
   ],
   "note": "Refuted, and the exact domains are proved: a + b is right if and only if both are negative or the sum is not negative (otherwise it never ends); a - b if and only if they are not both negative, or equal (otherwise the value is what is left after losing the last borrow, with the wrong sign, for every such pair); a * b if and only if the right factor is not negative or the left one is 0 (otherwise the sign is wrong)."
  },
  {
   "property": "C175",
   "status": "partial",
   "theorems": [
    "BigNum.C175_refuted",
    "BigNum.C175_sane_partial"
   ],
   "note": "Refuted: x += -1 for x = 0 never ends. Proved for all programs in which every operator gets operands from its exact domain (C174) and no variable gets shorter; values and printed text."
  },
  {
   "property": "C176",
   "status": "partial",
   "theorems": [
    "Cont.Props.C176_list",
    "Cont.Props.C176_once",
    "Cont.Props.C176_plain",
    "Cont.Props.C176_vector_partial",
    "Cont.Props.C176_vector",
    "Cont.Props.C176_vector_plain",
    "Cont.Props.C176_vector_refuted",
    "Cont.Props.C176_push_refuted",
    "Cont.Props.C176_erase_refuted",
    "Cont.Props.C176_once_refuted"
   ],
   "note": "List and Vector: exact for all bodies. List: every element present throughout is visited once, in order, unless the body breaks, sorts or reverses (refuted with reverse); pushing in every round never ends, erasing the current element is undefined (refuted). Vector: as over positions for bodies that keep the length; a push in the body is undefined however much room there is, unless the round ends with a break."
  },
  {
   "property": "C177",
   "status": "partial",
   "theorems": [
    "Cont.Props.C177_map",
    "Cont.Props.C177_order",
    "Cont.Props.C177_all",
    "Cont.Props.C177_ends",
    "Cont.Props.C177_plain",
    "Cont.Props.C177_set",
    "Cont.Props.C177_ends_refuted",
    "Cont.Props.C177_erase_refuted"
   ],
   "note": "Exact for all bodies, Map and Set; order, completeness without break, end for key types with finitely many values. Refuted: with ever greater keys (strings) a loop that inserts never ends; erasing the current pair is undefined."
  },
  {
   "property": "C178",
   "status": "partial",
   "theorems": [
    "Cont.Props.C178_loop",
    "Cont.Props.C178_order",
    "Cont.Props.C178_all",
    "Cont.Props.C178_ends",
    "Cont.Props.C178_plain",
    "Cont.Props.C178_ends_refuted",
    "Cont.Props.C178_erase_refuted"
   ],
   "note": "Exact for all bodies, both classes; order, completeness without break, end without insertions (so for every loop over a MultiMap). Refuted: for (auto& x : s) s.insert(x) over a MultiSet never ends, for every type; erasing the current element is undefined."
  },
  {
   "property": "C179",
   "status": "partial",
   "theorems": [
    "Json.Message.Props.C179_same",
    "Json.Message.Props.C179_message",
    "Json.Message.Props.C179_refuted"
   ],
   "note": "Messages and their place for all texts; the model with messages is proved to be the one without when the message is dropped. Refuted: the characters quoted need not be wrong, [1e+5] is rejected with a complaint about its digit 5."
  },
  {
   "property": "C180",
   "status": "partial",
   "theorems": [
    "Json.Work.C180_same",
    "Json.Work.C180_bound",
    "Json.Work.C180_copies",
    "Json.Work.C180_nested",
    "Json.Work.C180_refuted"
   ],
   "note": "Proved for all texts: at most 4n+16 characters read; the exact number of copies from the document, at most (depth+1)n where depth is the nesting of objects, at most (n+2)^2 in any case. Refuted for the copies: every member of an object is copied with all it contains, so n nested objects cost n^2/2 copies. The time of std::map and of the conversions of numbers is not counted."
  },
  {
   "property": "C181",
   "status": "partial",
   "theorems": [
    "Trie.Loop.Props.C181_removals_partial",
    "Trie.Loop.Props.C181_letters_partial",
    "Trie.Loop.Props.C181_filter_partial",
    "Trie.Loop.Props.C181_moved_refuted",
    "Trie.Loop.Props.C181_lost_refuted",
    "Trie.Loop.Props.C181_longer_refuted"
   ],
   "note": "Proved for bodies that add no word: removing words, also other ones than that of the round, while the loop runs is safe after every history whose iteration ends, so removing the words with some property in a loop is right after regular histories. Proved with insertions for words with different first letters. Refuted in general: an insertion in the loop may move the node the iterator is at; then the loop has undefined behaviour, ends early, or does not show the new word."
  },
  {
   "property": "C182",
   "status": "partial",
   "theorems": [
    "Json.DumpWork.C182_same",
    "Json.DumpWork.C182_volume_partial",
    "Json.DumpWork.C182_bound_partial",
    "Json.DumpWork.C182_square_partial",
    "Json.DumpWork.C182_arrays",
    "Json.DumpWork.C182_refuted",
    "Json.DumpWork.C182_objects",
    "Json.DumpWork.C182_values_refuted"
   ],
   "note": "Refuted: each array and object copies the text of everything in it, so n nested arrays (2n characters) cost n^2, and n nested objects cost 2n^3/3 characters. Proved: the work lies between the total length of the texts of all values in it and five times that plus an indentation for each value (also for scalars and elements of arrays, which use none); hence linear for bounded nesting, and never more than 7n^2 + 9n for a text of n characters with the default arguments. Growth of std::string is not counted."
  },
  {
   "property": "C183",
   "status": "partial",
   "theorems": [
    "Trie.Props.C183_same",
    "Trie.Props.C183_lookup_partial",
    "Trie.Props.C183_lookup_refuted",
    "Trie.Props.C183_insert",
    "Trie.Props.C183_insert_square",
    "Trie.Props.C183_insert_refuted"
   ],
   "note": "Proved for the accesses to the three tables: at most 3|w| + 5 for contain and 3|w| + 7 for remove; at most (|w| + 29)(54(S + |w|) + 126) for insert, S letters inserted before. Refuted for the characters copied: contain copies the whole tail of a stored word by value, so no bound depends on the word only; proved with the longest word inserted so far added. The product is needed: inserting a^n c next to a^n b takes n(n-1)/2 accesses, so an insertion is not linear in word and contents. The default mappers; growth of std::vector and comparisons of strings are not counted."
  },
  {
   "property": "C184",
   "status": "partial",
   "theorems": [
    "BigNum.Props.C184_same",
    "BigNum.Props.C184_compare",
    "BigNum.Props.C184_refuted",
    "BigNum.Props.C184_plus_partial",
    "BigNum.Props.C184_times",
    "BigNum.Props.C184_increment"
   ],
   "note": "Proved for uses of single digits: a comparison 2 min(d,e) + 2, a sum or difference 11 max(d,e) + 4, a product of nonzero numbers exactly 3de + 3(d+e) - 2, an increment between 4d and 6d + 2. Refuted for the whole work: each operation makes new numbers and clears all MAX_SIZE cells of each, so adding 1 and 1 costs MAX_SIZE; bounded by 3 MAX_SIZE + 2 max(d,e) + 1 (C184_plus_partial). Sums of mixed signs that never end are C20. Characters of strings are not counted."
  },
  {
   "property": "C185",
   "status": "partial",
   "theorems": [
    "BST.Props.C185_refuted",
    "BST.Props.C185_never_refuted",
    "BST.Props.C185_twice_refuted",
    "BST.Props.C185_endless_refuted",
    "BST.Props.C185_partial"
   ],
   "note": "False as stated: erase leaves the links of the erased node in place. For every tree of two or more nodes, erasing any node and inserting it again never gives a search tree of the nodes (C185_never_refuted), already for two nodes insert never returns (C185_refuted); the same for inserting a node twice, where insert never returns if ranks differ. Proved: programs that make the object anew before inserting it again, and nodes that were alone in the tree."
  },
  {
   "property": "C186",
   "status": "proved",
   "theorems": [
    "Rand.Props.C186_normal",
    "Rand.Props.C186_gamma",
    "Rand.Props.C186_exponential",
    "Rand.Props.C186_studentT",
    "Rand.Props.C186_one"
   ],
   "note": "Proved in exact arithmetic for the rejection loops (outputs other than the greatest 64-bit number, shapes below 2^31) and in any arithmetic for the samplers that take one output. The number of points tried by the polar method is geometric with success probability pi/4; the exact mean of the gamma sampler is floor(k) + 3(e+d)/(e Gamma(1+d)) for the fraction d. StudentTDistribution makes a new normal sampler in each call and so throws away the second number of each pair."
  },
  {
   "property": "C187",
   "status": "partial",
   "theorems": [
    "Tree.C187_partial",
    "Tree.C187_distance_refuted",
    "Tree.C187_frame_partial",
    "Tree.C187_refuted"
   ],
   "note": "Refuted. Exact: LCA returns nullptr if one more than the smaller depth is a power of two and reads beyond the stored table (undefined) otherwise; getDistance is undefined for every such pair because it dereferences the result. Proved: a second tree changes no height, ancestor or LCA of the first."
  },
  {
   "property": "C188",
   "status": "partial",
   "theorems": [
    "Json.C188_partial",
    "Json.C188_loaded_partial",
    "Json.C188_refuted",
    "Json.C188_wrapped_refuted"
   ],
   "note": "The bound is refuted; exact: each of the three needs as many nested calls as there are values in each other (C188_partial). Proved: what loadJSON read within D nested calls needs at most D (C188_loaded_partial). Frames of the standard library in between are counted as part of the frame of the call."
  },
  {
   "property": "C189",
   "status": "partial",
   "theorems": [
    "Stats.C189_partial",
    "Stats.C189_array_partial",
    "Stats.C189_exact_partial",
    "Stats.C189_mean_all_refuted",
    "Stats.C189_refuted",
    "Stats.C189_bool_partial",
    "Stats.C189_bool_refuted"
   ],
   "note": "Proved if the total fits in the element type, and for int and the signed 64-bit type the sums on the way too (C189_partial, C189_array_partial). Refuted otherwise: mean and variance add up in the element type, so in every integer type the mean is wrong or undefined as soon as the total does not fit (C189_mean_all_refuted, with exact results in C189_exact_partial); a sum of ints can be undefined although the total is an int. For bool the sum is whether one is true, so the mean is right exactly for at most one true value (C189_bool_partial). Numbers are exact rationals: the conversion of a 64-bit sum to double does not round here. Elements of type float are not modelled."
  },
  {
   "property": "C190",
   "status": "partial",
   "theorems": [
    "Stream.Props.C190_read",
    "Stream.Props.C190_six_partial",
    "Stream.Props.C190_trip_partial",
    "Stream.Props.C190_refuted",
    "Stream.Props.C190_exact_partial"
   ],
   "note": "Reading is proved. Writing and reading is refuted, since << writes six digits: 1234567 comes back as 1234570. Proved instead: numbers of at most six digits from 10^-38 to the greatest float are written as they were read; every float comes back as a nearest float to a number within 5/1000000 of it, and normal ones do not change any more after that. Infinities and NaN of type float are not modelled. Exact for normal floats and 0: they survive if and only if they are what is read from some number of at most six digits that is 0 or from 10^-38 to the greatest float (C190_exact_partial)."
  },
  {
   "property": "C191",
   "status": "partial",
   "theorems": [
    "EditDistance.Props.C191_same",
    "EditDistance.Props.C191_work",
    "EditDistance.Props.C191_empty",
    "EditDistance.Props.C191_returned",
    "EditDistance.Props.C191_memory_partial",
    "EditDistance.Props.C191_memory_refuted"
   ],
   "note": "Exact counts: 4mn + m + n + 3 uses of the matrix, whatever the characters, and everything taken is given back. The linear memory is refuted: exactly 4(m+1)(n+1) + 8(m+2) bytes are needed (40 GB for two texts of 100000 characters). `new` does not fail in the model; what the allocator adds to a block is not counted."
  },
  {
   "property": "C192",
   "status": "proved",
   "theorems": [
    "Matrix.Props.C192_same",
    "Matrix.Props.C192_product",
    "Matrix.Props.C192_sum",
    "Matrix.Props.C192_compare",
    "Matrix.Props.C192_reduce"
   ],
   "note": "Exact counts of uses of entries for products (3nml + 3nl), sums (4nm, 2nm for += and -=) and copies; upper bounds for == (2nm, reached for equal matrices) and reduce ((3n²m + 3nm)/2 + n²). `*=` and pow are left out, since `*=` is always undefined (C30). Memory is in C125."
  },
  {
   "property": "C193",
   "status": "partial",
   "theorems": [
    "Base64.C193_exact_partial",
    "Base64.C193_any_partial",
    "Base64.C193_partial",
    "Base64.C193_size_partial",
    "Base64.C193_refuted"
   ],
   "note": "False: bits left over become a further byte (`Zm` gives two bytes, not `f`), and bytes 0 are dropped. Exactly what is returned is proved for every base64 text (exact) and for every text at all (any: characters outside the alphabet count as /), and from it the exact condition under which the answer is right (no byte 0, nothing left over). The number of bytes is at most 3k/4 rounded up."
  },
  {
   "property": "C194",
   "status": "proved",
   "theorems": [
    "TextSizes.C194_encode",
    "TextSizes.C194_encode_bounds",
    "TextSizes.C194_decode",
    "TextSizes.C194_decode_exact",
    "TextSizes.C194_json",
    "TextSizes.C194_json_bounds"
   ],
   "note": "Exact sizes and sharp bounds. The size of base64 texts is in C01 and C193."
  },
  {
   "property": "C195",
   "status": "partial",
   "theorems": [
    "Stream.Props.C195_missing_refuted",
    "Stream.Props.C195_read",
    "Stream.Props.C195_end",
    "Stream.Props.C195_partial",
    "Stream.Props.C195_large_refuted",
    "Stream.Props.C195_refuted",
    "Stream.Props.C195_only"
   ],
   "note": "False: six digits are written (1234567 comes back as 1234570), and a number out of range behind the first makes reading undefined (C195_large_refuted, for all texts with such a number), as does no number behind a comma (C195_missing_refuted). Reading of all texts in range is proved, and that a Vector of finite floats survives exactly if each element does (the elements which do: C190_exact_partial). For every text: what is read is a Vector of numbers at its beginning (C195_only). Missing: which of the other texts end the program and which are undefined, for numbers between the largest float and 10^39; texts with a sign or point that begins no number, or a wrong first element."
  }
 ]
}