{
"C01": {"note": "for every byte string; alphabet and grouping specified independently of the code's bit strings"},
"C02": {"note": "false as stated: NUL bytes are dropped by base64Decode; exact result and exact domain proved"},
"C03": {"note": "encoded length below 2^31; beyond that see C166"},
"C04": {"note": ""},
"C05": {"note": ""},
"C06": {"note": ""},
"C07": {"note": "false as stated: a '%' as last character reads past the terminating NUL; exact set of dangerous inputs proved"},
"C08": {"note": "lengths and start below 2^31"},
"C09": {"note": "false as stated: empty pattern, and starts whose int conversion is negative or wraps"},
"C10": {"note": "lengths below 2^31-1"},
"C11": {"note": "lengths below 2^31-1"},
"C12": {"note": "false as stated for exactly two pairs of ints (INT_MIN % -1); proved for all others"},
"C13": {"note": "product assumed to fit; overflow and lcm(0,0) shown undefined"},
"C14": {"note": "constructor defined for all ints but INT_MIN; all operators"},
"C15": {"note": "correct whenever the operation returns; returns when the products stay within ±INT_MAX"},
"C16": {"note": "cross products assumed to fit"},
"C17": {"note": "false for /=: it divides the components as ints; exactly what it does: C17_exact_partial"},
"C18": {"note": "false for int - Fraction and int / Fraction (operands swapped); n - f is right only if it is 0, n / f only if it is 1 or -1 (C18_only_refuted)"},
"C19": {"note": "0 prints as the empty text and INT64_MIN is undefined; every other number that fits round-trips"},
"C20": {"note": "false as stated: different signs with a negative sum recurse for ever; every pair of numbers of the same sign of which one uses all cells is undefined (C20_full_all_refuted); all other cases proved"},
"C21": {"note": "false for two different negative operands; every pair of numbers with different signs of which one uses all cells is undefined (C21_full_all_refuted); all other sign cases proved"},
"C22": {"note": "false for negative right operands; factors which together have more digits than the array has cells are always undefined (C22_full_all_refuted); all others proved; N at most 20000000 so that no int overflows"},
"C23": {"note": "canonical numbers (zero has positive sign)"},
"C24": {"note": "False as stated: stale or indeterminate cells beyond the length take part in later additions. What a sum with an assigned number gives is exact (C24_sum_exact: the old digits at the places the new number lacks are added), with the exact condition for it to be right; with copies, every sum with a longer number is without a result."},
"C25": {"note": "false as stated: the last squaring overflows although the result fits; exact domain proved; modulo 2^64 in wrapping arithmetic except for 2^e with e >= 64"},
"C26": {"note": "any semigroup, *= may be partial"},
"C27": {"note": "permutation(n, 0) returns n instead of 1; binomial of 64-bit arguments is undefined if n - r (or r) exceeds the greatest int, because the loop counters are ints; everything else proved"},
"C28": {"note": "double modelled by exact rationals; false for int arrays with elements whose square overflows"},
"C29": {"note": "exact for any arithmetic that is exact when defined; total over a field and, with bounds, for int"},
"C30": {"note": "false as stated: *= frees its rows twice on every call; pow never squares, does not return for exponent 0"},
"C31": {"note": "exact field arithmetic in place of double"},
"C32": {"note": "All sizes; exact arithmetic over an ordered commutative ring; the tree is also unchanged by queries."},
"C33": {"note": "False as stated (C33_refuted): addInterval/mulInterval never recompute the values of partially covered ancestors. C33_partial: right for every interval each earlier update contains or avoids, on the sizes of C34 (nonnegative factors for min/max). C33_blocks_partial: the exact answer of every query after every history on those sizes: a query joins the blocks into which its interval is cut, each changed by exactly the updates that contain the whole block."},
"C34": {"note": "False as stated (C34_refuted, size 6). C34_sizes: memory safe for all histories exactly for sizes 2^k-1, 2^k, 2^k+1. C34_partial: queries alone are safe for every size; the empty vector recurses for ever."},
"C35": {"note": "Every tree of fewer than 2^30 nodes built by setRoot and addNode of new nodes; also: beyond the height getAncestor is undefined."},
"C36": {"note": "False as stated (C36_refuted: two nodes at depth 5 meeting at the root). C36_partial gives the exact condition under which LCA is defined; then it is right. C36_simple: simple sufficient conditions."},
"C37": {"note": "Shortest-walk length, whenever LCA is defined."},
"C38": {"note": "heap of nodes with null dereference as UB; fresh nodes at distinct addresses"},
"C39": {"note": ""},
"C40": {"note": "false as stated: erasing the last node in order of several dereferences null; after erasing a node with nodes on both sides parent links are stale and, whatever the tree, the node inserted last afterwards is never found (C40_lost_refuted); one erasure and the priority-queue discipline proved"},
"C41": {"note": ""},
"C42": {"note": "The double array, tails, tail free list, block splitting and relocation are modelled with every vector access checked; proved by a representation invariant for all histories."},
"C43": {"note": "Refuted: removing a word which is not there can index past the end (t.remove(\"z\") on a new trie). Proved: removing a stored word removes exactly it; removing an absent one is undefined or changes nothing. Removing an absent word is proved to change nothing when each beginning of it that was ever shared has a word not before it in the alphabet (Spec/TrieAbsent), in particular when a word begins with it; programs of such removals are defined."},
"C44": {"note": "Holds for every history that does not hit the undefined behaviour of C43."},
"C45": {"note": "Refuted: the iterator loses words ({ab, ac, b} gives ab, ac) or never ends ({abc, abd}). Proved: every word shown is stored (any history); for tries built by insertions the iteration is complete and ends exactly if the set of words is Regular (a condition on shared beginnings), and then it is in alphabetical order; after any history of insertions and removals the same holds exactly if the history is RegularAfter (the beginnings which were ever shared by two stored words, and the words stored now)."},
"C46": {"note": "Refuted: the mapper is a static member, so constructing a trie changes the mapper of all others. Proved: when all mappers agree on the letters in use, tries are independent sets under every interleaving. In every program: a trie constructed with a mapper that refuses a character makes every call on every other trie with a word that begins with it end the program (C46_all_refuted)."},
"C47": {"note": "All byte strings, any tab and depth."},
"C48": {"note": "Tab of white space; floats are in C79."},
"C49": {"note": "Refuted (reads behind the end of every text which ends inside a string, or inside brackets after a number: C49_cut_refuted; exponents out of range or without digits behind their first character; bytes from 128 on outside strings). Proved: always ends; no undefined behaviour for well-formed texts without exponents and unicode escapes; for every text, well formed or not, with only ASCII characters outside strings (any bytes inside) and sound exponents, no undefined behaviour if a space and two quotes are appended, which never changes the value of a text that can be loaded. Missing: the full statement is false."},
"C50": {"note": "Refuted (every exponent without sign: undefined with one digit, else its first digit is lost; every number with an exponent inside an array or object, at any depth, ends the program: C50_inside_refuted; ints out of range, which become the nearest int). Proved for literals without exponent anywhere, and with a signed exponent as the whole text; exact arithmetic."},
"C51": {"note": "All member functions of Vector over lists, and every sequence of calls (C51_program); size is proved for lengths up to INT_MAX. Construction with a negative size and sizes beyond that: C166."},
"C52": {"note": "merge of lists that are not sorted is undefined (refuted); everything else holds, also for every sequence of calls."},
"C53": {"note": "All histories of push, pop, top, clear, with all values returned (C53_program)."},
"C54": {"note": "first/last of an empty queue are unchecked (refuted); FIFO order, dequeue and size hold, also for every sequence of enqueue and dequeue."},
"C55": {"note": "All histories of set, m[key], erase, clear (Map) and insert, erase, clear (Set)."},
"C56": {"note": "All histories of insert, erase, clear (MultiSet); MultiMap has no member to add pairs, so it is described through its constructor."},
"C57": {"note": "Any number of containers of one type; the zip loop, min_ and resize are modelled."},
"C58": {"note": "Also for functions with state and effects on the elements; the function does not touch the container other than through its argument."},
"C59": {"note": "Proved for max - min <= INT_MAX (range, coverage, invalid arguments); refuted for wider ranges, where the subtraction overflows."},
"C60": {"note": "Refuted: undefined for exactly those outputs whose low 32 bits are >= 2^31; the remaining outputs cover exactly the negative ints."},
"C61": {"note": "Binary64 with correct rounding. Proved: result finite, >= min, monotone in the output, <= max for min = 0 and <= max + (max - min) / 2^52 always. Refuted: the result can be max or beyond it, and infinite for extreme ranges."},
"C62": {"note": "Exact arithmetic: inverse of the CDF proved for Binomial (n <= 33), NegativeBinomial, Geometric, Poisson. Refuted: Binomial(34, p) overflows; in binary64 Poisson(800) and NegativeBinomial(1100, 0.5) never return."},
"C63": {"note": "Exact arithmetic (reals); binary64 is C101."},
"C64": {"note": "Exact arithmetic: disToLine is the distance; disToSegment never exceeds it by more than the eps of its comparisons allows. Refuted for segments shorter than eps and, in binary64, for all segments of length 0 (NaN, for all points up to 2^998)."},
"C65": {"note": "< is a strict total (lexicographic) order without NaN, in binary64 and exactly. Refuted: == within eps is not transitive (around every point, in every dimension but 0) and points that are == may be <; all-NaN points compare equal to everything; a point with NaN as first coordinate is neither <, <=, > nor >= any point, itself included."},
"C66": {"note": "All histories of all calls."},
"C67": {"note": "All histories of constructions, changes of vertices and addEdge; also when such a history is defined."},
"C68": {"note": "Refuted: a copied vertex with edges makes two destructors delete the same edge; assignment leaks edges. Proved for histories in which no vertex with leaving edges is copied or assigned. In every program: a vertex with leaving edges and its copy are never both destroyed unless one is assigned to (C68_copy_all_refuted, C68_both_refuted), and an assignment loses the edges of its target for good (C68_leak_all_refuted)."},
"C69": {"note": ""},
"C70": {"note": ""},
"C71": {"note": "value right immediately after the assignment; false for later arithmetic (stale digits)"},
"C72": {"note": "The value is right, and negating twice gives the number again. Refuted for every zero: -0 differs from 0, is smaller, and is printed as `-`; how numbers with either zero compare is given exactly (order). The copy has indeterminate cells beyond its length."},
"C73": {"note": "false as stated: foreign characters are read like '/'; exact behaviour proved"},
"C74": {"note": "rows not shorter than the first; self-assignment (a no-op in the code) not modelled"},
"C75": {"note": "For the sizes of C34; all histories."},
"C76": {"note": "false as stated: only the node's own subtree is searched; right at the root, and for any node an answer that is not null is right; exactly n - 1 of the 2n answers of a tree with n nodes are not null, whatever its shape"},
"C77": {"note": "Refuted for alphabets larger than 26 letters (27 arcs are hard-wired in relocation). Proved for every adapter with codes 2 to 27."},
"C78": {"note": "Refuted for keys with escapes and for unicode escapes (kept as they stand; exactly the ones with four hexadecimal digits are accepted). Proved for all other texts without exponents, ints in range; exact arithmetic."},
"C79": {"note": "Exact arithmetic for the floats (the rounding of double is not modelled)."},
"C80": {"note": "Refuted for negative indices (undefined behaviour). Proved for all paths with indices from 0 on."},
"C81": {"note": "Refuted: every missing key is inserted into the const object, with value null (C81_insert_refuted); undefined for non-objects. Proved for present keys and for arrays."},
"C82": {"note": "Refuted for odd lists and keys that need an escape. Proved for the others, all keys being strings. Exact: every odd list is undefined (C82_odd_all_refuted), keys are found under their escaped form (C82_exact_partial), keys with control characters never (C82_lost_refuted)."},
"C83": {"note": "Refuted for strings that need an escape. Proved for the rest. Exactly those strings change (C83_exact_partial)."},
"C84": {"note": "std::lexicographical_compare modelled element by element."},
"C85": {"note": "Over a model of std::istream written from the standard."},
"C86": {"note": "Refuted by six malformed texts. C86_exact_partial classifies every text: exactly which ones are undefined (Spec/StreamBad.lean), which ones give a vector, and that all others end the program; a text determines the vector it begins with; reading always ends."},
"C87": {"note": "Refuted for blank strings; the rest holds. Other types: C142, C143."},
"C88": {"note": "nextInt proved for max - min <= INT_MAX and refuted beyond; nextBool proved."},
"C89": {"note": "Binomial proved for every number type; refuted for NegativeBinomial, Geometric and Poisson at u = 1 (exact and binary64)."},
"C90": {"note": "Binary64: number of outputs giving true is within 1 + c/2^53 of p 2^64; p = 0 never true; refuted for p = 1."},
"C91": {"note": "Exact arithmetic: inverse CDF for Exponential and (sum) Gamma with whole k; number of outputs with result <= t proved. Binary64 with any log satisfying LogOk: finite and non-negative unless u = 1. Refuted: infinite for u = 1; lambda = 0 accepted; k >= 2^31 converted to int."},
"C92": {"note": "Proved for everything computed from the generator alone; refuted for NormalDistribution, whose spare value survives."},
"C93": {"note": "Refuted: the two evaluation orders differ on a concrete engine; the value for each order is characterised for even r."},
"C94": {"note": "Exact arithmetic; Binomial for n <= 33 (refuted beyond: the constructor overflows); NegativeBinomial and Poisson for k within int."},
"C95": {"note": "Exact arithmetic, complete characterisation over an arbitrary engine."},
"C96": {"note": "Exact arithmetic: the value is the first accepted candidate of Ahrens and Dieter plus the sum of floor(k) exponentials, and the accepted candidate has the gamma law (C96_law). Refuted for shapes of 2^31 and more."},
"C97": {"note": "Holds for arguments that are not coordinates of the target; refuted for p *= p[k], p /= p[k], whose exact result is given, and for the index, which is not checked."},
"C98": {"note": "Exact arithmetic. Refuted in binary64: for all points with a coordinate of 2^512 or more the squares overflow and normalize gives the zero vector; for all points with coordinates below 2^-538 they underflow and it gives infinities and NaNs. For the accuracy in between see C137."},
"C99": {"note": "Exact arithmetic: getPoint is exact for circles made by any constructor; area and perimeter are within 2e-8 relative. Refuted: PI is 3.1415926. For the accuracy in binary64 see C137."},
"C100": {"note": "Refuted (_refuted, _leak_refuted): every binary operator leaks its result, and a loop leaks without bound. C100_exact gives the number for all programs of assignments, compound assignments and loops; C100_partial says that exactly the programs without such operators leave nothing."},
"C101": {"note": "Refuted by underflow of the cross product: whenever it is computed as 0, in particular for all directions with coordinates below 2^-538, no coordinate of the result is finite. Proved for whole coordinates up to 2^20, with an error bound; other coordinates: C137."},
"C102": {"note": "Refuted for self-assignment of a vertex, whose exact effect is given; proved for different vertices and for edges."},
"C103": {"note": "Refuted after a destruction; proved for all histories without destruction of objects and without edges constructed by the client."},
"C104": {"note": "Proved: the constructors accept exactly the right ranges; integers stay in range and are all reached if max - min fits into an int; doubles with bounds up to 2^1022 are finite, not below min and at most (max - min) / 2^52 above max. Refuted: ranges wider than INT_MAX are accepted and every sample is undefined; max is returned; NaN is accepted."},
"C105": {"note": "Proved for every legal program over an arbitrary engine."},
"C106": {"note": "Proved for every history; std::time is an input."},
"C107": {"note": "Refuted: two distributions constructed in the same second agree on every sampling function. Partial: with the counting engine, times with different low 32 bits give different states; for the engine used, std::mt19937_64, C167 proves that the sequences differ."},
"C108": {"note": "Exact over the reals. In binary64: exact for chi-squared from 2^-1021 on, relative error at most 2^-51 for the exponential between 2^-1021 and 2^1021. Refuted: lambda 49 is read back as 49 + 2^-47; the least positive double is rejected by ChiSquaredDistribution."},
"C109": {"note": "C109_int_variance, C109_defined. C109_container_refuted: for 46340, 46340, 46339 the array version gives 0.222222328..., the container version 0.2222222222 (cancellation). Accuracy is bounded only if the sum of squares is at most 2^53."},
"C110": {"note": "C110_nonneg, C110_array. C110_equal_refuted: the variance of 0.1, 0.1, 0.1 is 2^-112."},
"C111": {"note": "C111_sum, C111_whole, C111_nan (a NaN or infinities of both signs give NaN). C111_refuted: order matters, the mean of 0.1, 0.1, 0.1 is not 0.1, the mean of 2^1023, 2^1023 is infinite."},
"C112": {"note": "C112_negative_partial (missing: sample variance for INT_MIN, refuted by C112_int_min_refuted), C112_empty, C112_too_long. -0 and 0 are not distinguished."},
"C113": {"note": "Statements whose source and target overlap are in C114. The bound on recursion depth stands for the stack, which is assumed large enough."},
"C114": {"note": "Refuted: copy assignment frees the target before it reads the source, so x = x (string, array, object), x = x[p] and x = std::move(x[p]) read freed memory, for every reachable state. Proved for scalars; x = std::move(x) gives null."},
"C115": {"note": "Allocation failure is not modelled."},
"C116": {"note": "Refuted: the value is converted to int, modulo 2^32. C116_modulo says exactly what is read."},
"C117": {"note": "Conversion to float is round to nearest even; beyond the range it gives an infinity."},
"C118": {"note": "Refuted for const ranges: begin() const and end() const of JSONIterator call themselves."},
"C119": {"note": "Refuted: == compares identities and < values; copies get a new identity. Proved: strict weak order."},
"C120": {"note": "Amortised bound with the potential of Sleator and Tarjan over the actual pointer code (loop iterations = fuel of the model); erase of nodes other than the first breaks the tree (C40) and is not covered. Refuted for find, which does not splay: n iterations each time on a path, for every n."},
"C121": {"note": "Depth via results being independent of the fuel above ceil(log2 n) + 1; breadth by running the shared recursion with entries that count one. Exact arithmetic, positions without overflow."},
"C122": {"note": "Refuted: the returned reference dangles for every input (BigNum.h:222-237). Partial: the effect on the object, for numbers from -1 upwards (++) and all numbers (--), as in C71."},
"C123": {"note": "Refuted for 1 x 0 matrices (read of A[0][0]) and for Matrix<double>, which prints six places only. Partial: injectivity and layout for all int matrices with at least one column; for double matrices layout, and entries with the same text differ by at most a millionth (not at all from 2^33 on). Exact domain: a column, or no row (C123_exact_partial)."},
"C124": {"note": "Refuted: the nonexistent children of a leaf collect summands and factors, so adding 2^30 three times to the single element -2^31 overflows although the element always fits. Proved: without updates the condition suffices (all sizes); whatever is defined is right (with the restrictions of C33 and C75); additions and queries are defined when n * (max |v| + sum of |x|) fits an int, and histories with multiplications when n * (product of max(1, |factor|)) * (max |v| + sum of |x|) fits."},
"C125": {"note": "Refuted twice: each product leaves its number of rows plus two blocks allocated, and *= always deletes its rows twice. Proved for every program without *=: it runs, every variable reads as the plain value, and after the scope exactly the blocks forgotten by products are allocated (none without products)."},
"C126": {"note": "Echelon form is proved for every arithmetic (rounding, truncation, NaN), termination for all doubles, correct rounding of sums, an error bound for products and exactness for integers. Refuted: rounding loses solutions (two equal rows (49, 1) reduce to rank 2), and a small pivot gives a 'solution' with residual 1. Partial: exact whenever every intermediate result is a double."},
"C127": {"note": "Exact arithmetic. Each sampler is shown to follow an explicit procedure on the sequence of uniform numbers (whenever it returns and no output is 2^64-1), and that procedure is shown to have the named law under the product of uniform measures, with the rest of the sequence independent. Rounding and the 2^64 grid of real outputs are outside (C88, C94 count on the grid)."},
"C128": {"note": "Everything proved except the last clause, which is refuted: in the trie with abc and abd two increments lead back to begin()."},
"C129": {"note": "Refuted with removals: n rounds of insert(a), remove(a) leave an empty trie with n tails. Proved for histories without removals (tables linear in the total length of the distinct words), and with removals a bound by everything ever inserted."},
"C130": {"note": "The bound for gcd is sharp. The number of products is stated as the number of products on which the result depends."},
"C131": {"note": "The text is exact (canonical decimal), and determined by the value."},
"C132": {"note": "binary64 with correctly rounded sqrt"},
"C133": {"note": "Proved without an exponent. Refuted with one: the mantissa is multiplied by a rounded power of ten (3e-1, 5e-324, 0.001e+310, 0e+400). With an exponent it holds for exponents 0 to 22 and a mantissa that is a double; otherwise the relative error is at most 2^-51 if mantissa, power and result are within 10^-300..10^300. Exponents must have a sign character (C50). pow is taken as correctly rounded. Also: a minus sign and a point without digits is accepted and read as 0 (C133_point_refuted)."},
"C134": {"note": "Refuted: six places only; infinity and NaN are written as texts that cannot be loaded. What holds: error at most half a millionth and one rounding, sign kept, a second trip changes nothing; doubles from 2^33 on and those read from at most six places survive. Exactly the doubles read for some number with six digits after the point survive (C134_exact_partial); all below half a millionth become 0 (C134_tiny_refuted)."},
"C135": {"note": "Refuted: BigNum<5> x(10); --x; x += 10 leaves 29, because a shorter value leaves its old digits behind. Proved for programs in which no variable gets shorter other than by a new declaration (factorials, Fibonacci numbers, sums). A variable holding 0 prints the empty text (C19). Also refuted: x = x, which copies overlapping memory with memcpy."},
"C136": {"note": "exp and pow are assumed accurate to one unit in the last place (ExpOk, PowOk); satisfiability is shown. Outside the stated ranges the code fails: C62 (lambda = 800, small p^r, n = 34), C89 (greatest output). Deviations: (8n+38)/2^53, (4r+20k+6)/2^53, (12k+18)/2^53."},
"C137": {"note": "sqrt, cos and sin are modelled as correctly rounded (Fp.dbl). Outside the range of moderate size squares overflow or underflow. The EPS term of disToSegment is real: C64_segment_refuted."},
"C138": {"note": "Sum of absolute values at most 2^1023 (otherwise the sum may overflow to infinity). C138_nan shows why NaN is excluded from the extremes: the result then depends on the order. Histories of updates with fractions are not bounded."},
"C139": {"note": "Refuted: anything may follow the value (`null x`), keys may be any value, numbers may have dashes and points anywhere, an unknown escape is read as a backslash, and more. C139_exact_partial characterises the texts read and the values returned exactly, by a grammar; C139_rfc_partial: all JSON texts without exponents are among them. Whether a text outside of the grammar ends the program or is undefined behaviour is the subject of C49."},
"C140": {"note": "Holds for List (also sort and reverse), Stack, Queue and Map: every program runs as if a reference were the position (or key) of its element. Refuted for Vector: pushing to a full Vector and erasing an element invalidate references to elements that stay. Vector within its capacity and without insert/erase: holds; for every program with a Vector, exactly which references stay valid is proved. Which references std::vector, list, deque and map invalidate is taken from the C++ standard."},
"C141": {"note": "Holds for List, Vector, Set, MultiSet and Map (C++17 order of evaluation). Refuted for Stack and Queue, whose operator= returns a copy: (a = b).push(x) is lost; there it holds if the result of an assignment is only read."},
"C142": {"note": "Holds for all int, long long, unsigned and bool values, for characters other than white space and for strings without white space (also with white space before and any text after). Refuted for others: strings are cut at the first blank, a blank char is undefined behaviour. operator>> and operator<< are taken from the C++ standard. For double see C168."},
"C143": {"note": "Refuted: m_from is a reference, so that an object made from a literal dangles after its statement, and one made from a variable sees later changes. Holds, for every T, if objects are made from variables that are not changed afterwards, or used in the expression that makes them."},
"C144": {"note": "Holds for NormalDistribution without exception. Gamma with a fractional shape: holds unless one of the 1024 largest outputs is drawn (C91). Refuted for StudentTDistribution: a chi-squared sample can be 0, and the division by it gives no number; holds for even r if all outputs lie between 2^11 and 2^64 - 1025. Of <cmath> only sqrt correctly rounded, log with relative error 2^-52, and pow into [0, 1] are assumed. One zero: the sign of zero is not modelled."},
"C145": {"note": "For equal ranks any node of that rank may be found; for different ranks the output is unique (C145_unique). Erasing other nodes than the first is C40."},
"C146": {"note": "Proved for one root and nodes that are each added once, below a node already there (getHeight and getAncestor: C35). The setters called directly change exactly their own field (C146_setters_partial). Refuted for a node added again (stale ancestors, still among the sons of the old father), for setFa and addSon called directly, for a second setRoot, and before the first one (indeterminate root and heights). The refutations for a node added again and for a second root hold in every tree and for every such node (C146_move_all_refuted, C146_second_root_all_refuted)."},
"C147": {"note": "Proved for intervals that contain a position (they are clipped) and for reversed updates with 0 < lv and rv < size, which change nothing. Refuted: every query without positions is undefined, on every tree, except one that begins right behind the last position, which can return a value ({9, 5, 7}: the maximum at position 3 is 9); updates before 0 or behind the end are undefined."},
"C148": {"note": "Proved for every text, well formed or not, when the stack holds one call of parse_next more than the text has opening brackets. Refuted in general: for every stack size the well-formed text [[[...]]] overflows the stack, and so does every text beginning with enough brackets, whatever follows. Also proved: with any room the result is either an overflow or the right one, and at least as many nested calls are needed as there are values in each other in the result (C148_needed_partial)."},
"C149": {"note": "Refuted: with an unsigned type and a negative value gcd(-6, 9u) is 1, and for a negative short and the unsigned 2^31 the loop never ends; lcm of two shorts is cut to a short. Proved for all types when both values are not negative, or when nothing is converted to unsigned; excluded are the pairs of -1 and the least value, which are undefined."},
"C150": {"note": "Refuted: factorial(13u) is 1932053504; factorial of the greatest value of any type but int and the signed 64-bit type never ends; permutation of unsigned shorts overflows int; binomial with n - r above 2147483647 overflows its int counters. Proved: the exact value for every type whenever it is representable (and the counters suffice), the residue in the wrapping types, undefined in the signed ones; negative arguments and r > n end the program. permutation(n, 0) is n in every type. binomial does not compile for types smaller than int."},
"C151": {"note": "Refuted for Fraction: 3^17 is an int, but the needless last squaring computes 3^32 and overflows; proved: the exact domain (the last square must fit) and the exact power in lowest terms on it. Refuted for Matrix: every power of a square matrix from 2 on is undefined (*= destroys twice), the power 0 is a 1x1 zero matrix; the power 1 is a copy without a leak. Proved for double: relative error at most (n-1)/2^52 unless the power is near overflow or underflow, exact for whole numbers up to 2^53. BigNum does not compile with this function (its *= is const)."},
"C152": {"note": "Refuted for MultiMap only: MultiMaps with the same pairs are different if two pairs with one key were given in a different order (and find() cannot tell them apart); proved with the order of the values of each key taken into account. Everything else proved."},
"C153": {"note": "Refuted: 1/65536 + 1/65536 overflows though both values are fractions of ints, and n - f, n / f and f /= g compute something else (C17, C18). Proved without these three: no program gives a wrong value, takes a wrong branch or ends without a division by 0, whatever the numbers; with numerators, denominators and int operands up to 32767 every program is defined. Programs with n - y and n / y compute exactly what they compute over the rationals with the operands swapped (C153_swapped_partial); only x /= y is left out (C17_exact_partial). For every program, with all statements: exactly which values a defined run leaves (Spec/FractionActual.lean), and that it ends only at a quotient by 0 (C153_actual_partial)."},
"C154": {"note": "Proved; the empty pattern is undefined (C09)."},
"C155": {"note": "urlEncode: C06_encode_append. base64Encode: true exactly if the first piece has a multiple of three bytes or the second is empty. Refuted for base64Decode (Zg== and b28=: padding between the pieces is dropped and the bits run on) and urlDecode (%4 and 1). Exact domains for a first piece before any second one: base64Decode exactly behind a multiple of four characters that are not padding (decode_exact), urlDecode exactly if the first piece does not end within a group of % and two characters (url_exact); behind a well formed beginning also undefined behaviour is that of the rest alone."},
"C156": {"note": "Client program over the JSON, URL and base64 models. That codes are needed at all is shown by examples: an uncoded key with a line feed is lost by writing and reading (C78), and toString gives a quote back with a backslash."},
"C157": {"note": "Sums and differences: exact, and defined for numerators and denominators below 2^15. Refuted: memset makes every cell of a new Matrix<Fraction> 0/0, so no product ever returns (proved for all matrices); reduce divides with Fraction::operator/=, an int quotient of the components (C17), and with int division for Matrix<int>, so (2, 1) becomes (1, 0). Proved when all divisions of the elimination leave no remainder."},
"C158": {"note": "Refuted: control characters without a short escape are written as they are (not JSON), and keys are written as they are, so that a key with a quote in it makes other members. Proved: with keys in escaped form, the text is JSON exactly if no string or key has such a control character; and it denotes the value, floats to six places."},
"C159": {"note": "Rounds of the three loops are counted; getDistance is one LCA. Exactly one table entry per binary digit of the depth. The bound for LCA is about the calls that are defined (see C36). C159_exact gives the exact number of rounds of getAncestor and LCA."},
"C160": {"note": "Refuted: summing 10, 9, ..., 1 with s += i; --i gives 145, as the variable i keeps the digit 1 of 10 above its own. Proved for all programs whose variables never get shorter (numbers non-negative); the factorial loop and the upward sum loop are right for every bound that fits."},
"C161": {"note": "Proved for all texts whose lengths fit an int (as C10)."},
"C162": {"note": "Refuted: comparing 65536/65537 with 65537/65536 overflows, so a Set, Map or sort with both is undefined; a Set<BigNum> can contain 0 and -0; with a NaN point a Set seems to contain every point of the line; vertices with equal values are one element although != says they differ. Proved: Fractions up to 46340, BigNums other than -0, points without NaN; vertices by their values; stable sorting for every type whose < compares a key."},
"C163": {"note": "Refuted: the loop adding 1/(i(i+1)) overflows from K = 1290 on, though all its values are fractions of ints up to K = 46339; K/(K+1) for all smaller K. Proved without x /= y, n - y, n / y: no wrong value, no wrong number of rounds; everything defined up to 32767. For every program, with all statements: exactly which values a defined run leaves (Spec/FractionActual.lean), and how often its loops run (C163_actual_partial). Every program whose actual values stay up to 32767, without x /= 0, is defined (C163_actual_small_partial)."},
"C164": {"note": "Exact arithmetic over any field. For double see C126, for Fraction and int C157; without columns reduce is undefined (C31_no_columns)."},
"C165": {"note": "Lengths and start below 2^31 and a non-empty pattern; the other inputs are in C09."},
"C166": {"note": "Refuted; exact answers for every size: sizes count modulo 2^32 with sign, clear() removes that many or overflows, kmpSearch sees that many characters or none, editDistance of 2^31 characters and the empty text is -2^31, base64Encode throws. Without a length base64Encode is right for every size."},
"C167": {"note": "The engine std::mt19937_64 is modelled after the C++ standard; the model reproduces its published numbers. Here the claims hold for this engine, those of the other claims for every engine."},
"C168": {"note": "Reading is exact: the nearest double for every literal (C168_read, C168_vector_read). Writing is refuted, because << writes six significant digits: 0.1 + 0.2 and 0.3 look alike, and infinity cannot be read. What holds: a relative error of at most 5/1000000 before the number is rounded, no further change by a second trip (for every finite double, subnormal numbers included), and no change at all for what was read from at most six digits. operator>> and operator<< of double are taken from the C++ standard and libstdc++. C168_vector_end: an unfinished text, or a wrong character behind an element, ends the program. Exact: a finite double survives writing and reading if and only if it is what is read from some number of at most six significant digits in range (C168_exact_partial). A Vector survives if and only if each element does (C168_vector_exact_partial). Refuted as well, for all texts of the kind: a number of 10^309 or more behind the first, or no number behind a comma, makes reading undefined (C168_large_refuted, C168_missing_refuted). For every text: what is read is a Vector of numbers at the beginning of the text (C168_only)."},
"C169": {"note": "Refuted as stated (C169_refuted: the variance of 0.1, 0.1, 0.1 is positive, that of two tiny different numbers is 0, that of four numbers of size 2^511 is infinite). What holds for all data: the relative error of (n+6)/2^52 plus twice (four times for the sample versions) the square of the error of the mean, which is at most (n+1)/2^52 times the mean of the absolute values, and 2^-1071. The array version of variance for ints uses another formula: C109."},
"C170": {"note": "Refuted: the counters of vertices and edges, the mapper of Trie and the generator of the random functions are static and unprotected; witnesses: two vertices with identity 0, a trie for digits that rejects a digit, the same random number in two threads. Exactly which pairs of calls race (C170_pairs_partial); without such pairs every order of steps gives each thread the results it has alone. Threads interleave access by access; a data race is undefined, so the refuting orders are only one possible effect."},
"C171": {"note": "Refuted for init (it resets only the flags of leaves, so pending updates of inner nodes hit the new contents), for updates at a node (pending updates of ancestors come later) and for queries at a node. Partial: both are right if the positions concerned are settled, i.e. queried alone since the last update that contains them; then histories with init and nodes behave like C33/C75. init with a shorter vector is undefined (C171_short). Calls with l, r, o that do not belong together, and init for part of the tree, are not treated."},
"C172": {"note": "Refuted: `pad.erase(0, 2)` takes two characters off the indentation of a closing brace whatever the tab is (wrong for every tab of a length other than two and every object with members; a tab of one character from depth 2 on), and an empty object is written with an empty line. Proved for tabs of two characters and objects with members; for every tab, the exact indentation, the number of line breaks, and that quotes and brackets match. Keys in escaped form (dump writes keys as they are, see C158)."},
"C173": {"note": "Refuted: the cells above the length are stale after assignment and indeterminate in copies; an assignment never changes the length, so digits written above it are not part of the number (BigNum() stays 0 whatever is written) but take part in later sums, and a top digit overwritten with 0 leaves a leading zero that breaks comparison and printing. Proved: reading below the length for every number and everywhere for numbers with clean cells; any sequence of assignments below the length that leaves the top digit nonzero; indices outside the array are undefined. What is printed for any integers written is exact (the decimal texts of the cells)."},
"C174": {"note": "Refuted, and the exact domains are proved: a + b is right if and only if both are negative or the sum is not negative (otherwise it never ends); a - b if and only if they are not both negative, or equal (otherwise the value is what is left after losing the last borrow, with the wrong sign, for every such pair); a * b if and only if the right factor is not negative or the left one is 0 (otherwise the sign is wrong)."},
"C175": {"note": "Refuted: x += -1 for x = 0 never ends. Proved for all programs in which every operator gets operands from its exact domain (C174) and no variable gets shorter; values and printed text."},
"C176": {"note": "List and Vector: exact for all bodies. List: every element present throughout is visited once, in order, unless the body breaks, sorts or reverses (refuted with reverse); pushing in every round never ends, erasing the current element is undefined (refuted). Vector: as over positions for bodies that keep the length; a push in the body is undefined however much room there is, unless the round ends with a break."},
"C177": {"note": "Exact for all bodies, Map and Set; order, completeness without break, end for key types with finitely many values. Refuted: with ever greater keys (strings) a loop that inserts never ends; erasing the current pair is undefined."},
"C178": {"note": "Exact for all bodies, both classes; order, completeness without break, end without insertions (so for every loop over a MultiMap). Refuted: for (auto& x : s) s.insert(x) over a MultiSet never ends, for every type; erasing the current element is undefined."},
"C179": {"note": "Messages and their place for all texts; the model with messages is proved to be the one without when the message is dropped. Refuted: the characters quoted need not be wrong, [1e+5] is rejected with a complaint about its digit 5."},
"C180": {"note": "Proved for all texts: at most 4n+16 characters read; the exact number of copies from the document, at most (depth+1)n where depth is the nesting of objects, at most (n+2)^2 in any case. Refuted for the copies: every member of an object is copied with all it contains, so n nested objects cost n^2/2 copies. The time of std::map and of the conversions of numbers is not counted."},
"C181": {"note": "Proved for bodies that add no word: removing words, also other ones than that of the round, while the loop runs is safe after every history whose iteration ends, so removing the words with some property in a loop is right after regular histories. Proved with insertions for words with different first letters. Refuted in general: an insertion in the loop may move the node the iterator is at; then the loop has undefined behaviour, ends early, or does not show the new word."},
"C182": {"note": "Refuted: each array and object copies the text of everything in it, so n nested arrays (2n characters) cost n^2, and n nested objects cost 2n^3/3 characters. Proved: the work lies between the total length of the texts of all values in it and five times that plus an indentation for each value (also for scalars and elements of arrays, which use none); hence linear for bounded nesting, and never more than 7n^2 + 9n for a text of n characters with the default arguments. Growth of std::string is not counted."},
"C183": {"note": "Proved for the accesses to the three tables: at most 3|w| + 5 for contain and 3|w| + 7 for remove; at most (|w| + 29)(54(S + |w|) + 126) for insert, S letters inserted before. Refuted for the characters copied: contain copies the whole tail of a stored word by value, so no bound depends on the word only; proved with the longest word inserted so far added. The product is needed: inserting a^n c next to a^n b takes n(n-1)/2 accesses, so an insertion is not linear in word and contents. The default mappers; growth of std::vector and comparisons of strings are not counted."},
"C184": {"note": "Proved for uses of single digits: a comparison 2 min(d,e) + 2, a sum or difference 11 max(d,e) + 4, a product of nonzero numbers exactly 3de + 3(d+e) - 2, an increment between 4d and 6d + 2. Refuted for the whole work: each operation makes new numbers and clears all MAX_SIZE cells of each, so adding 1 and 1 costs MAX_SIZE; bounded by 3 MAX_SIZE + 2 max(d,e) + 1 (C184_plus_partial). Sums of mixed signs that never end are C20. Characters of strings are not counted."},
"C185": {"note": "False as stated: erase leaves the links of the erased node in place. For every tree of two or more nodes, erasing any node and inserting it again never gives a search tree of the nodes (C185_never_refuted), already for two nodes insert never returns (C185_refuted); the same for inserting a node twice, where insert never returns if ranks differ. Proved: programs that make the object anew before inserting it again, and nodes that were alone in the tree."},
"C186": {"note": "Proved in exact arithmetic for the rejection loops (outputs other than the greatest 64-bit number, shapes below 2^31) and in any arithmetic for the samplers that take one output. The number of points tried by the polar method is geometric with success probability pi/4; the exact mean of the gamma sampler is floor(k) + 3(e+d)/(e Gamma(1+d)) for the fraction d. StudentTDistribution makes a new normal sampler in each call and so throws away the second number of each pair."},
"C187": {"note": "Refuted. Exact: LCA returns nullptr if one more than the smaller depth is a power of two and reads beyond the stored table (undefined) otherwise; getDistance is undefined for every such pair because it dereferences the result. Proved: a second tree changes no height, ancestor or LCA of the first."},
"C188": {"note": "The bound is refuted; exact: each of the three needs as many nested calls as there are values in each other (C188_partial). Proved: what loadJSON read within D nested calls needs at most D (C188_loaded_partial). Frames of the standard library in between are counted as part of the frame of the call."},
"C189": {"note": "Proved if the total fits in the element type, and for int and the signed 64-bit type the sums on the way too (C189_partial, C189_array_partial). Refuted otherwise: mean and variance add up in the element type, so in every integer type the mean is wrong or undefined as soon as the total does not fit (C189_mean_all_refuted, with exact results in C189_exact_partial); a sum of ints can be undefined although the total is an int. For bool the sum is whether one is true, so the mean is right exactly for at most one true value (C189_bool_partial). Numbers are exact rationals: the conversion of a 64-bit sum to double does not round here. Elements of type float are not modelled."},
"C190": {"note": "Reading is proved. Writing and reading is refuted, since << writes six digits: 1234567 comes back as 1234570. Proved instead: numbers of at most six digits from 10^-38 to the greatest float are written as they were read; every float comes back as a nearest float to a number within 5/1000000 of it, and normal ones do not change any more after that. Infinities and NaN of type float are not modelled. Exact for normal floats and 0: they survive if and only if they are what is read from some number of at most six digits that is 0 or from 10^-38 to the greatest float (C190_exact_partial)."},
"C191": {"note": "Exact counts: 4mn + m + n + 3 uses of the matrix, whatever the characters, and everything taken is given back. The linear memory is refuted: exactly 4(m+1)(n+1) + 8(m+2) bytes are needed (40 GB for two texts of 100000 characters). `new` does not fail in the model; what the allocator adds to a block is not counted."},
"C192": {"note": "Exact counts of uses of entries for products (3nml + 3nl), sums (4nm, 2nm for += and -=) and copies; upper bounds for == (2nm, reached for equal matrices) and reduce ((3n²m + 3nm)/2 + n²). `*=` and pow are left out, since `*=` is always undefined (C30). Memory is in C125."},
"C193": {"note": "False: bits left over become a further byte (`Zm` gives two bytes, not `f`), and bytes 0 are dropped. Exactly what is returned is proved for every base64 text (exact) and for every text at all (any: characters outside the alphabet count as /), and from it the exact condition under which the answer is right (no byte 0, nothing left over). The number of bytes is at most 3k/4 rounded up."},
"C194": {"note": "Exact sizes and sharp bounds. The size of base64 texts is in C01 and C193."},
"C195": {"note": "False: six digits are written (1234567 comes back as 1234570), and a number out of range behind the first makes reading undefined (C195_large_refuted, for all texts with such a number), as does no number behind a comma (C195_missing_refuted). Reading of all texts in range is proved, and that a Vector of finite floats survives exactly if each element does (the elements which do: C190_exact_partial). For every text: what is read is a Vector of numbers at its beginning (C195_only). Missing: which of the other texts end the program and which are undefined, for numbers between the largest float and 10^39; texts with a sign or point that begins no number, or a wrong first element."}
}
