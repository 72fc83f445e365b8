{"id": "C01", "title": "base64Encode is RFC 4648 base64", "statement": "base64Encode(s) with the default length returns exactly the RFC 4648 base64 text of the bytes of s: every group of three bytes becomes four characters of the standard alphabet, a final group of one or two bytes becomes two or three characters, and '=' pads the text to a multiple of four.", "quantifier": "for every byte string s, of any length and with any byte values", "why_tests_cant": "the input space is unbounded; a finite test suite samples a handful of inputs and only three remainder classes times a few values", "anchors": ["src/base64/base64_functions.cpp: base64Encode"]}
{"id": "C02", "title": "base64 round trip", "statement": "base64Decode(base64Encode(s)) == s.", "quantifier": "for every byte string s", "why_tests_cant": "tests use printable text only; the loss of NUL bytes shows on inputs nobody listed", "anchors": ["src/base64/base64_functions.cpp: base64Encode, base64Decode"]}
{"id": "C03", "title": "base64Encode length argument", "statement": "base64Encode(s, n) with n >= 0 returns either the empty string (exactly when n is smaller than the unpadded base64 text of s) or that unpadded text followed by '=' up to exactly n characters; n < -1 gives the empty string.", "quantifier": "for every byte string s and every int n", "why_tests_cant": "the input space is unbounded; a finite test suite samples a handful of inputs", "anchors": ["src/base64/base64_functions.cpp: base64Encode"]}
{"id": "C04", "title": "base64Decode ignores padding", "statement": "base64Decode gives the same result when '=' characters are inserted into or removed from its argument at any position, so padded, unpadded and over-padded texts of the same data decode alike.", "quantifier": "for every byte string and every set of positions of '='", "why_tests_cant": "the input space is unbounded; a finite test suite samples a handful of inputs", "anchors": ["src/base64/base64_functions.cpp: base64Decode"]}
{"id": "C05", "title": "URL encoding round trip", "statement": "urlDecode(urlEncode(s)) == s, and the call never has undefined behaviour.", "quantifier": "for every byte string s, including bytes >= 0x80, '%', '+', NUL", "why_tests_cant": "the input space is unbounded; a finite test suite samples a handful of inputs", "anchors": ["src/network/network_functions.cpp: urlEncode, urlDecode"]}
{"id": "C06", "title": "urlEncode output is URL safe", "statement": "urlEncode(s) consists only of RFC 3986 unreserved characters and of %HH triples with upper-case hexadecimal digits; unreserved characters are never escaped; distinct strings have distinct encodings and encoding commutes with concatenation.", "quantifier": "for every byte string (and every pair of byte strings)", "why_tests_cant": "the input space is unbounded; a finite test suite samples a handful of inputs", "anchors": ["src/network/network_functions.cpp: urlEncode"]}
{"id": "C07", "title": "urlDecode is memory safe on untrusted input", "statement": "urlDecode(t) returns a string and never has undefined behaviour.", "quantifier": "for every byte string t, well formed or not", "why_tests_cant": "requires all malformed inputs; the failing ones (a '%' as last character) are easy to miss and usually do not crash", "anchors": ["src/network/network_functions.cpp: urlDecode, hexToInt"]}
{"id": "C08", "title": "kmpSearch finds the leftmost occurrence", "statement": "kmpSearch(base, pattern, start) terminates without out-of-bounds access and returns the least index i >= start at which pattern occurs in base, or -1 if there is none.", "quantifier": "for every base, every non-empty pattern and every start (lengths and start below 2^31)", "why_tests_cant": "failure-function errors show only for particular self-overlapping patterns; the input space is unbounded; a finite test suite samples a handful of inputs", "anchors": ["src/algorithm/kmp.cpp: kmpSearch", "src/include/algorithm/algorithm_functions.h"]}
{"id": "C09", "title": "kmpSearch is defined on the whole documented domain", "statement": "kmpSearch never has undefined behaviour and honours its contract also for the empty pattern and for start positions of any size_t value.", "quantifier": "for every base, pattern and size_t start", "why_tests_cant": "undefined behaviour on a zero-length allocation is silent in practice", "anchors": ["src/algorithm/kmp.cpp: kmpSearch"]}
{"id": "C10", "title": "editDistance is the least number of single-character edits", "statement": "editDistance(a, b) equals the minimum number of insertions, deletions and replacements of one character that turn a into b: such a sequence of that length exists and no shorter one does.", "quantifier": "for every pair of strings of less than 2^31 - 1 characters and, for minimality, every edit sequence (longer strings: C166)", "why_tests_cant": "minimality quantifies over all edit sequences", "anchors": ["src/algorithm/edit_distance.cpp: editDistance"]}
{"id": "C11", "title": "editDistance is a metric", "statement": "editDistance(a, b) == 0 iff a == b; it is symmetric; it satisfies the triangle inequality; it is between |len a - len b| and max(len a, len b).", "quantifier": "for all triples of strings of less than 2^31 - 1 characters", "why_tests_cant": "the input space is unbounded; a finite test suite samples a handful of inputs", "anchors": ["src/algorithm/edit_distance.cpp: editDistance"]}
{"id": "C12", "title": "gcd is the greatest common divisor", "statement": "gcd(a, b) terminates, divides both arguments, every common divisor divides it, and for non-negative arguments it is the non-negative gcd, gcd(0,0) = 0.", "quantifier": "for all int arguments except INT_MIN % -1", "why_tests_cant": "the input space is unbounded; a finite test suite samples a handful of inputs", "anchors": ["src/include/math_utils/math_functions.h: gcd"]}
{"id": "C13", "title": "lcm is the least common multiple", "statement": "lcm(a, b) for non-negative arguments not both 0 is the least common multiple, 0 if one is 0, as long as a*b fits the type; lcm(0,0) divides by zero.", "quantifier": "for all non-negative int arguments", "why_tests_cant": "the input space is unbounded; a finite test suite samples a handful of inputs", "anchors": ["src/include/math_utils/math_functions.h: lcm"]}
{"id": "C14", "title": "Fraction values are always canonical", "statement": "Every Fraction that was constructed or computed has a positive denominator and numerator and denominator without common factor; a zero denominator ends the program through error().", "quantifier": "for every pair of ints and every sequence of operations", "why_tests_cant": "all sign combinations and all histories", "anchors": ["src/include/math_utils/Fraction.h: Fraction"]}
{"id": "C15", "title": "Fraction arithmetic is exact", "statement": "a + b, a - b, a * b and a / b (b non-zero) are the exact rational sum, difference, product and quotient whenever no intermediate int overflows; dividing by zero ends the program.", "quantifier": "for all pairs of fractions without int overflow", "why_tests_cant": "the input space is unbounded; a finite test suite samples a handful of inputs", "anchors": ["src/include/math_utils/Fraction.h: operator+, operator-, operator*, operator/"]}
{"id": "C16", "title": "Fraction comparisons agree with rational order", "statement": "a == b, a != b, a < b, a <= b, a > b, a >= b hold iff the corresponding relation holds between the rational values (no int overflow in the cross products).", "quantifier": "for all pairs of fractions", "why_tests_cant": "the input space is unbounded; a finite test suite samples a handful of inputs", "anchors": ["src/include/math_utils/Fraction.h: operator==, operator<, operator<="]}
{"id": "C17", "title": "Fraction compound assignment equals the binary operator", "statement": "a += b, a -= b, a *= b, a /= b leave a equal to a + b, a - b, a * b, a / b.", "quantifier": "for all pairs of fractions (b non-zero for /=)", "why_tests_cant": "the library test for /= uses the one kind of operand for which component-wise integer division is exact", "anchors": ["src/include/math_utils/Fraction.h: operator+=, operator-=, operator*=, operator/="]}
{"id": "C18", "title": "Mixed int and Fraction operators are exact", "statement": "n + f, n - f, n * f, n / f and f + n, f - n, f * n, f / n are the exact rational results.", "quantifier": "for all ints n and fractions f", "why_tests_cant": "the input space is unbounded; a finite test suite samples a handful of inputs", "anchors": ["src/include/math_utils/Fraction.h: friend operators"]}
{"id": "C19", "title": "BigNum construction and printing", "statement": "A BigNum built from an int64 x or from the canonical decimal text of an integer denotes that integer, and printing a non-zero one gives the canonical decimal text back.", "quantifier": "for every int64 except INT64_MIN and every canonical text that fits MAX_SIZE digits", "why_tests_cant": "the input space is unbounded; a finite test suite samples a handful of inputs", "anchors": ["src/include/math_utils/BigNum.h: BigNum(std::int64_t), BigNum(std::string), toString"]}
{"id": "C20", "title": "BigNum addition is integer addition", "statement": "a + b denotes the integer sum of a and b.", "quantifier": "for all freshly built BigNums of all sign combinations that fit", "why_tests_cant": "carry chains and sign cases; the failing sign case recurses for ever", "anchors": ["src/include/math_utils/BigNum.h: operator+, add, sub"]}
{"id": "C21", "title": "BigNum subtraction is integer subtraction", "statement": "a - b denotes the integer difference of a and b.", "quantifier": "for all freshly built BigNums of all sign combinations that fit", "why_tests_cant": "borrow chains and sign cases", "anchors": ["src/include/math_utils/BigNum.h: operator-, sub"]}
{"id": "C22", "title": "BigNum multiplication is integer multiplication", "statement": "a * b denotes the integer product of a and b.", "quantifier": "for all freshly built BigNums of all sign combinations that fit", "why_tests_cant": "carry chains and sign cases", "anchors": ["src/include/math_utils/BigNum.h: operator*, mul"]}
{"id": "C23", "title": "BigNum comparison is integer comparison", "statement": "==, !=, <, <=, >, >= between canonical BigNums agree with the integers they denote.", "quantifier": "for all pairs of canonical BigNums", "why_tests_cant": "the input space is unbounded; a finite test suite samples a handful of inputs", "anchors": ["src/include/math_utils/BigNum.h: cmp, operator<"]}
{"id": "C24", "title": "BigNum assignment yields an independent equal number", "statement": "After a = b (or copying b) every later arithmetic with a gives the result it would give with b.", "quantifier": "for all previous values of a and all b", "why_tests_cant": "the defect needs an assignment of a shorter number over a longer one, followed by arithmetic with a longer operand", "anchors": ["src/include/math_utils/BigNum.h: operator=, BigNum(const BigNum&)"]}
{"id": "C25", "title": "binaryPow is exponentiation", "statement": "binaryPow(b, e) equals b^e whenever e >= 0 and b^e fits into int64, modulo 2^64 in wrapping arithmetic in general; e < 0 ends the program.", "quantifier": "for all int64 b and e", "why_tests_cant": "the extra squaring overflows for inputs whose result fits", "anchors": ["src/math_utils/binary_pow.cpp: binaryPow"]}
{"id": "C26", "title": "genericBinaryPow is exponentiation in any monoid", "statement": "genericBinaryPow(x, e) equals the e-fold product of x for e >= 1 and the converted 1 for e = 0, for every value type whose *= is associative, commutative or not; e < 0 ends the program.", "quantifier": "for every associative multiplication, every x, every e", "why_tests_cant": "quantifies over all value types", "anchors": ["src/include/math_utils/math_functions.h: genericBinaryPow"]}
{"id": "C27", "title": "factorial, permutation and binomial count", "statement": "factorial(n) = n!, permutation(n, r) = number of r-arrangements of n things, binomial(n, r) = number of r-subsets of n things, when the values fit.", "quantifier": "for all 0 <= r <= n", "why_tests_cant": "the input space is unbounded; a finite test suite samples a handful of inputs", "anchors": ["src/include/math_utils/math_functions.h: factorial, permutation, binomial"]}
{"id": "C28", "title": "Statistics follow their definitions", "statement": "sum, mean, variance and sample variance of a non-empty array equal their textbook definitions, stddev and sample_stddev are the square roots of these, the int and the double versions of variance agree, and variance is >= 0 with equality iff all elements are equal (exact arithmetic).", "quantifier": "for every array of any length", "why_tests_cant": "an algebraic identity over all arrays", "anchors": ["src/math_utils/statistics.cpp", "src/include/math_utils/math_functions.h: sum, mean"]}
{"id": "C29", "title": "Matrix sum, difference and product", "statement": "A + B, A - B, A += B, A -= B, A * B are the entry-wise sum and difference and the matrix product, and operands of mismatched shapes abort; hence product is associative and distributes over sums.", "quantifier": "for all shapes and all entries of a ring (int: whenever no overflow)", "why_tests_cant": "the input space is unbounded; a finite test suite samples a handful of inputs", "anchors": ["src/include/math_utils/Matrix.h: operator+, operator-, operator*, operator+=, operator-="]}
{"id": "C30", "title": "Matrix power and compound product", "statement": "A *= B leaves A equal to A * B, and the matrix power of A to the n is the n-fold product.", "quantifier": "for all conformable matrices and all n >= 1", "why_tests_cant": "double free on every call; tests never call it", "anchors": ["src/include/math_utils/Matrix.h: operator*=, pow"]}
{"id": "C31", "title": "Matrix::reduce yields row echelon form", "statement": "reduce() turns a matrix over a field into row echelon form with leading entries 1, using only row operations, so that the solutions of A x = 0 are unchanged.", "quantifier": "for all shapes with at least one column and all entries of a field", "why_tests_cant": "the input space is unbounded; a finite test suite samples a handful of inputs", "anchors": ["src/include/math_utils/Matrix.h: reduce"]}
{"id": "C32", "title": "SegmentTree range queries on the initial data", "statement": "queryMin, queryMax and querySum over [l, r] of a tree built from v return minimum, maximum and sum of v[l..r].", "quantifier": "for every non-empty v and every 0 <= l <= r < size", "why_tests_cant": "the input space is unbounded; a finite test suite samples a handful of inputs", "anchors": ["src/include/graph/SegmentTree.h"]}
{"id": "C33", "title": "SegmentTree queries reflect all earlier updates", "statement": "After any sequence of add and multiply updates on ranges, queryMin, queryMax and querySum over [l, r] return minimum, maximum and sum of the current elements l..r.", "quantifier": "for every history of updates and queries and every range", "why_tests_cant": "needs all interleavings of lazy updates", "anchors": ["src/include/graph/SegmentTree.h: addInterval, mulInterval, update, query"]}
{"id": "C34", "title": "SegmentTree is memory safe", "statement": "No sequence of in-range calls on a tree built from a non-empty vector accesses memory out of bounds.", "quantifier": "for every size and every history", "why_tests_cant": "the overrun is of a few elements, at particular sizes only", "anchors": ["src/include/graph/SegmentTree.h: update"]}
{"id": "C35", "title": "Tree node heights and ancestors", "statement": "After any sequence of addNode calls, a node's height is its number of edges from the root and getAncestor(v, k) is the node reached by k parent steps, for all k up to the height.", "quantifier": "for every tree built by addNode and every node and k", "why_tests_cant": "all tree shapes", "anchors": ["src/graph/Tree.cpp: addNode, getAncestor"]}
{"id": "C36", "title": "Tree::LCA is the lowest common ancestor", "statement": "LCA(x, y) returns the deepest node that is an ancestor of both x and y, without undefined behaviour.", "quantifier": "for every tree built by addNode and all pairs of nodes", "why_tests_cant": "fails only when both nodes are deep below the LCA, first at depth 5", "anchors": ["src/graph/Tree.cpp: LCA"]}
{"id": "C37", "title": "Tree::getDistance is the path length", "statement": "getDistance(x, y) is the number of edges on the path between x and y, whenever LCA is defined.", "quantifier": "for every tree and all pairs of nodes", "why_tests_cant": "all tree shapes", "anchors": ["src/graph/Tree.cpp: getDistance"]}
{"id": "C38", "title": "BST find after insertions", "statement": "After inserting any sequence of fresh nodes, find(k) returns a node with rank k iff some inserted node has rank k, and otherwise null; no call has undefined behaviour.", "quantifier": "for every insertion sequence, including duplicates", "why_tests_cant": "rotations depend on the whole history", "anchors": ["src/graph/BST.cpp: insert, splay, rotate, find"]}
{"id": "C39", "title": "BST insertions keep a well-formed search tree", "statement": "After any sequence of insertions the parent and child links are mutually consistent, every inserted node is reachable from the root exactly once, in-order ranks are non-decreasing, and the node inserted last is the root.", "quantifier": "for every insertion sequence", "why_tests_cant": "structural invariant of all histories", "anchors": ["src/graph/BST.cpp: insert, splay, rotate"]}
{"id": "C40", "title": "BST erase removes exactly one node", "statement": "After erase(x) all other nodes can still be found and the tree can be used further.", "quantifier": "for every history of insertions and erasures", "why_tests_cant": "depends on the tree shape left by splaying", "anchors": ["src/graph/BST.cpp: erase, pre, suf"]}
{"id": "C41", "title": "BST predecessor and successor", "statement": "Right after x was inserted, pre(x) returns a node of greatest rank among those before x in order and suf(x) one of least rank among those after it, null if there is none.", "quantifier": "for every insertion sequence", "why_tests_cant": "all histories", "anchors": ["src/graph/BST.cpp: pre, suf"]}
{"id": "C42", "title": "Trie behaves as a set of words", "statement": "After any history of insert calls with lower-case words and remove calls for words which are stored, contain(w) is true exactly if w is stored; all these calls complete, without an access outside a vector and without a failure.", "quantifier": "for every history of such insertions and removals and every queried lower-case word", "why_tests_cant": "double-array relocation depends on the whole history", "anchors": ["src/string_utils/Trie.cpp: insert, retrieve, contain"]}
{"id": "C43", "title": "Trie removal", "statement": "remove(w) for a stored word removes exactly w; for a word which is not stored it changes nothing; other words stay.", "quantifier": "for every history of insertions and removals and every lower-case word", "why_tests_cant": "unchecked index in remove is silent", "anchors": ["src/string_utils/Trie.cpp: remove_, remove"]}
{"id": "C44", "title": "Trie size", "statement": "size() is the number of distinct words currently stored.", "quantifier": "for every history of insert and remove calls with lower-case words that completes (C43 says which do not)", "why_tests_cant": "all histories", "anchors": ["src/string_utils/Trie.cpp: size, insert, remove"]}
{"id": "C45", "title": "Trie iteration enumerates all words", "statement": "Iterating from begin() to end() visits every stored word exactly once and stops.", "quantifier": "for every set of words", "why_tests_cant": "depends on shape; test words share a first letter early in the alphabet", "anchors": ["src/string_utils/Trie.cpp: visit", "src/include/string_utils/Trie.h: iterator"]}
{"id": "C46", "title": "Trie objects are independent", "statement": "Operations on one Trie object are not affected by constructing another one with a different character mapper.", "quantifier": "for every pair of tries and every interleaving of constructions", "why_tests_cant": "needs interleavings of two objects", "anchors": ["src/string_utils/Trie.cpp: StringAdapter::mapChar"]}
{"id": "C47", "title": "JSON strings survive dump and load", "statement": "For a string value s, loading the dumped text gives the string s back; the escaped form of distinct strings is distinct and never contains an unescaped quote or raw control escape.", "quantifier": "for every byte string s", "why_tests_cant": "the input space is unbounded; a finite test suite samples a handful of inputs", "anchors": ["src/json/Json.cpp: jsonEscape, parse_string, dump"]}
{"id": "C48", "title": "JSON values survive dump and load", "statement": "loadJSON(v.dump()) equals v for every value built from null, booleans, ints, strings, arrays and objects whose keys are in escaped form; in particular for every value that loadJSON itself produced without floats.", "quantifier": "for every such value of any nesting depth", "why_tests_cant": "structural induction over all values", "anchors": ["src/json/Json.cpp: dump, parse_next", "src/json/json_functions.cpp: loadJSON"]}
{"id": "C49", "title": "loadJSON is memory safe on untrusted input", "statement": "loadJSON(t) returns a value or ends the program through error(); it never has undefined behaviour.", "quantifier": "for every byte string t", "why_tests_cant": "all malformed inputs", "anchors": ["src/json/Json.cpp: parse_string, parse_number, skip_whitespaces"]}
{"id": "C50", "title": "JSON number literals", "statement": "A JSON number literal is loaded as the number it denotes, at top level and inside arrays and objects.", "quantifier": "for every JSON number literal", "why_tests_cant": "tests use one literal with an explicit exponent sign, at the end of the text", "anchors": ["src/json/Json.cpp: parse_number"]}
{"id": "C51", "title": "Vector is a bounds-checked sequence", "statement": "Every operation of Vector acts like the corresponding list operation when its index is in range and otherwise ends the program through error(); none has undefined behaviour.", "quantifier": "for every sequence of operations and arguments", "why_tests_cant": "all histories", "anchors": ["src/include/containers/Vector.h"]}
{"id": "C52", "title": "List is a bounds-checked sequence", "statement": "Every operation of List acts like the corresponding list operation when its index is in range and otherwise ends the program through error(); none has undefined behaviour; sort and merge give sorted permutations.", "quantifier": "for every sequence of operations and arguments", "why_tests_cant": "all histories", "anchors": ["src/include/containers/List.h"]}
{"id": "C53", "title": "Stack is last in first out", "statement": "Every history of push, pop, top, size, isEmpty and clear on a Stack behaves like a LIFO list, and pop/top of an empty stack end the program.", "quantifier": "for every history", "why_tests_cant": "all histories", "anchors": ["src/include/containers/Stack.h"]}
{"id": "C54", "title": "Queue is first in first out", "statement": "Every history of enqueue and dequeue on a Queue behaves like a FIFO list and access to an empty queue ends the program.", "quantifier": "for every history", "why_tests_cant": "all histories; reading an empty deque is silent", "anchors": ["src/include/containers/Queue.h"]}
{"id": "C55", "title": "Map and Set are ordered finite maps and sets", "statement": "Map and Set behave as finite maps and sets: the last put wins, keys not touched keep their values, iteration is in strictly increasing key order, get of a missing key ends the program.", "quantifier": "for every history", "why_tests_cant": "all histories", "anchors": ["src/include/containers/Map.h", "src/include/containers/Set.h"]}
{"id": "C56", "title": "MultiSet and MultiMap keep multiplicities", "statement": "After any history the multiplicity of x in a MultiSet is the number of insertions since its last erasure; erase removes all copies and ends the program if there is none.", "quantifier": "for every history", "why_tests_cant": "all histories", "anchors": ["src/include/containers/MultiSet.h", "src/include/containers/MultiMap.h"]}
{"id": "C57", "title": "zip transposes and truncates", "statement": "zip(c1, ..., cn) has the length of the shortest container and its i-th element lists the i-th elements in order.", "quantifier": "for every positive number of containers of any lengths", "why_tests_cant": "variadic: all arities and lengths", "anchors": ["src/include/algorithm/Zip.h"]}
{"id": "C58", "title": "mapAll and filterContainer", "statement": "mapAll returns the images in order, one per element; filterContainer returns exactly the elements satisfying the predicate, in order and with multiplicity.", "quantifier": "for every container and function", "why_tests_cant": "the input space is unbounded; a finite test suite samples a handful of inputs", "anchors": ["src/include/algorithm/Map.h: mapAll", "src/include/algorithm/Filter.h: filterContainer"]}
{"id": "C59", "title": "Random::nextInt(min, max) stays in range and covers it", "statement": "nextInt(min, max) returns a value in [min, max), every such value for some generator output, and ends the program if max <= min.", "quantifier": "for every min, max and generator output", "why_tests_cant": "extreme ranges overflow", "anchors": ["src/random/Random.cpp: nextInt"]}
{"id": "C60", "title": "Random::nextInt() is defined for every generator output", "statement": "nextInt() returns an int for every output of the generator without undefined behaviour, and covers all ints.", "quantifier": "for all 2^64 generator outputs", "why_tests_cant": "signed overflow is silent", "anchors": ["src/random/Random.cpp: nextInt"]}
{"id": "C61", "title": "Random::nextDouble range", "statement": "nextDouble(min, max) lies in [min, max), as documented.", "quantifier": "for all 2^64 generator outputs and all min < max", "why_tests_cant": "the violating outputs have probability about 2^-54", "anchors": ["src/random/Random.cpp: nextDouble"]}
{"id": "C62", "title": "Discrete samplers invert their cumulative distribution", "statement": "BinomialDistribution, NegativeBinomialDistribution and PoissonDistribution return, for uniform u, the least k with u < CDF(k) (Binomial: capped at n, hence in [0, n]), and the loop ends for every u < 1.", "quantifier": "for every parameter and every u (exact arithmetic)", "why_tests_cant": "all parameters and all u", "anchors": ["src/random/BinomialDistribution.cpp", "src/random/NegativeBinomialDistribution.cpp", "src/random/PoissonDistribution.cpp"]}
{"id": "C63", "title": "Line intersection", "statement": "getIntersection of two non-parallel lines lies on both lines and is the only such point (exact arithmetic).", "quantifier": "for all pairs of non-parallel lines", "why_tests_cant": "the input space is unbounded; a finite test suite samples a handful of inputs", "anchors": ["src/geometry/Line.cpp: getIntersection"]}
{"id": "C64", "title": "Distance to line and segment", "statement": "disToLine is the distance from the point to the nearest point of the line, disToSegment to the nearest point of the segment (exact arithmetic).", "quantifier": "for all points, lines and segments", "why_tests_cant": "minimality over all points of the line", "anchors": ["src/geometry/Line.cpp: disToLine, disToSegment"]}
{"id": "C65", "title": "Point ordering and equality", "statement": "operator< on points is a strict total order; operator== is an equivalence relation compatible with it.", "quantifier": "for all triples of points", "why_tests_cant": "transitivity over all triples", "anchors": ["src/include/geometry/Point.h"]}
{"id": "C66", "title": "Vertex and Edge identities are unique", "statement": "All Vertex (Edge) objects ever created have distinct ids, == holds iff ids are equal, and assignment never changes an id.", "quantifier": "for every history of constructions, copies, assignments", "why_tests_cant": "all histories", "anchors": ["src/graph/Vertex.cpp", "src/graph/Edge.cpp"]}
{"id": "C67", "title": "Graph degrees are consistent", "statement": "After any sequence of addEdge calls the sum of in-degrees and the sum of out-degrees equal the number of edges and each vertex's degrees count its edges.", "quantifier": "for every history of addEdge calls", "why_tests_cant": "all histories", "anchors": ["src/graph/Vertex.cpp: addEdge", "src/include/graph/Vertex.h"]}
{"id": "C68", "title": "Vertices can be copied and destroyed", "statement": "Copying vertices and destroying them in any order frees each edge exactly once.", "quantifier": "for every history of constructions, copies and destructions", "why_tests_cant": "double free needs a copy with edges", "anchors": ["src/graph/Vertex.cpp: Vertex(const Vertex&), ~Vertex"]}
{"id": "C69", "title": "base64Encode is injective", "statement": "Two different byte strings never have the same base64 text, also if they contain NUL bytes.", "quantifier": "for every pair of byte strings", "why_tests_cant": "quantifies over all pairs of strings", "anchors": ["src/base64/base64_functions.cpp: base64Encode"]}
{"id": "C70", "title": "urlDecode decodes every well formed text", "statement": "On a text in which every '%' is followed by two hexadecimal digits (either case) urlDecode returns the bytes that the text denotes, with '+' read as a space.", "quantifier": "for every well formed percent-encoded text", "why_tests_cant": "the input space is unbounded", "anchors": ["src/network/network_functions.cpp: urlDecode, hexToInt"]}
{"id": "C71", "title": "BigNum compound assignment and increments", "statement": "After a += b, a -= b, a *= n, ++a or --a the number a denotes the sum, difference or product, and every later arithmetic with a gives the result it would give with a freshly built equal number.", "quantifier": "for all BigNums a, b that fit and all later operations", "why_tests_cant": "the defect needs a result shorter than the old value followed by arithmetic with a longer operand", "anchors": ["src/include/math_utils/BigNum.h: operator+=, operator-=, operator++, operator--"]}
{"id": "C72", "title": "BigNum unary minus", "statement": "-a denotes the negated integer, compares accordingly (in particular -0 == 0) and can be used in further arithmetic.", "quantifier": "for all BigNums a", "why_tests_cant": "depends on uninitialised cells of the copy, which often happen to be zero in tests", "anchors": ["src/include/math_utils/BigNum.h: operator-()"]}
{"id": "C73", "title": "base64Decode skips characters that are not base64", "statement": "Line breaks, blanks and other characters outside the alphabet do not change the decoded data.", "quantifier": "for every text and every inserted character", "why_tests_cant": "every one of the 191 foreign characters at every position", "anchors": ["src/base64/base64_functions.cpp: base64Decode"]}
{"id": "C74", "title": "Matrix construction, copying and equality", "statement": "A matrix built from rows has these rows, copies and assigned matrices hold the same entries, and == holds exactly for equal shapes and entries.", "quantifier": "for all shapes and entries", "why_tests_cant": "the input space is unbounded", "anchors": ["src/include/math_utils/Matrix.h: Matrix, operator=, operator=="]}
{"id": "C75", "title": "SegmentTree point queries are always current", "statement": "A query of a single position returns the current element there after any sequence of range additions, range multiplications and queries.", "quantifier": "for every history, every position and every size 2^k-1, 2^k, 2^k+1", "why_tests_cant": "needs all interleavings of lazy updates", "anchors": ["src/include/graph/SegmentTree.h: update, addInterval, mulInterval, queryMax, queryMin, querySum"]}
{"id": "C76", "title": "BST predecessor and successor of any node", "statement": "After any insertions, pre(x) and suf(x) return the neighbours of x in the order of the tree for every node x of the tree, null only if there is none.", "quantifier": "for every insertion sequence and every inserted node", "why_tests_cant": "depends on where splaying has left x", "anchors": ["src/graph/BST.cpp: pre, suf"]}
{"id": "C77", "title": "Custom character mappers for Trie", "statement": "With a StringAdapter meeting the documented requirements (the end character maps to 1, other characters injectively to numbers from 2 on), the Trie behaves as a set of words over the mapped characters.", "quantifier": "for every such adapter and every sequence of insertions", "why_tests_cant": "needs alphabets larger than the default one together with histories that force relocation", "anchors": ["src/include/string_utils/Trie.h: StringAdapter", "src/string_utils/Trie.cpp: outArcs, visit"]}
{"id": "C78", "title": "loadJSON reads a JSON text as the value it denotes", "statement": "For every JSON text (any white space, any nesting, every escape, any order and repetition of keys), loadJSON returns the value the text denotes: strings and keys decoded, members with the last value given for each key.", "quantifier": "for every JSON text", "why_tests_cant": "the grammar is recursive; all nestings, white space and escapes cannot be enumerated", "anchors": ["src/json/Json.cpp: parse_next, parse_array, parse_object, parse_string", "src/json/json_functions.cpp: loadJSON"]}
{"id": "C79", "title": "Floats in JSON survive dump and load up to six decimals", "statement": "Dumping a value with floats and loading the text gives a value of the same shape in which every float differs by at most half a unit in the sixth place after the point.", "quantifier": "for every value with keys in escaped form, any tab of white space, any depth", "why_tests_cant": "all values of all shapes; the error bound is over all numbers", "anchors": ["src/json/Json.cpp: dump, parse_number"]}
{"id": "C80", "title": "Assignment through JSON subscripts", "statement": "v[s1][s2]\u2026 = x makes x the element at that path, creates the objects and arrays on the way (arrays filled up with null), leaves every element on other paths as it was, and reading the path gives x back; sizes, hasKey and append agree with this. A wrong index is rejected.", "quantifier": "for every value, every path of keys and indices and every x", "why_tests_cant": "all shapes and paths, including those that change the type of an element", "anchors": ["src/json/Json.cpp: operator[], at, setType, length, size, hasKey", "src/include/json/Json.h: append, Array"]}
{"id": "C81", "title": "Const access does not change a JSON object", "statement": "at(key) and at(index) of a const JSONObject give the element there without changing the object, and report a missing element.", "quantifier": "for every value, key and index", "why_tests_cant": "needs all objects and missing keys; a test that only reads present keys does not see the insertion", "anchors": ["src/json/Json.cpp: at(const std::string&) const, at(unsigned) const"]}
{"id": "C82", "title": "JSON objects from initializer lists", "statement": "JSONObject{k1, v1, k2, v2, \u2026} is the object in which each key has the value given last for it, and no others.", "quantifier": "for every list of keys and values", "why_tests_cant": "all lists, all key contents", "anchors": ["src/json/Json.cpp: JSONObject(std::initializer_list<JSONObject>)"]}
{"id": "C83", "title": "JSON getters return what is stored", "statement": "toInt, toDouble, toBool and toString of an object give back the stored value, and 0, 0.0, false, \"\" for an object of another type.", "quantifier": "for every value", "why_tests_cant": "all strings, in particular those with characters that need an escape", "anchors": ["src/json/Json.cpp: toString, toDouble, toInt, toBool"]}
{"id": "C84", "title": "Comparison of containers is the lexicographic order", "statement": "The comparison operators of Vector, List, Stack and Queue compare like dictionaries: == holds just for equal contents, exactly one of <, ==, > holds, <= and >= are their negations, and < is transitive.", "quantifier": "for all containers over a linearly ordered element type", "why_tests_cant": "all pairs and triples of containers", "anchors": ["src/include/containers/Vector.h: operator<", "src/include/containers/List.h: operator<", "src/include/containers/Stack.h", "src/include/containers/Queue.h"]}
{"id": "C85", "title": "Vectors of integers are read as written", "statement": "Reading with >> from any text of the form { n, n, ... } (white space anywhere, signs allowed, ints in range) gives exactly those numbers and leaves the text behind the brace unread; in particular what << wrote for a Vector<int> is read back as the same Vector.", "quantifier": "for every Vector<int> and every text denoting one, followed by anything", "why_tests_cant": "all texts and all vectors, interplay of stream flags, unget and white space", "anchors": ["src/include/containers/Vector.h: operator<<, operator>>"]}
{"id": "C86", "title": "Malformed vector texts are reported", "statement": "Reading a Vector<int> from a text that does not denote one ends the program with a message; it never has undefined behaviour or runs for ever.", "quantifier": "for every text", "why_tests_cant": "the failing paths depend on stream flags; an uninitialised variable often looks fine in a test", "anchors": ["src/include/containers/Vector.h: operator>>"]}
{"id": "C87", "title": "stringCast<int>", "statement": "stringCast<int>(s) returns the integer s begins with (after white space), the nearest int if that is out of range, 0 if there is none; its result is never undefined.", "quantifier": "for every string", "why_tests_cant": "an indeterminate result may look right in a test", "anchors": ["src/include/string_utils/StringCast.h"]}
{"id": "C88", "title": "Random integers and booleans are evenly distributed", "statement": "For a generator whose 2^64 outputs are equally likely, every value of nextInt(min, max) is returned for floor(2^64/d) or floor(2^64/d)+1 outputs (d = max - min), and nextBool() is true for exactly half of the outputs.", "quantifier": "for every range and every value in it", "why_tests_cant": "the bias is far below what a statistical test can detect, and counting all 2^64 outputs is infeasible", "anchors": ["src/random/Random.cpp: nextInt, nextBool"]}
{"id": "C89", "title": "Samplers return for every generator output", "statement": "next() of BinomialDistribution, NegativeBinomialDistribution, GeometricDistribution and PoissonDistribution returns for every valid parameter and every output of the generator.", "quantifier": "for every valid parameter and all 2^64 generator outputs", "why_tests_cant": "the failing outputs have probability about 2^-54", "anchors": ["src/random/BinomialDistribution.cpp", "src/random/NegativeBinomialDistribution.cpp", "src/random/PoissonDistribution.cpp"]}
{"id": "C90", "title": "BernoulliDistribution has the given probability", "statement": "next() returns true with probability p up to rounding, always for p = 1 and never for p = 0 (binary64 arithmetic).", "quantifier": "for every p in [0, 1] and all 2^64 generator outputs", "why_tests_cant": "counting all outputs is infeasible; the exceptional outputs for p = 1 have probability 2^-54", "anchors": ["src/random/BernoulliDistribution.cpp"]}
{"id": "C91", "title": "Exponential and Gamma samples are finite, non-negative and follow their distribution", "statement": "next() of ExponentialDistribution(lambda) and GammaDistribution(k, theta) returns a finite non-negative number for every generator output; it is the inverse of the cumulative distribution function at the uniform number drawn (a sum of k such values for a whole k), and parameters that are not positive are rejected.", "quantifier": "for every valid parameter and all generator outputs", "why_tests_cant": "the infinite results have probability about 2^-54, and a statistical test cannot tell the inverse from a near miss", "anchors": ["src/random/GammaDistribution.cpp", "src/include/random/ExponentialDistribution.h"]}
{"id": "C92", "title": "Seeding again repeats the results", "statement": "After setSeed(s) on the generator, every distribution that uses it returns the same sequence of values as one newly made with Random(s).", "quantifier": "for every seed, every distribution and every earlier history", "why_tests_cant": "the failure needs an odd number of earlier calls of one particular distribution", "anchors": ["src/random/Random.cpp: setSeed", "src/random/NormalDistribution.cpp"]}
{"id": "C93", "title": "StudentT samples are determined by the seed", "statement": "The value of StudentTDistribution::next() is a function of the parameter and the state of the generator, the same with every conforming compiler.", "quantifier": "for every parameter and generator state", "why_tests_cant": "one compiler gives only one of the permitted evaluation orders", "anchors": ["src/random/StudentTDistribution.cpp:16-20"]}
{"id": "C94", "title": "Discrete samplers have the documented probabilities", "statement": "Counted over the 2^64 equally likely outputs of the generator, BinomialDistribution, NegativeBinomialDistribution and PoissonDistribution return each k with the probability of the documented formula, up to one output (exact arithmetic).", "quantifier": "for every valid parameter and every k", "why_tests_cant": "counting all outputs is infeasible; a statistical test detects only gross errors", "anchors": ["src/random/BinomialDistribution.cpp", "src/random/NegativeBinomialDistribution.cpp", "src/random/PoissonDistribution.cpp"]}
{"id": "C95", "title": "Normal samples come from the polar method", "statement": "Two successive calls of NormalDistribution::next() return mean + stddev * z1 and mean + stddev * z2, where (z1, z2) is the multiple of the first point (u, v) drawn inside the unit disc with z1^2 + z2^2 = -2 ln(u^2 + v^2); the second call draws nothing; without such a point the call does not return; a standard deviation that is not positive ends the program.", "quantifier": "for every mean, standard deviation and sequence of generator outputs", "why_tests_cant": "statistical tests cannot establish the exact relation for all outputs", "anchors": ["src/random/NormalDistribution.cpp"]}
{"id": "C96", "title": "Gamma samples with a fractional shape follow Ahrens and Dieter", "statement": "For a shape k that is not whole, GammaDistribution(k, theta)::next() returns theta * (x + y), where y is a sum of floor(k) exponential samples and x is gamma distributed with shape k - floor(k).", "quantifier": "for every valid parameter and every sequence of generator outputs", "why_tests_cant": "statistical tests cannot establish the exact relation for all outputs", "anchors": ["src/random/GammaDistribution.cpp:22-50"]}
{"id": "C97", "title": "Compound assignment of points agrees with the binary operators", "statement": "p += q, p -= q, p *= c and p /= c leave p equal to what p + q, p - q, p * c and p / c returned before, also if the argument is p itself or a coordinate of p; an index outside the dimension is rejected.", "quantifier": "for every dimension, all points and factors, all ways the argument refers to the target", "why_tests_cant": "aliasing of the argument with the target is not exercised", "anchors": ["src/include/geometry/Point.h"]}
{"id": "C98", "title": "Dot product, length, normalisation and cross product of points", "statement": "dot, len, normalize and cross compute what they are named after: len is the Euclidean norm, normalize returns a vector of length 1 in the same direction, cross is 0 exactly for parallel vectors.", "quantifier": "for every dimension and all points with finite coordinates", "why_tests_cant": "all coordinates, including ones whose squares overflow", "anchors": ["src/include/geometry/Point.h"]}
{"id": "C99", "title": "Circle functions", "statement": "getPoint returns the point of the circle at the given angle; getArea and getPerimeter return pi r^2 and 2 pi r.", "quantifier": "for all circles of positive radius and all angles", "why_tests_cant": "all radii and angles", "anchors": ["src/include/geometry/Circle.h"]}
{"id": "C100", "title": "Point operations free what they allocate", "statement": "After an expression with points all objects it allocated have been freed.", "quantifier": "for every dimension, all points and all operators", "why_tests_cant": "leaks are not visible in results", "anchors": ["src/include/geometry/Point.h", "src/geometry/Line.cpp"]}
{"id": "C101", "title": "getIntersection in floating point", "statement": "For lines with finite coordinates that are not parallel, getIntersection returns finite coordinates close to the intersection.", "quantifier": "for all pairs of lines with binary64 coordinates that are not parallel", "why_tests_cant": "all coordinates", "anchors": ["src/geometry/Line.cpp: getIntersection"]}
{"id": "C102", "title": "Assignment of vertices and edges", "statement": "After a = b (also a = a) a has the value, the flag, the lists or ends of b and keeps its id; nothing else changes.", "quantifier": "for every reachable state and all pairs of live vertices or edges", "why_tests_cant": "self-assignment in all states", "anchors": ["src/graph/Vertex.cpp: operator=", "src/graph/Edge.cpp: operator="]}
{"id": "C103", "title": "The lists of a vertex hold no dangling pointers", "statement": "Every pointer in inEdges and outEdges of a live vertex leads to a live edge whose ends are live vertices.", "quantifier": "for every history of calls", "why_tests_cant": "all histories", "anchors": ["src/graph/Vertex.cpp", "src/include/graph/Vertex.h"]}
{"id": "C104", "title": "Uniform samplers stay in their range", "statement": "UniformIntDistribution(min, max) and UniformDistribution(min, max) reject an empty or reversed range; an accepted sampler returns values v with min <= v < max, and the integer sampler can return each of them.", "quantifier": "for all bounds, engines and engine states", "why_tests_cant": "2^64 engine outputs and all pairs of bounds", "anchors": ["src/random/UniformDistribution.cpp", "src/random/UniformIntDistribution.cpp"]}
{"id": "C105", "title": "Distributions own their generator exactly when they made it", "statement": "A generator made by a distribution lives exactly as long as that distribution uses it; a generator of the program is never destroyed by the library and changes only when it, or a distribution using it, is used; after setRandomGenerator(r) samples come from r.", "quantifier": "for every program that uses only objects it has and destroys no generator still in use", "why_tests_cant": "all interleavings of constructions, setRandomGenerator, samples and destructions", "anchors": ["src/include/random/Distribution.h:32-70"]}
{"id": "C106", "title": "The global random functions are one shared generator", "statement": "Any history of calls of randomInt, randomDouble and randomBool returns what the same history of calls returns on one Random object constructed at the time of the first call.", "quantifier": "for every history of calls, engine and clock", "why_tests_cant": "all histories", "anchors": ["src/random/random_functions.cpp"]}
{"id": "C107", "title": "Generators constructed without a seed differ", "statement": "Two distributions (or Random objects) constructed without a seed produce different sequences.", "quantifier": "for every state of the program and every time", "why_tests_cant": "the tests cannot control the clock", "anchors": ["src/include/random/Random.h:21", "src/include/random/Distribution.h:53"]}
{"id": "C108", "title": "The parameters of a sampler can be read back", "statement": "r() of a ChiSquaredDistribution and lambda() of an ExponentialDistribution return the number given to the constructor.", "quantifier": "for all parameters", "why_tests_cant": "all doubles", "anchors": ["src/include/random/ChiSquaredDistribution.h", "src/include/random/ExponentialDistribution.h"]}
{"id": "C109", "title": "Variance of an int array in double arithmetic", "statement": "variance and stddev of an int array return a finite number that is not negative and that is zero exactly if all elements are equal; the result is close to the exact variance and equal to that of the container version; the call is defined unless a square or a partial sum is not an int.", "quantifier": "for every int array and every size from 1 to its length", "why_tests_cant": "all arrays; cancellation in E(x^2)-E(x)^2 could in principle give a negative number", "anchors": ["src/math_utils/statistics.cpp:16-30", "src/include/math_utils/math_functions.h:212-221"]}
{"id": "C110", "title": "Variances of doubles are never negative and never NaN", "statement": "For finite doubles, variance, sample_variance, stddev and sample_stddev return a number that is not negative or plus infinity, never NaN; the variance of equal numbers is zero.", "quantifier": "for all arrays and containers of finite doubles (two or more elements for the sample variance)", "why_tests_cant": "all doubles including those that overflow", "anchors": ["src/math_utils/statistics.cpp:6-56", "src/include/math_utils/math_functions.h:212-370"]}
{"id": "C111", "title": "Accuracy of sum and mean of doubles", "statement": "The computed sum differs from the exact one by at most n*2^-52 times the sum of the absolute values, the mean accordingly; whole numbers are added exactly up to 2^53; the result does not depend on the order and the mean lies between the least and the greatest element.", "quantifier": "for all lists of fewer than 2^31 doubles whose absolute values add up to at most 2^1000", "why_tests_cant": "all lists of doubles", "anchors": ["src/include/math_utils/math_functions.h:57-161"]}
{"id": "C112", "title": "Statistics for sizes that are not positive", "statement": "As documented, a negative size gives 0 for every function; size 0 gives the sum 0; a size beyond the end of the array is undefined behaviour.", "quantifier": "for all arrays and all int sizes", "why_tests_cant": "undefined behaviour cannot be observed by a test; all sizes", "anchors": ["src/include/math_utils/math_functions.h:48-370", "src/math_utils/statistics.cpp"]}
{"id": "C113", "title": "JSON variables are independent values", "statement": "A program that constructs, copies, moves, indexes, assigns, appends to and destroys JSONObject variables, where the source and the target of each assignment are different places neither of which contains the other, runs without undefined behaviour; afterwards each variable has the value that results from treating variables as independent values, and no two variables share memory.", "quantifier": "for all programs of such statements, with any number of variables and values of any depth", "why_tests_cant": "unbounded programs and nesting; sharing and use of freed memory show up only later or not at all", "anchors": ["src/json/Json.cpp:244-382", "src/include/json/Json.h:66-85", "src/include/json/Json.h:176-320"]}
{"id": "C114", "title": "JSON assignment within one variable", "statement": "x = x keeps the value of x, and x = x[\"a\"] gives x the value of its own element, as for any value type.", "quantifier": "for all values of x that a program can construct and for all element paths", "why_tests_cant": "the faulty read of freed memory usually gives the old bytes", "anchors": ["src/json/Json.cpp:244-382", "src/include/json/Json.h:66-85", "src/include/json/Json.h:176-320"]}
{"id": "C115", "title": "JSON memory is freed exactly once", "statement": "All memory allocated by JSONObjects belongs to exactly one variable that is alive; when all variables are destroyed all memory has been freed, and nothing is freed twice or used after it was freed.", "quantifier": "for all programs as in C113", "why_tests_cant": "unbounded programs; leaks and double frees are not visible in results", "anchors": ["src/json/Json.cpp:244-382", "src/include/json/Json.h:66-85", "src/include/json/Json.h:176-320"]}
{"id": "C116", "title": "Integers in JSON are read back", "statement": "An integer of any integral type stored in a JSONObject by the constructor or by assignment is returned by toInt().", "quantifier": "for all integers of all integral types", "why_tests_cant": "tests use small numbers", "anchors": ["src/include/json/Json.h:138-143", "src/include/json/Json.h:219-226", "src/json/Json.cpp: toInt"]}
{"id": "C117", "title": "Floats in JSON are read back", "statement": "A float stored in a JSONObject is returned by toFloat() unchanged; a double is returned as the nearest float, and becomes infinite, with its sign, exactly from half a unit beyond the largest float.", "quantifier": "for all finite floats and doubles", "why_tests_cant": "2^32 floats and 2^64 doubles", "anchors": ["src/json/Json.cpp:407-409", "src/include/json/Json.h:150-154"]}
{"id": "C118", "title": "Loops over JSON arrays and objects", "statement": "A range-based for loop over ArrayRange() or ObjectRange() visits each element exactly once in order and changes to the elements are kept; it is empty for a value of another type; it ends also if the range is const.", "quantifier": "for all values and loop bodies that do not change the size", "why_tests_cant": "unbounded containers and bodies", "anchors": ["src/include/json/Json.h:15-52", "src/include/json/Json.h:451-505"]}
{"id": "C119", "title": "Comparison of vertices and edges", "statement": "operator< of vertices and of edges is a strict weak order that agrees with operator==, and a copy is equal to its original, so that they can be sorted and kept in sets.", "quantifier": "for all reachable states and all live objects", "why_tests_cant": "all histories", "anchors": ["src/graph/Edge.cpp:30-34", "src/graph/Vertex.cpp:62-66"]}
{"id": "C120", "title": "BST operations take O(log n) steps on average", "statement": "A splay tree is used for its running time: m insertions and removals should take altogether O(m log m) steps, and looking a key up should not take longer than that on average either. Proved for programs that insert new nodes and remove the first node of the order: the numbers of loop iterations of all operations add up to at most m(8 log2 m + 4). Refuted for find: it does not splay, so after inserting n nodes in increasing order every find of the smallest takes n iterations.", "quantifier": "all programs of insertions of new nodes and removals of the first node, of any length, all ranks; for the refutation all n", "why_tests_cant": "an amortised bound is about all sequences of operations; a slow tree passes every functional test", "anchors": ["src/graph/BST.cpp:20-43", "src/graph/BST.cpp:59-79", "src/graph/BST.cpp:81-114"]}
{"id": "C121", "title": "SegmentTree operations are logarithmic", "statement": "Construction, queries and interval updates with intervals in range recurse at most ceil(log2 n) + 1 levels deep, and a query combines at most 2 ceil(log2 n) + 1 stored entries, whatever was done to the tree before.", "quantifier": "all sizes, contents and histories of calls with intervals in range", "why_tests_cant": "depth and breadth of the recursion for every size and interval cannot be enumerated; a linear recursion returns the same values", "anchors": ["src/include/graph/SegmentTree.h: init, queryMax, queryMin, querySum, addInterval, mulInterval"]}
{"id": "C122", "title": "BigNum postfix increment returns the old value", "statement": "r = a++ leaves a one greater and gives the old value of a (likewise a--). Refuted: both operators return a reference to a local variable, so every use of the result is undefined behaviour. As statements a++; and a--; work like ++a; and --a;.", "quantifier": "all BigNum values built by the library that leave room for one more digit", "why_tests_cant": "reading a dangling reference often shows the expected number in a test", "anchors": ["src/include/math_utils/BigNum.h:222-226", "src/include/math_utils/BigNum.h:233-237"]}
{"id": "C123", "title": "Matrix::toString determines the matrix", "statement": "The text of an int matrix is defined and shows every entry: one line per row, entries in decimal separated by a comma and a blank, so that different matrices never have the same text. Refuted for matrices without columns, for which an entry that does not exist is read.", "quantifier": "all int matrices of any size and contents", "why_tests_cant": "injectivity over all sizes and contents cannot be tested; matrices without columns are rarely tested", "anchors": ["src/include/math_utils/Matrix.h:53-56", "src/include/math_utils/Matrix.h:183-192"]}
{"id": "C124", "title": "SegmentTree<int> does not overflow while elements and interval sums fit", "statement": "On a SegmentTree<int> every call with an interval in range is free of signed overflow as long as, after each call, every element and every sum over an interval of the current elements fits an int; and whatever is computed without overflow is the value exact arithmetic gives.", "quantifier": "for all vectors of ints, all histories of addInterval, mulInterval and queries in range, all query intervals", "why_tests_cant": "Overflow depends on the sums of summands and factors that collect at inner nodes, and at the children leaves do not have, over a whole history; tests use few calls and small numbers", "anchors": ["src/include/graph/SegmentTree.h:42-211"]}
{"id": "C125", "title": "Programs on Matrix variables: value semantics and no memory left", "statement": "A program that declares Matrix variables (by size, rows, copy or the result of +, -, *), assigns them, uses +=, -=, *= and writes entries behaves as if matrices were plain values: copies are independent, every entry read is the one plain values give, nothing is deleted twice or used after deletion; and when the variables go out of scope all memory is given back.", "quantifier": "for all programs (lists of statements of any length on any number of variables) that make sense for plain values, all shapes and entries (an exact field)", "why_tests_cant": "Aliasing, double deletion and leaks do not show in the values a test compares; they need a statement about all blocks of memory after every possible sequence of operations, including self-assignment and x += x", "anchors": ["src/include/math_utils/Matrix.h:20-48", "src/include/math_utils/Matrix.h:70-134"]}
{"id": "C126", "title": "Matrix<double>: reduction, sums and products in floating point", "statement": "On a matrix of doubles reduce() returns and leaves an exact row echelon form with leading ones whose system has the solutions of the original one; A + B and A - B are correctly rounded in every cell; A * B is exact for integers of moderate size and otherwise within a small multiple of the rounding error of the exact dot products; == compares cell by cell.", "quantifier": "for all shapes and all double entries (infinities and NaN included where stated), all right-hand sides and solutions", "why_tests_cant": "A statement about rounding in every intermediate step of an elimination of any size; tests with small integers never round", "anchors": ["src/include/math_utils/Matrix.h:58-78", "src/include/math_utils/Matrix.h:92-120", "src/include/math_utils/Matrix.h:153-181"]}
{"id": "C127", "title": "The samplers have the laws they are named after", "statement": "On a generator whose outputs are independent and uniform, the results of every distribution class are independent and have exactly the named law: gamma (any shape), exponential, chi-squared, normal (also the two halves of a pair are independent), Student t, uniform, Bernoulli, binomial, negative binomial, geometric and Poisson; and what remains of the generator's outputs is again independent of the results.", "quantifier": "for all valid parameters (binomial: n <= 33; gamma: shape below 2^31), all engines, all numbers of calls that return; exact arithmetic", "why_tests_cant": "A law is a statement about all outcomes of infinitely many draws; a statistical test detects only gross errors and can never establish independence", "anchors": ["src/random/GammaDistribution.cpp", "src/random/NormalDistribution.cpp", "src/random/StudentTDistribution.cpp", "src/random/PoissonDistribution.cpp", "src/random/BinomialDistribution.cpp", "src/random/NegativeBinomialDistribution.cpp", "src/random/UniformDistribution.cpp", "src/random/BernoulliDistribution.cpp"]}
{"id": "C128", "title": "Iterators of a Trie compare by position", "statement": "operator== of Trie::iterator is an equivalence relation; an iterator equals end() exactly if it has run out; equal iterators give the same word and stay equal when incremented; iterators of different tries are equal only if both have run out; a loop from begin() to end() sees what the range-based loop sees; and repeated incrementing never returns to an earlier iterator.", "quantifier": "for all tries, iterators and numbers of increments", "why_tests_cant": "Equality laws concern all pairs and triples of iterators; a missed backtracking step shows only for certain shapes of the trie", "anchors": ["src/include/string_utils/Trie.h:200-259", "src/string_utils/Trie.cpp:79-106"]}
{"id": "C129", "title": "The memory of a Trie is bounded by its contents", "statement": "The tables of a trie have a size which is bounded by the words it holds, so a program which inserts and removes words for a long time, but never holds many, does not run out of memory.", "quantifier": "for all histories of insertions and removals of lower-case words", "why_tests_cant": "A bound over all histories; a leak of one small entry per removal is invisible in any short test", "anchors": ["src/string_utils/Trie.cpp:108-290", "src/include/string_utils/Trie.h:15-43"]}
{"id": "C130", "title": "gcd and the powers take few steps", "statement": "gcd of any two ints evaluates its loop condition at most 23 times; genericBinaryPow multiplies at most twice per binary digit of the exponent less one, so at most 62 times for an int exponent.", "quantifier": "for all ints, all value types and multiplications, all exponents", "why_tests_cant": "A bound on the number of steps over all pairs of ints; the slow pairs are rare (consecutive Fibonacci numbers)", "anchors": ["src/include/math_utils/math_functions.h:23-30", "src/include/math_utils/math_functions.h:405-450"]}
{"id": "C131", "title": "The text of a Fraction determines it", "statement": "operator<< writes a Fraction as numerator, slash, denominator in decimal; two Fractions have the same text exactly if they are the same number, and stringCast<int> of the text gives the numerator.", "quantifier": "for all pairs of Fractions", "why_tests_cant": "Injectivity is a statement about all pairs of fractions", "anchors": ["src/include/math_utils/Fraction.h:123-125"]}
{"id": "C132", "title": "Geometry with whole-number coordinates is exact or accurate in double", "statement": "With whole-number coordinates, computed in double: sums, differences, dot and cross products are exact while they stay within 2^53; the orientation of three points with coordinates up to 2^24 is decided correctly; len(P - Q) is the distance with relative error at most 2^-53 and is exact if the distance is a whole number; for coordinates up to 2^20 and a direction other than zero, disToLine and disToSegment are the distances from the line and the segment with relative error at most 2^-51, and disToLine is 0 exactly for points on the line.", "quantifier": "for all points, lines and segments with whole-number coordinates within the stated bounds", "why_tests_cant": "Rounding errors depend on all coordinates at once; there are more than 2^100 inputs", "anchors": ["src/include/geometry/Point.h:48-58", "src/include/geometry/Point.h:141-157", "src/geometry/Line.cpp:9-12", "src/geometry/Line.cpp:39-52"]}
{"id": "C133", "title": "Numbers in JSON text are read as the nearest double", "statement": "A number with a fraction or an exponent is loaded as a double no other double is closer to, with the sign of the text (also for -0.0).", "quantifier": "for every number literal with any number of digits, with white space around it", "why_tests_cant": "There are infinitely many literals; errors of one unit in the last place show only for some of them", "anchors": ["src/json/Json.cpp:146-197", "src/include/string_utils/StringCast.h:22-32"]}
{"id": "C134", "title": "A double survives dump and load", "statement": "A double that is dumped and loaded again is the same double.", "quantifier": "for every double", "why_tests_cant": "2^64 doubles; which of them are changed depends on the digits beyond the sixth place", "anchors": ["src/json/Json.cpp:461-462", "src/json/Json.cpp:146-197", "src/include/string_utils/StringCast.h:22-32"]}
{"id": "C135", "title": "Programs compute with BigNum variables what they compute over the integers", "statement": "After any sequence of declarations, assignments, +, -, *, +=, -=, *=, ++ and -- on BigNum variables whose numbers all fit and are not negative, every variable holds and prints the integer the same program computes over the integers.", "quantifier": "for every size, every program and every number of variables", "why_tests_cant": "The state hidden in a variable depends on all earlier values it had; no finite set of programs covers that", "anchors": ["src/include/math_utils/BigNum.h:23-29", "src/include/math_utils/BigNum.h:52-57", "src/include/math_utils/BigNum.h:84-208", "src/include/math_utils/BigNum.h:217-231"]}
{"id": "C136", "title": "The discrete samplers in double arithmetic have the documented probabilities up to rounding", "statement": "With a perfectly uniform 64-bit engine and all arithmetic rounded to double, BinomialDistribution(n, p) for n <= 33, NegativeBinomialDistribution(r, p) and GeometricDistribution(p) with p^r >= 2^-1000, and PoissonDistribution(lambda) for lambda from 2^-900 to 690 return every k, and every number up to k, with the documented probability; the deviation is at most a small explicit multiple (linear in n, or in r and k, or in k) of 2^-53.", "quantifier": "for every parameter in the stated ranges, every k for which the counter fits into int, every conforming exp and pow, and every engine output", "why_tests_cant": "The probabilities are counts over 2^64 engine outputs; tests see samples, and rounding errors of thresholds are far below what any sample can resolve", "anchors": ["src/random/BinomialDistribution.cpp:8-33", "src/random/NegativeBinomialDistribution.cpp:8-30", "src/random/PoissonDistribution.cpp:7-26", "src/include/random/GeometricDistribution.h:32-33", "src/random/Random.cpp:24-37"]}
{"id": "C137", "title": "Lengths, distances, directions, intersections and circles in double are accurate", "statement": "Computed in double, with every coordinate 0 or between 2^-400 and 2^400 in size: len, the length of a difference and normalize have a relative error of at most about N units of 2^-53; dot and cross are off by at most (N+2)/2^53, resp. 3/2^53, of the sum of the absolute products (so the sign of cross is right when the value exceeds that); disToLine is off by at most 2^-49 of the distance of the two points; disToSegment by at most 2^-48 of the distances from the two ends plus about 10^-6 / length; getIntersection by at most 2^-48 (|A_i| + |A - B|/k^2) for an angle of sine k >= 2^-20; area and perimeter of a circle are within 2/10^8 of the true values and getPoint is off by at most 2^-51 of centre coordinate plus radius.", "quantifier": "for every dimension up to 2^20, all points, directions and radii with coordinates of moderate size, every finite angle", "why_tests_cant": "The bounds concern all doubles in a huge range, in particular nearly equal points and nearly cancelling products, which a sample of test points does not reach", "anchors": ["src/include/geometry/Point.h:54-60", "src/include/geometry/Point.h:153-170", "src/geometry/Line.cpp:9-52", "src/include/geometry/Circle.h:19-25"]}
{"id": "C138", "title": "SegmentTree<double> adds with small errors and finds exact extremes", "statement": "A SegmentTree<double> built from a vector and only queried: querySum(a, b) of finite doubles is off by at most (ceil(log2 n)+1)/2^53 times the sum of the absolute values in a..b, whatever stands outside a..b; queryMax and queryMin of an interval without NaN return an element of the interval that bounds all others, infinities included; queries change nothing. With whole numbers, any history of addInterval, mulInterval and queries that does not overflow on a SegmentTree<int> gives the same answers on a SegmentTree<double>.", "quantifier": "for every vector of at most 2^31 doubles, every interval, every history of calls with whole numbers", "why_tests_cant": "The error depends on how the tree groups the additions, for every size, interval and choice of doubles; a test compares a few sums with a tolerance", "anchors": ["src/include/graph/SegmentTree.h:42-73", "src/include/graph/SegmentTree.h:76-211"]}
{"id": "C139", "title": "loadJSON reads JSON texts and nothing else", "statement": "loadJSON returns a value only if its argument is a JSON text (RFC 8259); every other text ends the program with an error message instead of being read as something.", "quantifier": "for every string", "why_tests_cant": "The malformed texts are infinitely many and arbitrarily long and nested; a test tries a few of them", "anchors": ["src/json/Json.cpp:15-242", "src/json/Json.cpp:484-487"]}
{"id": "C140", "title": "A reference to an element stays valid while the element is in the container", "statement": "A reference returned by operator[], get, first, last or top of List, Vector, Stack, Queue and Map keeps standing for the same element - reading gives its current value, writing changes it in the container - until the element is removed, whatever is inserted, removed, sorted or reversed in between.", "quantifier": "for every program of calls and of uses of references", "why_tests_cant": "A stale reference usually still reads the old bytes, so a test passes by accident; the histories between taking and using a reference are unbounded", "anchors": ["src/include/containers/List.h:264-382", "src/include/containers/Vector.h:242-342", "src/include/containers/Stack.h:148-184", "src/include/containers/Queue.h:156-205", "src/include/containers/Map.h:204-250"]}
{"id": "C141", "title": "Container variables are independent values and an assignment designates its left side", "statement": "Copying, assigning and converting containers copies their elements, so that later changes of one variable never show in another; an assignment expression designates the variable on its left, so that (a = b).f() acts on a.", "quantifier": "for every program with several container variables", "why_tests_cant": "The programs, with nested and chained assignments, are infinitely many; a test looks at a few", "anchors": ["src/include/containers/Stack.h:137-141", "src/include/containers/Queue.h:150-154", "src/include/containers/List.h:259-263", "src/include/containers/Set.h:171-175", "src/include/containers/MultiSet.h:177-181", "src/include/containers/Map.h:199-203", "src/include/containers/Queue.h:89-98"]}
{"id": "C142", "title": "Casting the text of a value gives the value back, for every type", "statement": "stringCast<T> of the text that operator<< writes for a value of type T = int, long long, unsigned, bool, char or std::string is that value.", "quantifier": "for every value of each of the six types", "why_tests_cant": "There are 2^64 numbers and infinitely many strings; the tests try 12345", "anchors": ["src/include/string_utils/StringCast.h:18-37"]}
{"id": "C143", "title": "A stringCast object keeps the text it was made from", "statement": "Using a stringCast object (by conversion or by call) gives the value of the text it was made from, however much later it is used and whatever happened to the string in between.", "quantifier": "for every program of statements that make and use stringCast objects and change string variables", "why_tests_cant": "A dangling reference often still reads the old characters, so a test passes by accident; the statements between making and using an object are unbounded", "anchors": ["src/include/string_utils/StringCast.h:21-36"]}
{"id": "C144", "title": "Normal, Gamma and Student t samples are finite numbers in double arithmetic", "statement": "next() of NormalDistribution(mean, stddev), GammaDistribution(k, theta) with a k that is not whole, and StudentTDistribution(r) returns a finite double; a normal sample is the value of the polar method up to a relative error of 2^-49, at most 13 standard deviations from the mean, and a Gamma sample is not negative.", "quantifier": "for every valid parameter of at most 2^900 (Gamma: shape below 2^31) and every sequence of generator outputs", "why_tests_cant": "Rounding could produce infinities or NaN (logarithm of 0, division by 0) for outputs that appear once in 2^54 draws; a test draws a few thousand numbers", "anchors": ["src/random/NormalDistribution.cpp", "src/random/GammaDistribution.cpp", "src/random/StudentTDistribution.cpp"]}
{"id": "C145", "title": "A BST works as a dictionary whose values can be changed at any time", "statement": "A program that inserts nodes, erases the node that is first in the order, and reads and changes values with getVal and setVal, directly or on the result of find, at any time and in any order, prints what a plain list of the inserted nodes would give: find finds a node of the rank iff there is one, getRank never changes, getVal gives the value set last, also after the tree was restructured and for erased nodes.", "quantifier": "for every program of that kind (each node is inserted at most once), all ranks and values, equal ranks included", "why_tests_cant": "Every insert and erase rotates the whole path to the root and rewrites the node objects; a test sees a few of the exponentially many orders of operations", "anchors": ["src/include/graph/BST.h:10-12", "src/graph/BST.cpp"]}
{"id": "C146", "title": "The getters of a Tree describe the tree as it was built", "statement": "At any time getRoot, getFa, getSon, getDegree, getHeight, getAncestor, getID and getVal describe one and the same tree: the one given by the calls of setRoot and addNode (a node added again is moved), sons in the order in which they were added.", "quantifier": "for every sequence of setRoot and addNode calls, all ids and values", "why_tests_cant": "A test checks one small tree; which members each call forgets to update only shows for sequences of calls", "anchors": ["src/include/graph/Tree.h:15-47", "src/graph/Tree.cpp:20-36"]}
{"id": "C147", "title": "SegmentTree calls with any interval", "statement": "Queries and updates of a SegmentTree are defined for any two ints: an interval that reaches over the ends of the vector counts as its positions in the vector, a query for an interval without positions is reported, and an update of one changes nothing.", "quantifier": "for every non-empty vector, every history of calls and every pair of ints", "why_tests_cant": "Tests use intervals inside the vector; off-by-one intervals silently read or write other parts of the arrays", "anchors": ["src/include/graph/SegmentTree.h:120-211"]}
{"id": "C148", "title": "loadJSON needs a bounded stack", "statement": "There is a stack size with which loadJSON reads every text as it does on a machine without limits: long or hostile texts are read or rejected, and do not overflow the stack.", "quantifier": "for every text and every stack size", "why_tests_cant": "Tests use small documents; the recursion follows the nesting of the text, which a sender can choose", "anchors": ["src/json/Json.cpp:13-85", "src/json/Json.cpp:221-242", "src/json/Json.cpp:484-487"]}
{"id": "C149", "title": "gcd and lcm of arguments of two integer types", "statement": "gcd(a, b) and lcm(a, b) accept arguments of two integer types. gcd ends and returns, in the common type, a greatest common divisor of the two values, and lcm a least common multiple whenever it fits.", "quantifier": "for every pair of integer types of 8 to 64 bits, signed or not, and all their values", "why_tests_cant": "Tests call the templates with two ints; the conversions between types depend on both template arguments and on the values", "anchors": ["src/include/math_utils/math_functions.h:23-46"]}
{"id": "C150", "title": "factorial, permutation and binomial for every integer type", "statement": "factorial, permutation and binomial are templates over the integer type. Whenever a call returns, it returns the mathematical value, and it does so whenever that value is representable in the type.", "quantifier": "for every integer type of 8 to 64 bits, signed or not, and all arguments 0 <= r <= n of that type", "why_tests_cant": "Tests call the templates with small ints; wrapping, promotion to int, and the width of the loop counters depend on the type and only show for large arguments", "anchors": ["src/include/math_utils/math_functions.h:459-515"]}
{"id": "C151", "title": "genericBinaryPow for Fraction, double and Matrix", "statement": "genericBinaryPow(x, n) computes the n-th power of a Fraction, a double or a Matrix for every positive n: the exact power whenever that is a value of the type, and for doubles otherwise a close approximation.", "quantifier": "for every fraction, every double, every matrix a program can hold, and every exponent", "why_tests_cant": "Tests raise a few small numbers to small powers; the loop squares the base once more than needed, and what that does depends on the type; rounding errors accumulate over the exponent", "anchors": ["src/include/math_utils/math_functions.h:385-450", "src/include/math_utils/Fraction.h:78-82", "src/include/math_utils/Matrix.h:80-90"]}
{"id": "C152", "title": "Comparison of Map, Set, MultiSet and MultiMap", "statement": "Two Maps, Sets, MultiSets or MultiMaps are == exactly if they have the same contents, whatever calls made them; exactly one of <, == and > holds, <=, >= and != are the negations of >, < and ==, and < is transitive. A Set is less than another exactly if, at the least value in one of them but not in both, that value is in the first and the second has a greater one, or it is in the second and the first has no greater one.", "quantifier": "for all pairs (and triples) of containers made by any histories of calls", "why_tests_cant": "Tests compare a few literal containers; that equality does not depend on the history, and which parts of the contents count, is a statement about all histories", "anchors": ["src/include/containers/Map.h:252-280", "src/include/containers/Set.h:207-234", "src/include/containers/MultiSet.h:222-250", "src/include/containers/MultiMap.h:223-251"]}
{"id": "C153", "title": "Programs compute with Fraction variables what they compute over the rational numbers", "statement": "A program that declares Fraction variables, copies them, combines them with each other and with ints by +, -, *, /, +=, -=, *=, /= and branches on their comparisons leaves in its variables the rational numbers the same program computes exactly, as long as all of them have numerators and denominators in the range of int; a division by zero ends the program.", "quantifier": "for all programs (sequences of statements and branches, loops unrolled), all constants and all variables", "why_tests_cant": "Tests run a few operations on a few fractions; a program may accumulate values through any number of operations and branches, and a wrong reduction or an overflow in between shows only for particular values", "anchors": ["src/include/math_utils/Fraction.h:14-121"]}
{"id": "C154", "title": "Searching again and again with kmpSearch", "statement": "Calling kmpSearch again from one position behind the last result lists all occurrences of the pattern, overlapping ones too, each once and in ascending order, until -1 is returned; calling it again from behind the last occurrence replaces all occurrences from the left to the right. A search tests the conditions of its loops at most 2 |pattern| + 1 and 2 (|base| - start) + 2 times.", "quantifier": "for all texts, non-empty patterns and replacements with lengths below 2^31, and all starts", "why_tests_cant": "Tests try a few texts; missing an overlapping occurrence, finding one twice or taking quadratic time shows only for particular repetitive patterns", "anchors": ["src/algorithm/kmp.cpp:7-42"]}
{"id": "C155", "title": "base64 and URL coding in pieces", "statement": "Data can be encoded and decoded in pieces: base64Encode, base64Decode, urlEncode and urlDecode of a concatenation are the concatenation of the results for the pieces.", "quantifier": "for all byte strings and all ways to cut them", "why_tests_cant": "Tests cut a few strings at a few places; a cut inside a group or an escape goes wrong only for some places and some bytes", "anchors": ["src/base64/base64_functions.cpp:13-75", "src/network/network_functions.cpp:24-64"]}
{"id": "C156", "title": "byte strings stored in a JSON document", "statement": "A program that stores byte strings under names in a JSONObject, coding names with urlEncode and data with urlEncode or base64Encode, and writes and reads the document (dump, loadJSON) any number of times, never fails; hasKey finds exactly the stored names, and decoding gives the data stored last (with base64: without NUL bytes).", "quantifier": "for all sequences of store and write-and-read steps, all names and data of arbitrary bytes, all depths and all white-space indentations", "why_tests_cant": "The result depends on every byte surviving four functions in turn and on the sorted map being rebuilt by every read; tests try a few names and bytes", "anchors": ["src/json/Json.cpp:355-364", "src/json/Json.cpp:388-401", "src/json/Json.cpp:429-487", "src/network/network_functions.cpp:24-64", "src/base64/base64_functions.cpp:13-75"]}
{"id": "C157", "title": "Matrices of fractions and of integers", "statement": "Matrix<Fraction> computes exactly: a new matrix is zero, sums, differences and products have the exact rational entries in lowest terms, and reduce keeps the solutions; reduce of a Matrix<int> keeps the rational solutions.", "quantifier": "for all shapes and all entries whose intermediate results fit in int", "why_tests_cant": "Tests use double matrices; whether an exact entry type makes the whole algorithm exact is a statement about all matrices", "anchors": ["src/include/math_utils/Matrix.h:20-26", "src/include/math_utils/Matrix.h:70-120", "src/include/math_utils/Matrix.h:153-181", "src/include/math_utils/Fraction.h:35-105"]}
{"id": "C158", "title": "dump writes JSON", "statement": "Whatever value a JSONObject holds, dump writes a text that is JSON according to RFC 8259 and that denotes the value.", "quantifier": "for all values, however nested, all depths and all white space used as tab", "why_tests_cant": "Tests dump a few values; whether any reader that keeps to the RFC accepts the text is a statement about all strings, keys and nestings", "anchors": ["src/json/Json.cpp:429-469", "src/json/json_functions.cpp:5-34"]}
{"id": "C159", "title": "Tree operations are logarithmic", "statement": "Adding a node, getAncestor, LCA and getDistance take a number of steps, and the table of a node has a number of entries, at most proportional to the number of binary digits of the depth.", "quantifier": "for all trees with fewer than 2^30 nodes, built in any order, and all pairs of nodes", "why_tests_cant": "Running times of a few trees say nothing about the worst case; the bound is about all trees", "anchors": ["src/graph/Tree.cpp:12-18", "src/graph/Tree.cpp:26-51"]}
{"id": "C160", "title": "Loops over BigNum variables", "statement": "A program with conditions and loops over BigNum<N> variables ends and computes what it computes over the integers, whenever all numbers fit; in particular loops for factorials and sums.", "quantifier": "for all programs made of assignments, arithmetic, comparisons, conditions and loops; for all bounds k of the two loops", "why_tests_cant": "Tests run a loop for a few bounds; whether digits left over from earlier rounds ever show is a statement about all executions", "anchors": ["src/include/math_utils/BigNum.h:51-56", "src/include/math_utils/BigNum.h:71-133", "src/include/math_utils/BigNum.h:188-245"]}
{"id": "C161", "title": "Common parts, reversal and subsequences in editDistance", "statement": "editDistance does not depend on a common prefix or suffix of its arguments nor on the direction of reading; it is at most the sum of the distances of parts; it is the difference of the lengths exactly if one text is a subsequence of the other, the greater length if the texts share no character, and at most the number of differing places for equal lengths. If kmpSearch finds a pattern, its distance to the text is the difference of the lengths.", "quantifier": "for all byte strings shorter than 2^31 - 1", "why_tests_cant": "Users strip common parts before they compare, and rely on such laws for all texts; a test shows single pairs", "anchors": ["src/algorithm/edit_distance.cpp: editDistance", "src/algorithm/kmp.cpp: kmpSearch"]}
{"id": "C162", "title": "Fractions, BigNums, Points and vertices as keys and in sorted lists", "statement": "Values of the library's own types can be put into a Set, used as keys of a Map and sorted in a List: the Set contains exactly the different values inserted and not erased, a Map gives each key the value last set, iteration and sorting follow the order of the values, and sorting is stable.", "quantifier": "for all histories of calls on a Set or Map and all lists, with elements of type Fraction, BigNum, Point or Vertex", "why_tests_cant": "Whether a set stays consistent depends on operator< being a defined strict weak order on all pairs of elements that ever meet", "anchors": ["src/include/containers/Set.h:187-205", "src/include/containers/Map.h:205-250", "src/include/containers/List.h:369-372", "src/include/math_utils/Fraction.h:107-109", "src/include/math_utils/BigNum.h:71", "src/include/geometry/Point.h:111-115", "src/graph/Vertex.cpp:66"]}
{"id": "C163", "title": "Programs with loops over fractions", "statement": "A program with conditions and loops over Fraction variables computes what the same program computes over the rational numbers, in the same number of steps, whenever all values are fractions of ints; a division by zero ends the program, and loops run exactly as often as over the rational numbers.", "quantifier": "for all programs of declarations, assignments, arithmetic, conditions and while loops, all constants and all numbers of steps", "why_tests_cant": "A loop calls the operators arbitrarily often, on values nobody chose; the claim is about all programs and all inputs", "anchors": ["src/include/math_utils/Fraction.h:16-121"]}
{"id": "C164", "title": "Matrix::reduce gives rank, solvability, solutions and invertibility", "statement": "After reduce() the number of non-zero rows is the rank of the matrix and the rows span the same space; a linear system given by its augmented matrix has the same solutions as before and is solvable exactly if no row 0 ... 0 b with b not 0 is left; a square matrix is invertible exactly if the diagonal consists of ones, and then back substitution gives the only solution; reducing again changes nothing.", "quantifier": "for all matrices over a field, of all sizes with at least one column", "why_tests_cant": "Rank, span and solution sets are statements about all vectors; an example checks one matrix", "anchors": ["src/include/math_utils/Matrix.h:153-181"]}
{"id": "C165", "title": "kmpSearch reads the text once through and no character often", "statement": "kmpSearch takes a number of rounds linear in pattern and text; the positions of the text it reads never go back, start at `start`, stay before the end of the occurrence found, and are at most 2 (|text| - start); a character read c times needs a pattern of at least fib(c+2)-1 characters, so none is read more than 44 times.", "quantifier": "for all texts, non-empty patterns and start positions below 2^31", "why_tests_cant": "Bounds on the work of every search; a timing test sees a few inputs, and the worst patterns (Fibonacci words) are rare", "anchors": ["src/algorithm/kmp.cpp:7-42"]}
{"id": "C166", "title": "Texts and containers of 2^31 elements and more", "statement": "Functions on texts and containers do not depend on the size fitting an int: size() is the number of elements, clear() removes all of them, kmpSearch searches the whole text, editDistance is the distance of the whole texts, and base64Encode returns the empty text when the requested length is too small.", "quantifier": "for all texts and containers of any size", "why_tests_cant": "Nobody tests with gigabytes, and the failures begin exactly at 2^31, 2^32 - 1 and 2^32", "anchors": ["src/base64/base64_functions.cpp:33-37", "src/algorithm/edit_distance.cpp:17-41", "src/algorithm/kmp.cpp:29-41", "src/include/containers/Stack.h:178-184", "src/include/containers/Queue.h:199-205", "src/include/containers/Vector.h:223-226"]}
{"id": "C167", "title": "Different seeds give different sequences", "statement": "Two Random objects with different seeds (or constructed in different seconds) yield different sequences: at whatever moment, of the next 312 numbers of the engine at least one differs, and the difference shows in the values of nextInt(1 << 30) or of nextDouble(). No seed is a bad one: among any 312 consecutive values of nextDouble() at least one is not 0.", "quantifier": "for all pairs of different int seeds, all pairs of times with different lower 32 bits, and all numbers of earlier calls", "why_tests_cant": "There are 2^63 pairs of seeds, and a defect could show only after any number of draws", "anchors": ["src/include/random/Random.h:21", "src/include/random/Random.h:85", "src/random/Random.cpp:10", "src/random/Random.cpp:12-45"]}
{"id": "C168", "title": "A double written to a text and read again is the same double", "statement": "stringCast<double> reads, from the text of a decimal number, the double nearest to it; a double written with << and read with stringCast<double> is the same double; a Vector<double> written with << and read with >> is the same Vector; points are written alike only if they are equal.", "quantifier": "for all decimal literals with white space before and text behind them, all doubles, all vectors of doubles up to INT_MAX elements, and all points of any dimension", "why_tests_cant": "There are 2^64 doubles and unboundedly many literals; rounding errors show only for some of them", "anchors": ["src/include/string_utils/StringCast.h:22-32", "src/include/containers/Vector.h:389-401", "src/include/containers/Vector.h:403-430", "src/include/geometry/Point.h:135-139"]}
{"id": "C169", "title": "Accuracy of variances and standard deviations of doubles", "statement": "variance, sample_variance and the squares of stddev and sample_stddev differ from the exact value by at most a relative error of (n+6)/2^52.", "quantifier": "for all arrays and containers of fewer than 2^31 doubles whose absolute values add up to at most 2^400, and all containers of ints whose partial sums are ints (two or more elements for the sample versions)", "why_tests_cant": "Cancellation between the elements and the computed mean shows only for special data, and a test compares with a value that was itself computed", "anchors": ["src/math_utils/statistics.cpp:6-14", "src/math_utils/statistics.cpp:25-56", "src/include/math_utils/math_functions.h:212-221", "src/include/math_utils/math_functions.h:264-267", "src/include/math_utils/math_functions.h:318-327", "src/include/math_utils/math_functions.h:367-370"]}
{"id": "C170", "title": "Threads with objects of their own do not disturb each other", "statement": "Threads each of which uses only its own objects have no data race, get the results they would get alone, and construct vertices with different identities.", "quantifier": "for all numbers of threads, all sequences of calls in them, and all orders in which the threads proceed", "why_tests_cant": "A race shows only in rare interleavings, which a test does not control; a passing test says nothing about the others", "anchors": ["src/graph/Vertex.cpp:9-29", "src/graph/Edge.cpp:5-18", "src/string_utils/Trie.cpp:53-62", "src/include/string_utils/Trie.h:155-180", "src/random/random_functions.cpp:9-42", "src/include/math_utils/BigNum.h:318-326"]}
{"id": "C171", "title": "init replaces the contents of a segment tree, and calls with a node act on the positions of that node", "statement": "SegmentTree::init(v, 0, getSize() - 1, 1) makes the elements of v the contents of the tree, whatever was done before; queries and updates given a node and its positions l..r act like the short calls restricted to l..r; both may be mixed with short calls in any order.", "quantifier": "for all sizes of the trees of C34, all element values, all sequences of short calls, calls with nodes and calls of init", "why_tests_cant": "The failures need an update still pending above the node, which depends on the whole history of calls", "anchors": ["src/include/graph/SegmentTree.h:16-26", "src/include/graph/SegmentTree.h:56-73", "src/include/graph/SegmentTree.h:125-211"]}
{"id": "C172", "title": "dump lays out objects in indented lines", "statement": "JSONObject::dump(depth, tab) writes every member of an object on a line of its own, indented by tab once for each bracket or brace open before it (depth - 1 more at the start), closing braces on lines of their own indented by one tab less, and no other line breaks.", "quantifier": "for all values of any nesting, all tabs of spaces and tab characters, all depths", "why_tests_cant": "Indentation depends on the nesting of the whole value and on the tab; tests look at a few shapes with the default tab", "anchors": ["src/json/Json.cpp:429-474", "src/include/json/Json.h:512-519"]}
{"id": "C173", "title": "Indexing a BigNum reads and writes its decimal digits", "statement": "b[i] is decimal digit i of the number (counted from the units, 0 above the last one) for every index of the array, and b[i] = d replaces that digit: the number afterwards has the digits written last and the others as before, and compares and prints accordingly.", "quantifier": "for all numbers, all indices, all sequences of assignments of digits", "why_tests_cant": "The cells above the length depend on the history of the object, and assignments can be combined in any order; tests index a few fresh numbers", "anchors": ["src/include/math_utils/BigNum.h:59-62"]}
{"id": "C174", "title": "Sums, differences and products of signed BigNums: exactly which are right", "statement": "For all numbers that fit, positive or negative, a + b, a - b and a * b denote the sum, difference and product of the integers.", "quantifier": "for all sizes and all pairs of numbers of either sign", "why_tests_cant": "The outcome depends on both signs and on which magnitude is larger, for numbers of any length; tests try a few pairs", "anchors": ["src/include/math_utils/BigNum.h:84-95", "src/include/math_utils/BigNum.h:136-147", "src/include/math_utils/BigNum.h:188-191", "src/include/math_utils/BigNum.h:239-296"]}
{"id": "C175", "title": "Programs over signed BigNum variables", "statement": "A program with assignments, arithmetic, comparisons, conditions and loops over BigNum<N> variables of either sign ends and computes what it computes over the integers, whenever all numbers fit.", "quantifier": "for all sizes, all programs, all values of either sign", "why_tests_cant": "Errors depend on the signs and lengths that arise while the program runs; tests try single operations", "anchors": ["src/include/math_utils/BigNum.h:15-310"]}
{"id": "C176", "title": "Loops over List and Vector whose body uses the container", "statement": "A range-based for loop over a List or Vector whose body reads and assigns the loop variable and calls members of the container visits every element that is there before and after the loop exactly once, in order, and leaves the values that the same loop over positions leaves.", "quantifier": "for all bodies (with variables of their own, breaks, and calls that depend on what earlier ones returned), all values and lengths", "why_tests_cant": "Whether the iterator survives depends on all calls made in all rounds; a test runs one body on one container, and undefined behaviour often looks right", "anchors": ["src/include/containers/List.h:202-223", "src/include/containers/List.h:265-377", "src/include/containers/Vector.h:189-210", "src/include/containers/Vector.h:243-342"]}
{"id": "C177", "title": "Loops over Map and Set whose body uses the container", "statement": "A range-based for loop over a Map or a Set whose body inserts, erases, looks up and assigns visits the keys in increasing order, none twice, every pair that is there before and after the loop, and every key inserted ahead of it; it ends, and leaves what the same loop over keys leaves.", "quantifier": "for all bodies (with variables of their own, breaks, and calls that depend on what earlier ones returned), all key types with a linear order, all contents", "why_tests_cant": "Which keys are visited depends on all insertions and removals in all rounds; a test runs one body on one Map", "anchors": ["src/include/containers/Map.h:103-124", "src/include/containers/Map.h:205-250", "src/include/containers/Set.h:76-97", "src/include/containers/Set.h:182-205"]}
{"id": "C178", "title": "Loops over MultiSet and MultiMap whose body uses the container", "statement": "A range-based for loop over a MultiSet or a MultiMap whose body inserts, erases, counts, looks up and assigns visits the elements in order, none twice, every element that is there before and after the loop, and every element inserted that is not less than the current one; it ends, and leaves what the same loop over the sorted sequence leaves.", "quantifier": "for all bodies (with variables of their own, breaks, and calls that depend on what earlier ones returned), all key and value types with a linear order, all contents", "why_tests_cant": "Which elements are visited depends on all insertions and removals in all rounds and on where equal elements are put; a test runs one body on one container", "anchors": ["src/include/containers/MultiSet.h:82-103", "src/include/containers/MultiSet.h:183-220", "src/include/containers/MultiMap.h:78-100", "src/include/containers/MultiMap.h:188-221"]}
{"id": "C179", "title": "The error messages of loadJSON", "statement": "When loadJSON ends the program with a message, the message is one of ten complaints, quotes exactly the characters found at some place of the text (NUL for its end), these are not among the characters the complaint asks for, and only the text up to there decides: every text with the same beginning ends with the same message.", "quantifier": "for all texts (any bytes, any length and nesting) and all texts that agree with them up to the place named", "why_tests_cant": "Every one of the infinitely many ill-formed texts has its own place and message, and the claim about other texts with the same beginning compares two runs; tests check a few messages", "anchors": ["src/json/Json.cpp:15-242", "src/json/Json.cpp:484-487", "src/include/utils/error.h:17-22"]}
{"id": "C180", "title": "The work of loadJSON", "statement": "Loading a JSON text takes time proportional to its length: each character is read a bounded number of times, and the number of JSONObjects copied is bounded by a multiple of the length.", "quantifier": "for all texts (any bytes, any length and nesting), loaded or rejected", "why_tests_cant": "A running time as a function of the length for all texts and nestings cannot be read off finitely many timings; the quadratic case needs nested objects, which tests with a few members do not show", "anchors": ["src/json/Json.cpp:15-242", "src/json/Json.cpp:306-353", "src/json/Json.cpp:484-487", "src/include/json/Json.h:205-254"]}
{"id": "C181", "title": "Loops over a Trie whose body uses the trie", "statement": "A range-based for loop over a Trie whose body inserts and removes words, looks words up or asks for the number of words visits the words that are in the trie when it comes to them, in order, and the trie is the right set afterwards.", "quantifier": "for all histories of insertions and removals, all loop bodies with variables of their own (any number of calls per round, decided by the results of earlier ones, break at any time)", "why_tests_cant": "Bodies and histories are unbounded; a removal or insertion in a round changes the tables under the iterator, and whether a node is moved depends on which slots are free", "anchors": ["src/include/string_utils/Trie.h:112-130", "src/include/string_utils/Trie.h:200-270", "src/string_utils/Trie.cpp:79-106", "src/string_utils/Trie.cpp:108-290"]}
{"id": "C182", "title": "Work of JSONObject::dump", "statement": "Dumping a JSON value takes time proportional to the length of the text it writes: no character of the text is written into a string more than a constant number of times.", "quantifier": "for all JSON values, depths and tabs, and whether x + y for a temporary x appends in place or not", "why_tests_cant": "The work depends on how deep values are nested; for the documents of a test suite it looks linear", "anchors": ["src/json/Json.cpp:429-469", "src/json/json_functions.cpp:5-34", "src/include/json/Json.h:519"]}
{"id": "C183", "title": "Work of a Trie", "statement": "Looking a word up in a Trie and removing a word from it take work proportional to the length of that word, whatever else is stored (documented as \"efficient in retrieving and deleting elements\"); inserting a word takes work bounded by the product of its length and the number of letters stored before.", "quantifier": "for all histories of insertions and removals that succeed, and all words", "why_tests_cant": "The number of steps depends on the collisions in the double array and on long common prefixes; tests measure neither and only try a few words", "anchors": ["src/include/string_utils/Trie.h:55-56", "src/include/string_utils/Trie.h:22-35", "src/string_utils/Trie.cpp:64-79", "src/string_utils/Trie.cpp:108-256"]}
{"id": "C184", "title": "Work of BigNum operations", "statement": "Comparing, adding and subtracting BigNums takes work proportional to their numbers of digits, and multiplying them work proportional to the product of these, whatever MAX_SIZE is.", "quantifier": "for all well-formed numbers, all MAX_SIZE and every operation that comes to an end", "why_tests_cant": "The work is the same for tests with one MAX_SIZE and shows only as time; tests compare results", "anchors": ["src/include/math_utils/BigNum.h:17-21", "src/include/math_utils/BigNum.h:52-57", "src/include/math_utils/BigNum.h:83-185", "src/include/math_utils/BigNum.h:239-296"]}
{"id": "C185", "title": "A node taken out of a BST can be put in again", "statement": "After erase(x) the node x can be inserted again, into the same tree or another one, and is then found there; inserting a node that is in the tree already does no harm.", "quantifier": "for every history of insertions, every node x, and every program that uses nodes again", "why_tests_cant": "Tests insert each node once; what goes wrong depends on links left over from the whole history, and shows as a loop without end", "anchors": ["src/graph/BST.cpp:5-43", "src/graph/BST.cpp:59-102", "src/include/graph/BST.h:6-21"]}
{"id": "C186", "title": "How many outputs of the generator a sampler takes", "statement": "A sampler takes few outputs of the generator: one for the uniform, Bernoulli, binomial, negative binomial, geometric, Poisson and exponential distributions; on average 8/pi for two normal numbers; floor(k) for a gamma number of whole shape k and on average fewer than floor(k) + 6 for any other shape; for a Student t number those of a pair of normal numbers and of one gamma number.", "quantifier": "for every generator, all parameters, and on average over independent uniform outputs", "why_tests_cant": "The number of rounds of a rejection loop has no bound; its mean is a statement about all infinite sequences of outputs", "anchors": ["src/random/NormalDistribution.cpp:15-39", "src/random/GammaDistribution.cpp:19-51", "src/random/StudentTDistribution.cpp:17-21", "src/random/PoissonDistribution.cpp:15-27", "src/random/BernoulliDistribution.cpp:11-17"]}
{"id": "C187", "title": "Nodes of different trees", "statement": "For two trees without a common node, LCA of a node of the one and a node of the other is nullptr, and building the second tree changes no answer about the nodes of the first.", "quantifier": "for all pairs of trees, all build orders and all pairs of nodes", "why_tests_cant": "Whether the loop of LCA stays inside the stored tables depends on the binary form of the depths", "anchors": ["src/graph/Tree.cpp:38-55"]}
{"id": "C188", "title": "The stack for writing, copying and destroying JSON values", "statement": "dump, the copy constructor and assignment, and the destructor of JSONObject need a bounded stack; at least, every value that loadJSON could read can also be written, copied and destroyed.", "quantifier": "for all values and all stack sizes", "why_tests_cant": "Stack overflow depends on how deep values are nested, which has no bound; a test uses shallow values", "anchors": ["src/json/Json.cpp:258", "src/json/Json.cpp:291-352", "src/json/Json.cpp:429-469"]}
{"id": "C189", "title": "Sum, mean and variance of other arithmetic types", "statement": "sum, mean, variance and sample_variance work for containers and arrays of any arithmetic type (short, char, unsigned, long long, bool and so on): sum is the total if the total is a value of the type, and mean, variance and sample_variance are the textbook values of the elements.", "quantifier": "for all eight integer types and bool, and all containers and arrays of values of the type", "why_tests_cant": "Whether the total leaves the element type depends on the number and size of the elements; a test sums a few small ints", "anchors": ["src/include/math_utils/math_functions.h:57-83", "src/include/math_utils/math_functions.h:143-161", "src/include/math_utils/math_functions.h:212-221", "src/include/math_utils/math_functions.h:318-327"]}
{"id": "C190", "title": "A float written to a text and read again is the same float", "statement": "stringCast<float> reads, from the text of a decimal number, the float nearest to it; a float written with << and read with stringCast<float> is the same float.", "quantifier": "for all decimal literals with white space before and text behind them, and all finite floats", "why_tests_cant": "There are 2^32 floats and unboundedly many literals; rounding shows only for some of them", "anchors": ["src/include/string_utils/StringCast.h:22-32"]}
{"id": "C191", "title": "Work and memory of editDistance", "statement": "editDistance of texts with m and n characters does work proportional to mn, takes memory proportional to m + n, and gives all of it back; if one text is empty it takes none.", "quantifier": "for all pairs of texts shorter than 2^31 - 1 characters", "why_tests_cant": "A test measures single pairs of texts; that neither the characters nor the order matter, and how the need grows, holds for all of them", "anchors": ["src/algorithm/edit_distance.cpp:17-41"]}
{"id": "C192", "title": "Work of Matrix operations", "statement": "The product of an n by m and an m by l matrix takes work proportional to nml, sums, differences, copies and comparisons of n by m matrices proportional to nm, and reduce proportional to n\u00b2m, whatever the entries are.", "quantifier": "for all sizes, entries and arithmetic types, and for reduce also if it ends in undefined behaviour", "why_tests_cant": "A test measures single sizes; that zeros, exchanges of rows and skipped columns never make the work greater holds for all entries", "anchors": ["src/include/math_utils/Matrix.h:58-78", "src/include/math_utils/Matrix.h:92-134", "src/include/math_utils/Matrix.h:153-181"]}
{"id": "C193", "title": "base64Decode is RFC 4648 decoding", "statement": "For a text of base64 characters, with or without padding, base64Decode returns the bytes that RFC 4648 assigns to it, so k characters other than '=' give 3k/4 bytes, rounded down; bits left over in the last character are not returned.", "quantifier": "for all texts of the 64 characters and '=', whether an encoder could have produced them or not", "why_tests_cant": "A test decodes what the encoder produced, where no bits are left over; texts of other senders are unlimited", "anchors": ["src/base64/base64_functions.cpp: base64Decode"]}
{"id": "C194", "title": "Sizes of URL and JSON texts", "statement": "urlEncode of n characters has n + 2r characters, r of them being reserved, hence at most 3n; urlDecode never returns more characters than it is given, and at least a third, exactly two less for each % in a well formed text; jsonEscape of n characters has n + e, e of them needing a backslash, hence at most 2n.", "quantifier": "for all texts, for urlDecode also malformed ones", "why_tests_cant": "Buffers and limits are planned with the largest size; a test measures single texts", "anchors": ["src/network/network_functions.cpp:24-43", "src/network/network_functions.cpp:45-64", "src/json/json_functions.cpp:5-34"]}
{"id": "C195", "title": "A Vector of floats written to a text and read again is the same Vector", "statement": "Writing a Vector<float> with << and reading the text with >> gives an equal Vector, and from {, numbers separated by commas, and } the operator >> reads the nearest floats; a text that is no Vector of floats ends the program with a message.", "quantifier": "for all Vectors of floats, and all texts of a { with one or more decimal numbers, white space and anything behind them", "why_tests_cant": "A test tries a few short numbers; that six digits are not enough for most floats, and that a number out of range makes the program read a variable never written, shows only for particular values and positions", "anchors": ["src/include/containers/Vector.h:389-401", "src/include/containers/Vector.h:403-430"]}
