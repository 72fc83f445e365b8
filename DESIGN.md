# Verification design for CUHKSZLib

The C++ sources in /repo are read as text, transcribed function by function into
Lean 4 definitions, and the properties of `properties.jsonl` are proved about those
definitions for all inputs.  Nothing is compiled or run from /repo.

## Layout

* `lean/Verif/Cpp.lean` – the outcome type and the C++ integer operations.
* `lean/Verif/Model/X.lean` – the model of one area of the code.  Every definition cites
  file and lines and states its simplifications.
* `lean/Verif/Spec/X.lean` – small independent specifications (only if the property needs
  more than standard notions).
* `lean/Verif/Proof/X.lean` – helper lemmas.
* `lean/Verif/Props/X.lean` – the property theorems only, named `C01_...`, each followed by
  `example`s showing that a concrete non-trivial case meets its hypotheses.

Naming: `Cnn_…` theorems establish property Cnn.  `Cnn_…_refuted` proves the negation of the
property as stated (with a concrete witness); `Cnn_…_partial` is the strongest true part.

## Outcomes

`Out α` has four constructors: `ok a` (returns), `exit` (the `error` macro of
`utils/error.h`, which prints and calls `exit(EXIT_FAILURE)`), `ub` (undefined behaviour:
out-of-bounds access, null dereference, signed overflow, use after free, read of an
indeterminate value, division by zero), and `diverge` (fuel of a loop or recursion exhausted).
Loops whose termination is not structural are run with fuel; "terminates with r" is stated as
"for all sufficiently large fuel the outcome is `ok r`", "does not terminate" as "for all fuel
the outcome is `diverge`".

## Plan per property

| id | what is modelled | how it is proved |
|----|------------------|------------------|
| C01–C04 | `base64Encode`, `base64Decode` via strings of bits exactly as the code builds them | encode against a 3-byte-group specification of RFC 4648 by induction over groups; decode∘encode via regrouping of bits; NUL loss as exact characterisation and refutation |
| C05–C07 | `urlEncode`, `hexToInt`, `urlDecode` with index-based reads, `str[len]` = NUL, beyond = ub, `isdigit` of a negative char = ub | induction over the string; refutation witness "%" |
| C08–C09 | `kmpSearch`: both while loops with fuel, int arrays with bounds checks, `int m = start` conversion | loop invariants for the optimised failure table; refutations for the empty pattern and huge `start` |
| C10–C11 | `editDistance` matrix loops | DP cell invariant, equivalence with recursion, then with least length of edit sequences |
| C12–C13 | `gcd`, `lcm` on mathematical ints with int32 overflow checks | loop invariant with Int.gcd |
| C14–C18 | all of `Fraction` with checked int arithmetic | against ℚ; refutations for `/=`, `int - Fraction`, `int / Fraction` |
| C19–C24, C71, C72 | `BigNum<MAX>`: digit arrays with indeterminate cells, `len`, `sign` | digit-sum value function; refutations for the sign cases and stale digits; sums with stale digits exactly (`Proof/BigNumStale.lean`: the digits that are read make up a clean number) |
| C25–C27 | `binaryPow` (checked and wrapping), `genericBinaryPow` over a semigroup, `factorial`, `permutation`, `binomial` | loop invariants |
| C28 | `sum`, `mean`, `variance`, `sample_variance` for any type of numbers, used with exact rationals | algebra over ℚ; rounding is in C109–C112 |
| C29–C31, C74 | `Matrix` as shape + entries, ownership of the entries buffer for `*=`, `pow`, `reduce` | comparison with sums; double free as ub; echelon invariant |
| C32–C34 | `SegmentTree` arrays of size 4n with bounds checks | recursion over node intervals; lazy-tag semantics; refutations. `C33_blocks_partial` (`Spec/SegmentTreeExact.lean`) gives the exact answer of every query after every history on the sizes of C34: each block of the halving keeps its initial aggregate, changed by exactly the updates that contain the whole block, and a query joins the blocks into which its interval is cut |
| C35–C37 | `Tree` nodes with `ancestor` vectors, `fa`, `height` | invariant over addNode histories, binary lifting |
| C38–C41 | `BST` heap of nodes with `ch[0]`, `ch[1]`, `fa`, null dereference = ub | representation predicate (zipper) for splay steps |
| C42–C46, C77 | `Trie` double array, tails, tail free list, relocation; static mapper as global state | representation invariant refining to a set of words; for C45 also a small-step machine for the iterator whose runs are deterministic |
| C47–C50, C78, C79 | JSON values, `jsonEscape`, `dump`, recursive-descent parser over offsets; floats as rationals | a grammar of JSON texts with the value each denotes; induction over it; refutations by witnesses |
| C80–C83 | subscripts as paths from the object, const access, initializer lists, getters | induction over the path |
| C51–C54, C84 | Vector, List, Stack, Queue as lists with the checks of each member function; what `std::vector`, `std::list`, `std::deque` do is written down in `Model/Stl.lean`, out of range = ub | refinement over operation histories; `Props/SeqProg.lean`: every sequence of calls of any members returns the values of a step-by-step specification (`Spec/SeqProg.lean`) |
| C55, C56 | Map, Set, MultiSet, MultiMap as sorted lists; what the `std::` containers do is in `Model/Stl.lean` | a value/multiplicity function over the history of calls |
| C85–C87 | text input/output of `Vector<int>`, `stringCast<int>` over a model of `std::istream` (text, flags, `unget`) | a grammar of texts; induction over the elements; refutations by witnesses |
| C57–C58 | `Zip`, `mapAll`, `filterContainer`; functions with state and effects on the elements | loop invariants, induction |
| C59–C61, C88, C90 | `Random`, `BernoulliDistribution` over an arbitrary engine (`std::mt19937_64` itself: C167); doubles are binary64 with correct rounding (`Model/Double.lean`) | arithmetic; monotonicity and relative error of rounding; counting outputs |
| C62, C89 | `BinomialDistribution`, `NegativeBinomialDistribution`, `GeometricDistribution`, `PoissonDistribution`, generic in the number type: exact field and binary64 | loop invariants; summation of the series; refutations by witnesses in binary64 |
| C91, C96 | `GammaDistribution`, `ExponentialDistribution`, `ChiSquaredDistribution`, generic in the number type and the `<cmath>` functions (`Libm`): exact reals, and binary64 with any `log` satisfying `LogOk` | sums of logarithms; counting outputs; rejection loop by induction over the rejected rounds |
| C92, C93, C95 | `NormalDistribution` with its spare value, `StudentTDistribution` with both evaluation orders, over exact reals | induction over rejected pairs; refutations by a concrete engine |
| C94 | as C62, exact reals | counting the outputs between two values of the CDF |
| C104, C108 | `UniformDistribution`, `UniformIntDistribution`; `r()` and `lambda()` | C59 and C61; rounding error bounds; witnesses |
| C105, C107 | all generators and distributions ever constructed, with who made them; destroyed objects stay and may not be used; the time is an input | invariant over histories of calls |
| C109–C112 | the same functions as C28 in binary64, with `stddev` (correctly rounded square root) | error bounds of each rounding; the exact variance of n integers that are not all equal is at least (n-1)/n², more than the rounding error; witnesses |
| C113–C115 | all constructors, assignments, `setType`, `clearData`, both `operator[]`, `append` and the destructor of `JSONObject` on a heap of addresses (`Model/JsonHeap.lean`) | `Rep` relates memory to values with a footprint (multiset of addresses); each function is framed to its footprint; simulation of programs on values; `x = x[p]` frees `x[p]` before reading it |
| C116–C118 | constructors and assignments for numbers, `toFloat` (rounding to binary32), `JSONIterator`, `JSONConstIterator` and range-based loops with any body (`Model/JsonConv.lean`) | arithmetic; nearest grid point; induction over the elements |
| C120 | the loops of `insert`, `erase` and `find` (`Model/BST.lean`); the fuel of a loop is its number of iterations | potential Σ ⌊log2 size⌋ (Sleator–Tarjan with whole-numbered ranks) carried along the zipper used for C38–C41; a path for the refutation |
| C121 | the recursions of `SegmentTree` (`Model/SegmentTree.lean`), fuel = depth | results do not depend on the fuel above ⌈log2 n⌉ + 1; prefix, suffix and general intervals counted separately |
| C122 | the postfix operators of `BigNum`; the returned reference is a value whose use is undefined | C71 |
| C123 | `Matrix<int>::toString` (`Model/MatrixText.lean`), `Matrix<double>::toString` (`Model/MatrixTextDbl.lean`) | splitting at line ends and commas; decimal texts are injective; for doubles the number of millionths is determined |
| C124 | SegmentTree.h:42-211 once more for `ValueType` = `int`, each sum and product checked for overflow (`Model/SegmentTreeInt.lean`) | Refuted by one element and three additions (`C124_refuted`). `C124_static_partial`: without updates, interval sums that fit suffice, for every size. `C124_sound_partial`: whatever is defined is right, by a simulation (`Ref`: undefined or equal to the exact model) and C33, C75. `C124_adds_partial`: additions and queries are defined if n·(max\|v\| + Σ\|x\|) fits; the invariant bounds, at each node, the stored values plus all summands pending at the node and above it. `C124_updates_partial`: with multiplications too, if n·Π max(1, \|factor\|)·(max\|v\| + Σ\|x\|) fits; the invariant bounds the product of the pending factors and what the affine map pending above a node makes of its stored values. `C124_factor_needed`: the product is needed. |
| C125 | Matrix.h:20-48, 70-134 once more with `elem` as an address in a memory of blocks: `new`, `delete[]`, row pointers, entries, indeterminate until written (`Model/MatrixHeap.lean`) | Programs are lists of statements (`Spec/MatrixHeap.lean`). `C125_refuted`: a product leaks. `C125_mulTo_refuted`: after every program a `*=` that makes sense is undefined. `C125_partial`: simulation with the invariant that the allocated blocks are exactly the blocks of the variables (pairwise disjoint) and the forgotten ones; `C125_noProduct_partial`: without products all memory is given back. `reduce`, `pow` are in the value model only (C30, C31). |
| C126 | The functions of `Model/Matrix.lean` with the arithmetic of binary64 (`Model/MatrixDouble.lean`, `Model/Double.lean`); `operator==` with a NaN | `C126_echelon`: for every arithmetic whatsoever, by inversion of the loops (which cells each loop may change). `C126_returns`: no operation on doubles fails. `C126_solutions_refuted`, `C126_residual_refuted`: witnesses [[49,1],[49,1]] and [[2^-60,1,1],[1,1,2]]. `C126_exact_partial`: simulation of exact arithmetic that stops at the first non-double (`Spec/MatrixDouble.lean`). `C126_times`: standard error analysis with underflow; `C126_times_integer`, `C126_times_integer_refuted` (2^53 + 1); `C126_sum`, `C126_eq`. |
| C127 | All distribution classes over exact reals (`Model/Random.lean`, `Model/RandomCont.lean`); an ideal generator is the product measure of uniform laws on sequences (`Spec/RandomLaw.lean`) | Explicit procedures on sequences (`gammaSmp`, `normalSmp`, `quantileSmp`, ...): the code follows them (`Agrees`), and they push the product measure forward to law × product measure (`Samples`). `Samples` is closed under sequencing and under rejection (`Proof/RandomLaw.lean`, geometric series over the rejected rounds); gamma by convolution with exponentials and the acceptance region of Ahrens and Dieter (`Proof/RandomGamma.lean`); normal by polar coordinates (`Proof/RandomPolar.lean`); discrete laws by inversion (`Proof/RandomQuantile.lean`). `C127_iid`: repeated calls are independent. Since the outputs of a real engine lie on a grid (a null set of the ideal measure), `Agrees` ties code and procedure through the explicit definition of the procedure, not through the measure. |
| C128 | `Trie::iterator`: `operator==`, `end()`, copies (`Model/Trie.lean`) | case analysis of the end flags; loops by induction; the cycle of `C45_endless_refuted` for the refutation |
| C129 | sizes of `base`, `check`, `tail` after any history (`Model/Trie.lean`) | an invariant bounds every value and index used by `insert_`: a free place is found at or before the end of `check`, an arc adds at most 27; explicit invariant for the leaking history |
| C130 | the loop of `gcd` with a bound on its rounds (`Model/MathFns.lean`); `genericBinaryPow` for any multiplication | Lamé's argument with Fibonacci numbers; induction over the binary digits |
| C131 | `operator<<` of `Fraction` as the text it writes (`Model/FractionText.lean`) | the slash does not occur in a decimal number |
| C132 | `operator+`, `operator-`, `dot`, `cross`, `len`, `dcmp`, `disToLine`, `disToSegment` over `Cpp.Dbl` (`Model/Geometry.lean`) | whole numbers up to `2^53` are not rounded, so the same branch is taken as in exact arithmetic (C64); then two roundings (root, quotient) remain |
| C133, C134 | `parse_number`, `stringCast<double>`, `std::to_string(double)` in binary64 with sign bit (`Model/JsonDouble.lean`); only the number cases of `parse_next` and `dump` | rounding to nearest minimises the distance over all doubles (`fl_near`); three roundings with an exponent; from 2^33 on doubles are multiples of 2^-19, below they are rounded to 2^-20 or finer, so six places identify the double, or are identified by it |
| C135 | client programs over `BigNum` variables (`Model/BigNumProg.lean`), running the operators of `Model/BigNum.lean` | invariant: every variable holds its integer and no digit beyond it; the number of digits in use is the number of decimal places (`len_places`) |
| C136 | constructors and `next()` of the binomial, negative binomial, geometric and Poisson samplers (`Model/Random.lean`) over binary64 (`Model/Double.lean`); `std::exp`, `std::pow` are parameters assumed accurate to one unit in the last place (`Spec/RandomDbl.lean`) | thresholds and probabilities carried through the loops as "m roundings plus an absolute error for underflow" (`Proof/RandomErr.lean`, `RandomChain.lean`); the sampler returns the first k whose threshold exceeds the uniform number (`Finds`); outputs below a threshold counted (`card_unif`) |
| C137 | `len`, `normalize`, `dot`, `cross`, point subtraction, `disToLine`, `disToSegment`, `getIntersection`, `Circle` (`Model/Geometry.lean`) over binary64 with correctly rounded `sqrt`, `cos`, `sin` (`Fp.dbl`); `Spec/GeometryAcc.lean` | values are multiples of a fixed power of two (`Grid`) or bounded below (`Big`), so nothing underflows; relative errors counted as powers of `1 + 2^-53` (`Rel`, `Proof/GeometryRel.lean`), sums with an absolute bound by the sum of the absolute terms (`Proof/GeometryAcc…6.lean`); the exact distances and points come from C63 and C64 |
| C138 | `SegmentTree<double>`: `Model/SegmentTreeDbl.lean` (all functions of SegmentTree.h over a value type with uninterpreted operations, used with binary64) | every node satisfies a predicate closed under the joins of `init`, and a query without pending flags combines nodes (`Proof/SegmentTreeDbl.lean`); each of the at most ⌈log2 n⌉ additions above an element costs a factor `1 + 2^-53` (`Proof/SegmentTreeDbl2.lean`); whole numbers by simulation of the `int` model (`Proof/SegmentTreeDbl3.lean`) |
| C139 | the JSON parser as for C49 | the syntax of RFC 8259 and a wider grammar with values (`Spec/JsonLoose.lean`); every successful run of the parser yields a derivation in the wider grammar (induction over the fuel), every derivation a successful run (induction over the grammar), `Proof/JsonLoose{,Doc,Rfc}.lean` |
| C140 | elements with names that stand for the references to them, `Model/ContRef.lean`; which calls invalidate which references is the C++ standard's | programs over values and positions (`Spec/ContRef.lean`); simulation, with the exact place of an element after a stable sort, `Proof/ContRef{,2,3,4,Map}.lean` |
| C141 | variables, assignment expressions with value categories, `Model/ContVars.lean` | programs as sequences of simple assignments and calls (`Spec/ContVars.lean`); induction over expressions and programs, `Proof/ContVars.lean` |
| C142 | `operator T()` over a model of `>>` for `long long`, `unsigned`, `bool`, `char`, `std::string`, `Model/StringCast.lean` | texts of integers (`Spec/Stream.lean`), `boolText`; direct computation |
| C143 | statements that make and use objects with a reference member, lifetimes of temporaries, `Model/StringCast.lean` | objects that hold their text (`Spec/StringCast.lean`); simulation |
| C144 | `normalNext`, `gammaNext`, `studentTNext` over binary64, `Model/RandomCont.lean` | exact points and the polar factor over the reals (`Spec/RandomNormal.lean`); relative errors through each operation |
| C145 | `getVal`, `getRank`, `setVal`, and client programs `exec`, `Model/BSTUse.lean` | relation of outputs a list of nodes allows (`Spec/BSTUse.lean`); invariant `Inv` (search tree, all nodes keep rank and value) through every statement |
| C146 | `getFa`, `getSon`, `getDegree`, `getID`, `getVal`, `setFa`, `addSon`, `setHeight`, the root of a `Tree`, `Model/TreeGet.lean` | tree as a list of (node, father) pairs; a frame lemma (`Same`) for what each call changes |
| C147 | `query`, `change` with intervals outside the vector, `Model/SegmentTree.lean` | positions of the interval in the vector (`Spec/SegmentTreeClip.lean`); calls equal the calls with clipped bounds, other paths leave the arrays |
| C148 | `loadJSON` with a limit on nested calls of `parse_next`, `Model/JsonStack.lean` | equality with the model without limit by induction on the run; nested arrays reach every limit |
| C149 | `gcd`, `lcm` as templates over eight integer types, with promotion, arithmetic conversion, narrowing, `Model/GcdTypes.lean` | values that survive the conversions make the loop Euclid's; counterexamples by evaluation and by an invariant round |
| C150 | `factorial`, `permutation`, `binomial` as templates over eight integer types, counters included, `Model/FactTypes.lean` | loop invariants up to a map from the exact value to the stored one; divergence by an invariant of the wrapped loop (2^64 divides 66!) |
| C151 | `genericBinaryPow` for `Fraction`, `double` (binary64) and `Matrix` (in memory), `Model/PowTypes.lean` | loop invariants on the powers of a coprime pair; relative error of a chain of roundings; the ownership predicate of `Proof/MatrixHeap.lean` |
| C152 | the six comparison operators of Map, Set, MultiSet and MultiMap, `Model/AssocCmp.lean` | extensionality of sorted lists, induction on two sorted lists, the lexicographic order of C84 |
| C153 | programs over all operators of Fraction, `Model/FractionProg.lean` | induction on the program from C14 to C18; partial correctness without bounds, definedness from products below 2^30; the actual values of all statements, `x /= y` included, in `Spec/FractionActual.lean` |
| C154 | client loops around kmpSearch, `Model/KmpUse.lean`; the fuel of both loops of kmp.cpp counts the tests of their conditions | induction on the number of rounds from C08; potential 2 m - i for the number of steps |
| C155 | as C01-C07 | induction by groups of three bytes; `=` stands only at the end of an encoding; pieces of eight bits (`Proof/Pieces.lean`); exact domains of decoding: a `/`, or a digit, behind an incomplete group is decoded differently |
| C156 | client program (`Model/JsonStore.lean`) over the models of C05, C01, C48, C108 | invariant over the steps: a fine document whose lookup gives the coded data (`Proof/JsonStore.lean`) |
| C157 | `Matrix` over the operations of `Fraction` (`Model/MatrixFrac.lean`) and of `int` | elimination in an arithmetic that stops when a number does not fit or a division leaves a remainder is carried over to `Fraction`, `int` and the exact field (`Proof/MatrixFrac.lean`) |
| C158 | `dump` of `Model/Json.lean` against the syntax of RFC 8259 in `Spec/JsonLoose.lean` | induction over values; the characters of a JSON text are at least 32 or white space (`Proof/JsonRfcDump.lean`) |
| C159 | the loops of `Tree.cpp` with a counter of rounds (`Model/TreeCost.lean`), proved to compute the same as `Model/Tree.lean` | the tables stop at the highest power of two below the depth (`Proof/TreeCost.lean`) |
| C160 | programs with `if` and `while` over the operators of `Model/BigNum.lean` (`Model/BigNumLoop.lean`) | simulation of a big-step semantics over the integers (`Spec/BigNumLoop.lean`); loop invariants for two programs (`Proof/BigNumLoop.lean`) |
| C161 | the model of C10 (`Model/EditDistance.lean`) | laws of the recursive distance (`Proof/EditMore.lean`), C10 and C08 |
| C162 | Set, Map and List::sort over an `operator<` that may be undefined (`Model/KeyOrder.lean`) | simulation by the containers of C55 over the keys (`Proof/KeyOrder.lean`), with C16, C23, C65 and C119 for the four types (`Proof/KeyTypes.lean`) |
| C163 | programs with while loops and conditions over `Fraction` (`Model/FractionLoop.lean`) | lock-step simulation of the run over the rational numbers (`Spec/FractionLoop.lean`, `Proof/FractionLoop.lean`), with the statements of C153; the telescoping sum by induction on its rounds; lock-step with the actual values for every program (`Proof/FractionActual.lean`) |
| C164 | `reduce` over any field (`Model/Matrix.lean`); rank, determinant and span are those of Mathlib (`Spec/MatrixRank.lean`) | from C31: equal solutions give equal rank and row space (rank-nullity); echelon forms by Mathlib's pivots; back substitution by induction (`Proof/MatrixRank.lean`) |
| C165 | `scanReads`, `kmpReads` (`Model/KmpReads.lean`): the loops of C08 with the list of positions at which the text is read; the same result as `kmpSearch` is proved | potential 2(n-m)+i for the number of reads; two steps of the failure function shorten a prefix as Fibonacci numbers do, by the periodicity lemma of Fine and Wilf (`Proof/KmpReads.lean`); examples attain the bound for 1 to 5 reads |
| C166 | `base64EncodeInt`, `editDistanceInt`, `clearInt`, `newInt` (`Model/BigSizes.lean`): the functions with the conversions of `size_t` to `int`; `kmpSearch` and `size()` have them from the start | reduction to the beginnings of the texts whose length is the size modulo 2^32; induction on the rounds of `clear` (`Proof/BigSizes.lean`) |
| C167 | `Rand.Mersenne.engine` (`Model/Mersenne.lean`): `std::mt19937_64` from its definition in the C++ standard; `nextInt`, `nextDouble`, `Random()` as before | each step of the seeding and of the output loses nothing; 312 consecutive words determine all earlier ones but the oldest; numbers 2^30 apart are different doubles (`Proof/Mersenne.lean`) |
| C168 | `operator T()` and `>>`, `<<` of `Vector` and `<<` of points over a model of `>>` and `<<` for `double` (`%g`), `Model/DoubleText.lean` | decimal literals and their values (`Spec/DoubleText.lean`), `Nearest`; six digits determine what is written, error bounds of rounding, also for subnormal numbers (`Proof/DoubleText.lean`); exactly which doubles survive: `Props/TextExact.lean` |
| C169 | `variance`, `sample_variance`, `stddev`, `sample_stddev`, `Model/Stats.lean` in binary64 | textbook variances, `Within` (`Spec/StatsVar.lean`); rounding errors of the differences, squares, sums and quotient, the shift of the sum of squares by the error of the mean, the square root (`Proof/StatsVar.lean`) |
| C170 | threads as code with reads and writes of the static variables, interleaved in any order, all accesses recorded, `Model/Threads.lean` | data race, which calls read and write which variables, `Apart` (`Spec/Threads.lean`); the accesses of every call stay within its variables, and steps of threads without conflict commute (`Proof/Threads.lean`) |
| C171 | the recursions of `SegmentTree` as calls of a client, with `init`, `Model/SegmentTreeNode.lean` | nodes of the tree, settled positions, which calls are right (`Spec/SegmentTreeNode.lean`); nothing pending on the path to a settled position, and a step below such a node is a step of the whole tree (`Proof/SegmentTreeNode.lean`) |
| C172 | `dump` of `Model/Json.lean` | a reader that counts open brackets outside strings, and what each line must begin with (`Spec/JsonLayout.lean`); pieces of text compose, induction over values (`Proof/JsonLayout.lean`) |
| C173 | `operator[]` for reading and writing (`Model/BigNumIndex.lean`) | decimal digits of an integer by division, last assignment wins (`Spec/BigNumIndex.lean`); digits of Horner sums (`Proof/BigNumIndex.lean`) |
| C174 | `plus`, `minus`, `times` of `Model/BigNum.lean` | integers, right if and only if (`Spec/BigNumSigned.lean`); the borrow loop keeps the value modulo a power of ten (`Proof/BigNumSigned.lean`) |
| C175 | statements and loops of `Model/BigNumProg.lean`, `BigNumLoop.lean` | runs over the integers with the domains of the operators as side conditions (`Spec/BigNumSignedProg.lean`); invariant per variable (`Proof/BigNumSignedProg.lean`) |
| C176 | range-based for loops (`Model/ContLoop.lean`) over the containers with named elements of `Model/ContRef.lean`; when iterators stay valid is taken from the C++11 standard, not from code in /repo | the loop over positions (`Spec/ContLoop.lean`); simulation of the body and of the rounds, and what each call keeps of the order of the names (`Proof/ContLoop.lean`) |
| C177 | range-based for loops over Map and Set (`Model/MapLoop.lean`) with the nodes of `Model/ContRef.lean`; that iterators stay valid until their node is erased is taken from the C++11 standard; a Set is modelled as a Map whose values carry nothing | the loop that goes to the least greater key (`Spec/MapLoop.lean`); simulation of the body and of the rounds (`Proof/MapLoop.lean`) |
| C178 | range-based for loops over MultiSet and MultiMap (`Model/MultiLoop.lean`) with the nodes of `Model/ContRef.lean`; that equal elements are put behind each other and that iterators stay valid until their node is erased is taken from the C++11 standard; a MultiSet is modelled as a MultiMap whose values carry nothing | the elements before the current one and those to come (`Spec/MultiLoop.lean`); simulation of the body and of the rounds (`Proof/MultiLoop.lean`) |
| C179 | the parser of Json.cpp with the texts given to `error` (`Model/JsonMessage.lean`); the name of the function that `error` writes first is left out | the ten complaints, what they quote and what they ask for (`Spec/JsonMessage.lean`); each function of the parser depends only on the text it has read, by induction on the fuel (`Proof/JsonMessage.lean`) |
| C180 | the parser of Json.cpp with two counters, characters read and `JSONObject`s copied (`Model/JsonWork.lean`); moves, `std::map` look-ups and the conversions of numbers are not counted | the tree of a document with its parts, nesting and copies (`Spec/JsonWork.lean`); invariants of the counters in terms of the offset, by induction on the fuel (`Proof/JsonWork.lean`); nested objects by the round trip C48 |
| C181 | `for (auto s : trie)` with a body calling `insert`, `remove`, `contain`, `size` and `break` (`Model/TrieLoop.lean`, on `Model/Trie.lean`) | a sweep over places, with the word that is there at that time (`Spec/TrieLoop.lean`); the places depend on the inner nodes only, and a removal keeps these and their slots (`Proof/TrieLoop.lean`); removal of absent words in the body and custom mappers not covered |
| C182 | `JSONObject::dump` statement by statement with a counter of characters written (`Model/JsonDumpWork.lean`); whether `temporary + x` appends in place is a parameter | total length of the texts of all values inside (`Spec/JsonDumpWork.lean`); induction over the value (`Proof/JsonDumpWork.lean`); reallocation inside `std::string` not counted |
| C183 | the functions of `Trie` with two counters, accesses to the tables and characters copied (`Model/TrieWork.lean`); `C183_same`: outcomes are those of `Model/Trie.lean` | bounds by induction over the word, with the table sizes of C129 and an invariant on the lengths of tails (`Proof/TrieWork.lean`); reallocation of vectors and string comparisons not counted |
| C184 | the functions of `BigNum` with two counters, uses of single cells and cells in `memset`/`memcpy` (`Model/BigNumWork.lean`); `C184_same`: outcomes are those of `Model/BigNum.lean` | counting rules for sequences and loops (`Proof/BigNumWork.lean`); `sub` calls itself at most once unless it never ends; result of `toString` not counted |
| C185 | `insert` and `erase` (`Model/BST.lean`) on nodes with links left over; programs that make node objects, insert and erase them (`Spec/BSTReuse.lean`) | the number of child links never decreases in a rotation, whatever the heap, and a tree of n nodes has n - 1 of them; a set of nodes whose parents are in the set stays one, so `splay` does not end (`Proof/BSTReuse.lean`) |
| C186 | `normalNext`, `gammaNext`, `studentTNext` and the other samplers (`Model/Random.lean`, `Model/RandomCont.lean`) | the number of outputs taken is an explicit function of the sequence (`Spec/RandomUse.lean`), composed along the code by `Takes.bind`; rounds of a rejection loop are geometric by `Samples.first`, so the mean is the inverse of the acceptance probability known from C127; the bound by log-convexity of the gamma function (`Proof/RandomUse.lean`) |
| C187 | `lca`, `getDistance`, `run` (`Model/Tree.lean`) on a heap with two trees | the invariant of C35 for both trees at once (`TInv.congr`, `run_two`); the loop climbs as long as both tables have the entry, which is the binary expansion of the depth with all digits one (`cross_loop`, `Proof/TreeForest.lean`) |
| C188 | `dumpD`, `copyD`, `destroyD` (`Model/JsonDepth.lean`), `loadJSOND` (`Model/JsonStack.lean`) | each function equals the unlimited one if the longest chain of values (`Spec/JsonDepth.lean`) fits, by mutual induction on the value; the chain of a value read is bounded along the parser (`Proof/JsonDepth.lean`) |
| C189 | `Elem.ofType`, `Elem.bool` (`Model/StatsTypes.lean`) in the generic functions of `Model/Stats.lean` | the loop keeps the total modulo 2^bits in the types that wrap, and the total itself while the sums fit in the others, by induction on the elements (`Proof/StatsTypes.lean`) |
| C190 | `castFloat` (`Model/FloatText.lean`), `putDouble` (`Model/DoubleText.lean`), `flt32` (`Model/JsonConv.lean`) | as C168; a number of six digits is at least 10^-38, so rounding to 24 bits moves it by less than half a unit of the sixth digit (`Proof/FloatText.lean`); exactly which normal floats survive: `Props/TextExact.lean` |
| C191 | `Tally.Job` (`Model/Tally.lean`), `Work.editDistance` (`Model/EditWork.lean`): the function of C10 with counters | the counted function has the same outcome; a loop whose rounds all cost the same costs the product (`Proof/Tally.lean`, `Proof/EditWork.lean`) |
| C192 | `Work.times`, `Work.plus`, `Work.plusAssign`, `Work.eq`, `Work.copy`, `Work.reduce` (`Model/MatrixWork.lean`): the functions of C29-C31 and C74 with counters | as C191; the search for pivots goes through each column once and once more for every row; induction on the rows (`Proof/MatrixWork.lean`) |
| C193 | `base64Decode` as for C02 | `Spec.decode` (`Spec/Base64Decode.lean`) takes four values at a time; the bits of a byte are those of two neighbouring characters (finite tables), then induction by fours (`Proof/Base64Decode.lean`) |
| C194 | `Url.urlEncode`, `Url.urlDecode`, `Json.jsonEscape` | induction on the text, for `urlDecode` three characters at a time (`Proof/TextSizes.lean`) |
| C195 | `readVectorF`, `printVectorD` | as for C168, with `getFloat`; induction on the elements (`Proof/FloatVector.lean`); accepted characters are those of a decimal number, so only texts of vectors are read (`Proof/StreamOnly.lean`, for C168 too) |
| C106 | the static generator of `random_functions.cpp` as a state that starts empty | simulation by one `Random` object |
| C63–C65, C97–C101 | `Point<N>`, `Line`, `Circle`, generic in the number type (`Fp`): exact reals and binary64; a counter of objects that are never freed | algebra over ℝ; rounding error bounds; refutations by witnesses |
| C66–C68, C102, C103, C119 | `Vertex`, `Edge` as a world of all objects ever constructed, with the global counters; destroyed objects stay and may not be used | invariants over histories of calls; refutations by histories |

## What is modelled, file by file

Paths are below /repo/src; headers below /repo/src/include.  "All" means every function with a body.  Declarations,
umbrella headers (`json.h`, `graph.h`, …), tests, samples and build files are not modelled.

| code | model | not modelled |
|------|-------|--------------|
| `base64/base64_functions.cpp` | `Model/Base64.lean`, `BigSizes.lean` (sizes from 2^31 on) | – |
| `network/network_functions.cpp` | `Model/Url.lean` | – |
| `algorithm/kmp.cpp`, `edit_distance.cpp` | `Model/Kmp.lean`, `KmpReads.lean` (work per character), `EditDistance.lean`, `EditWork.lean` (work and memory), `BigSizes.lean` | – |
| `algorithm/Map.h`, `Filter.h`, `Zip.h` | `Model/Algo.lean` | `Zip::operator()` (a copy); that deduced types compile |
| `math_utils/math_functions.h`, `binary_pow.cpp` | `Model/MathFns.lean` | value types other than those named in the theorems |
| `math_utils/statistics.cpp`, statistics in `math_functions.h` | `Model/Stats.lean`, `StatsTypes.lean` (other integer types, `bool`) | elements of type `float` |
| `math_utils/Fraction.h` | `Model/Fraction.lean`, `FractionText.lean` (`<<`) | – |
| `math_utils/BigNum.h` | `Model/BigNum.lean`, `BigNumIndex.lean`, `BigNumProg.lean` | members which do not compile when used (`operator*=(…) const`, `abs`) |
| `math_utils/Matrix.h` | `Model/Matrix.lean` (values), `MatrixDouble.lean` (binary64), `MatrixHeap.lean` (memory), `MatrixText.lean` (`toString`), `MatrixWork.lean` (work) | `idMat` (a friend that no call can find) |
| `geometry/Point.h`, `Line.h`, `Line.cpp`, `Circle.h` | `Model/Geometry.lean`, `Circle.lean` (constructors), `DoubleText.lean` (printing) | – |
| `graph/SegmentTree.h` | `Model/SegmentTree.lean`, `SegmentTreeInt.lean` (overflow), `SegmentTreeNode.lean` (`init` and node ranges as calls of a client) | `init` for part of the tree; `l, r, o` that do not belong together |
| `graph/Tree.h`, `Tree.cpp` | `Model/Tree.lean` | deleting nodes that are still linked |
| `graph/BST.h`, `BST.cpp` | `Model/BST.lean` | – |
| `graph/Vertex.*`, `Edge.*` | `Model/Graph.lean` | – |
| `string_utils/Trie.h`, `Trie.cpp` | `Model/Trie.lean` | tables of 2^31 entries; `StringAdapter` is a recursion over the word |
| `string_utils/StringCast.h`, stream operators of `containers/Vector.h` | `Model/Stream.lean`, `StringCast.lean`, `DoubleText.lean` (`double`), `FloatText.lean`, `FloatVector.lean` (`float`) | `long double` |
| `json/Json.h`, `Json.cpp`, `json_functions.cpp` | `Model/Json.lean` (reading, writing), `JsonApi.lean` (members), `JsonConv.lean` (conversions), `JsonDouble.lean` (numbers in binary64), `JsonHeap.lean` (memory), `JsonMessage.lean` (error messages) | the name of the function in front of an error message |
| `containers/*.h` | `Model/Sequence.lean`, `Assoc.lean` on top of `Model/Stl.lean` | copy construction, assignment, `begin` and `end` (but see `Model/ContLoop.lean`, `Model/MapLoop.lean` and `Model/MultiLoop.lean` for loops) and conversions to the standard containers, which only forward |
| `random/*` | `Model/Random.lean` (integers), `RandomCont.lean` (doubles), `RandomObj.lean` (objects, seeding), `RandomParams.lean` (parameters), `Mersenne.lean` (the engine) | whether the numbers of the Mersenne twister look random: the other theorems hold for every generator, or for an ideal one; `std::random_device` is an oracle |
| `utils/error.h` | the outcome `exit` of `Cpp.lean`; with the message in `Model/JsonMessage.lean` | the texts of the other messages, which are constants |

The standard library is not modelled beyond the documented effect of the members used (`Model/Stl.lean`, `Model/Stream.lean`,
`Model/Double.lean`).  Memory never runs out.  An exception that the library does not catch ends the
program; the models mark it as `exit` or `ub`, as their comments say.  Concurrency is modelled only for C170 (interleaved accesses to the static variables); the library itself has no threads.

## Trusted base

* The Lean 4.33.0 kernel, and Mathlib where imported.  Theorems depend on at most the axioms
  `propext`, `Classical.choice`, `Quot.sound`.
* The faithfulness of the transcription in `lean/Verif/Model`, which is by hand.
* The meaning given to the C++ standard library pieces that the code calls (std::string,
  std::vector, std::deque, std::map, std::bitset, iostream formatting of ints and chars).
* Platform assumptions: `char` is signed 8 bit, `int` 32 bit, `size_t` and `int64_t` 64 bit.
* Floating point is replaced by exact arithmetic except where said otherwise.

## Testing the theorems

`tools/mutate.py` applies one edit to a model definition in a scratch copy, as a realistic bug would, and
rebuilds the modules that depend on it.  Proofs that no longer check are cut out, so that the rest is still
examined.  A theorem counts as failed if its proof, or a lemma it uses, no longer checks.  An attempt is
`caught` if each property named for it has a failing theorem.

What this shows is limited.  A proof may fail although its statement still holds, so "caught" does not show
that the statement is false for the edited model; a theorem that survives is the informative case.  Only the
modules that the named properties depend on are rebuilt, so `theorems_failed` need not be complete.

Counts of `seeded/LOG.jsonl`, printed by `tools/summary.py`:

```
lines 1084 evaluated 1084 different edits 1040 definitions 842
caught 1012 not caught 72
not caught, but the same edit was caught in another attempt 33
not caught in any attempt 39 of these: some theorem failed, but not one of a property named 28 ; no theorem failed 11 ; without a note 3
attempts after which theorems were tightened 28
```

Lines with `"caught": null` are edits that were written down but not evaluated.  `note` says what an
uncaught attempt shows: most name a property whose statement does not speak of the edit, while theorems of
the right property failed; some edits are equivalent to the code, or break no claim.

## Disagreements between code and properties

Each entry is proved (theorem `Cnn_…_refuted`, or the exact-domain theorem named in the manifest).

* C02 `base64Decode` drops NUL bytes, so binary data does not round-trip.
* C07 `urlDecode` reads past the string if it ends in `%` (or `%` and one character).
* C09 `kmpSearch` misbehaves for the empty pattern and for `start` values whose conversion to int wraps.
* C12 `gcd(INT_MIN, -1)` computes `INT_MIN % -1`, undefined.
* C17 `Fraction::operator/=` divides the components as ints.
* C18 `int - Fraction` and `int / Fraction` swap their operands.
* C19 `BigNum(0)` prints as the empty text; `BigNum(INT64_MIN)` negates INT64_MIN.
* C20 `BigNum` addition of numbers of different sign with a negative sum recurses for ever; a number
  using all cells makes the carry loop or the test of the last carry access `elem[N]`: every sum of numbers with the
  same sign (every difference of numbers with different signs) with such an operand is undefined, and so is every
  product of factors with together more digits than cells (`C20/C21/C22_full_all_refuted`).
* C21 `(-5) - (-7)` gives `-8` (the operands are swapped and the borrow runs the wrong way).
* C22 `BigNum` multiplication ignores the sign of the right operand.
* C24/C71 `BigNum` assignment copies only the digits in use: stale digits of the old value take part in
  later additions; the copy constructor leaves the rest indeterminate.
* C72 `-0` differs from `0`, is smaller, and is printed as `-`.
* C30 `Matrix::operator*=` frees the rows twice on every call; `pow` never squares, so `pow(A, 2)` is `A`,
  and `pow(A, 0)` recurses for ever.
* C73 `base64Decode` reads characters outside the alphabet like `/`.
* C25 `binaryPow` squares once more than needed; that squaring can overflow although the result fits.
* C27 `permutation(n, 0)` returns `n`.
* C28 integer variance overflows.
* C33 `SegmentTree::addInterval`/`mulInterval` never recompute the nodes they pass through, so a later query of
  a larger interval returns a stale maximum, minimum or sum.
* C36 `Tree::LCA` indexes the ancestor tables of nodes that have fewer entries (first for two nodes at depth 5
  meeting at the root); where it is defined it is right.
* C34 `SegmentTree::update` pushes flags to the children of leaves; with `4 * size` entries this is in bounds
  exactly for sizes 2^k - 1, 2^k and 2^k + 1. The empty vector makes the constructor recurse for ever.
* C40 `BST::erase` of the last node in order of several dereferences null; erasing a node with nodes on both sides
  leaves the parent links of the new root's children pointing to the erased node, and a later insertion is lost.
  This happens for every tree and every further sequence of insertions: the node inserted last is never found
  (`C40_lost_refuted`; only if a single node precedes the erased one, ranks below it are excepted).
* C76 `BST::pre`/`suf` look only below the node, so for a node that is not the root they miss its neighbours.
  Of the 2n answers of a tree with n nodes exactly n - 1 are not null, whatever its shape (`C76_count_partial`).
* C43 `Trie::remove` of an absent word reads `check` without a bounds check (`remove("z")` on a new trie).
* C45 `Trie` iteration loses words after a branch: {ab, ac, b} gives ab and ac only; an inner node left empty by `remove`
  hides all later words. Backtracking takes the wrong letter (`pop_back` before `back()`, Trie.cpp:100-101): iteration
  over {abc, abd} goes back and forth between the two words and never ends.
  `C45_regular_partial` says exactly for which sets of words (built by insertions) iteration is complete: those `Regular`
  in `Spec/TrieTour.lean`; for every other set some word is missing from every result. `C45_history_partial`
  says the same for histories with removals: a beginning once shared by two stored words stays an inner node for ever
  (`run_inner`), so the condition (`RegularAfter`, `Spec/TrieHistory.lean`) is about everything ever shared.
* C46 the character mapper of `Trie` is static: constructing a trie changes the mapper of every other one.
* C77 relocation and iteration of `Trie` hard-wire 26 letters; with a larger alphabet words get lost.
* C129 `remove_` (Trie.cpp:218-222) does not give the tail of the removed word back to `tailList`: every insertion and
  removal of "a" makes `tail` longer by one, though the trie is empty again.
* C49 `loadJSON` reads behind the end of a text that ends inside a string or after a number in an array.
  `C49_cut_refuted` shows this for every such text, at any depth and after anything the loader reads (`Spec/JsonCut.lean`).
  A caller can avoid this: `C49_guard_partial` shows that appending a space and two quotes makes loading defined for every
  text which has only ASCII characters outside strings (strings may hold any bytes) and no exponent that is out of range or
  has no digits behind its first character, and keeps the value of every text that loads without them.
  `C49_exponent_refuted` and `C49_space_refuted` show undefined behaviour without these conditions.
* C50 the character after `e` is always taken for the sign of the exponent: `1e25` is loaded as 100000 and `1e5` reads
  an uninitialised variable; a number with exponent inside an array or object ends the program; integers out of range
  are clamped.
  `C50_unsigned_refuted` says this for every exponent without sign: one digit is undefined behaviour, of more digits the first
  is lost; `C50_nearest_partial` for every integer literal; `C50_inside_refuted` that every number with an exponent inside of
  brackets, at any depth, ends the program (the position is moved back once too often).
* C78 keys are stored in escaped form (`parse_object` uses `toString()`); `\u` escapes are not decoded.
* C139 `loadJSON` reads texts that are not JSON: anything after the value (`null x`, `1 2`), keys that are not strings (`{1 :2}`, stored under the empty key), `--`, `1.2.3`, `01`, `1-2`, unknown escapes (`\q` becomes a backslash), control characters in strings, vertical tabs as white space, a zero character after a number.
* C80 a negative index is not rejected.
* C81 `at(key) const` inserts a missing key, and reads a map behind whatever pointer there is for other types.
* C82 an initializer list of odd length is read past its end; keys are escaped.
* C83 `toString()` returns the escaped string.
* C52 `List::merge` does not check that both lists are sorted, which `std::list::merge` requires.
* C54 `Queue::first` and `last` do not check for an empty queue.
* C155 `base64Decode` drops `=` and lets the bits run on: of the concatenated texts `Zg==` and `b28=` it does not make `foo`.
* C157 `Matrix<Fraction>(n, m)` fills its cells with `memset`, so numerator and denominator are 0: no product of such matrices is ever computed, the program ends with "Divide by Zero error". `reduce` uses `/=`, which for `Fraction` (C17) and `int` truncates: (2, 1) becomes (1, 0).
* C158 `jsonEscape` leaves the control characters without a short escape as they are, and `dump` writes keys as they are: the object with the one key `a":true,"b` is read back as one with the two keys `a` and `b`.
* C160 `BigNum<5> s(0), i(10), n(0); while (i > n) { s += i; --i; }` ends with 145 in `s` (C135: digits left over).
* C162 `Set<Fraction>` with 65536/65537 and 65537/65536 overflows; `Set<BigNum>` holds 0 and -0; a NaN point hides all others in a `Set<Point<1>>`; `Set<Vertex>` and `Map<Vertex, T>` merge different vertices of equal value.
* C163 `s += one / (i * (i + 1))` in a loop overflows in round 1290, where `s` would become 1290/1291.
* C166 sizes from 2^31 on are stored in an `int`: `size()` is negative, `clear()` of a Stack or Queue overflows or leaves elements, `kmpSearch` finds nothing, `editDistance` is negative, and `base64Encode` with a length throws.
* C168 (`C168_refuted`): `operator<<` of `Vector<double>` and of points writes six significant digits (no precision is set, Vector.h:389-401,
  Point.h:135-139), so that `{1234567}` is read back as `{1234570}`; `inf` and `nan` are written but cannot be read: `>>` ends the
  program or, from the second element on, uses a variable without a value.  The same happens for `{1, 1e400}` and `{1,}`
  (`C168_large_refuted`, `C168_missing_refuted`).
* C153 `Fraction x(1, 65536); x = x + x;` overflows although 1/32768 is representable: products are formed before reducing.
* C152 `MultiMap<int,int>{{1,2},{1,3}} == MultiMap<int,int>{{1,3},{1,2}}` is false although both hold the same pairs.
* C151 `genericBinaryPow(Fraction(3), 17)` overflows although 3^17 is an `int` (the base is squared once more after the last use); `genericBinaryPow` of a square `Matrix` with exponent 2 or more is undefined; with exponent 0 it returns a 1x1 zero matrix.
* C27, C150 `binomial<int64_t>(4294967296, 1)` overflows the `int` loop counter; `factorial((unsigned char)255)` never ends; `factorial(13u)` is wrong; `permutation((unsigned short)65535, 2)` overflows; `binomial` of two `short`s does not compile (line 501 mixes `short` and `int`).
* C149 `gcd` with a negative and an unsigned argument is wrong or loops for ever (`gcd((short)-6, 2147483648u)`); `lcm` of small types is cut.
* C148 `loadJSON` recurses once per nested bracket without a limit: a text of many `[` overflows the stack instead of being rejected.
* C147 `SegmentTree` queries for an empty or outlying interval run past the arrays; `queryMax(n, n)` on n elements can return a value.
* C146 `Tree::addNode` on a node already in the tree, and a second `setRoot`, leave stale ancestors, sons and heights; `getRoot()` of a new `Tree` reads an indeterminate pointer.
* C144 `StudentTDistribution(2).next()` is NaN if the chi-squared sample is 0 (a generator output below 1024; probability about 2^-54 per draw).
* C142 `stringCast<std::string>("a b")` is `"a"`, `stringCast<char>(" ")` returns an uninitialised variable.
* C143 `stringCast<int> c("7"); int i = c;` reads a string that no longer exists: `m_from` is a reference to the temporary.
* C140 `Vector`: references from `operator[]`, `get`, `first`, `last` dangle after `push` to a full Vector and, for later elements, after `erase` and `insert`; all other containers keep them valid.
* C141 `operator=` of Stack and Queue returns a copy instead of a reference: `(a = b).push(x)` changes a temporary object only.
* C86 after a failed read of an element `operator>>` of Vector goes on with the old separator and pushes a variable without
  value (`{1,x}`, `{1,}`, an element out of range, an empty stream). `Spec/StreamBad.lean` lists all undefined texts, and `C86_exact_partial`
  shows that every other text gives the vector it begins with or ends the program.
* C87 `stringCast<int>` of an empty or blank string returns a variable without value.
* C59 `nextInt(min, max)` overflows if `max - min` exceeds `INT_MAX`.
* C60 `nextInt()` converts an output above `INT_MAX` after subtracting: half of the outputs overflow.
* C61 `nextDouble()` is 1 for 1024 outputs; `nextDouble(min, max)` can be `max` for many more if the
  range spans few doubles, and is infinite if `max - min` overflows.
* C62 `BinomialDistribution(n, p)` overflows for `n = 34`; in binary64 `PoissonDistribution(800)` and
  `NegativeBinomialDistribution(1100, 0.5)` run into overflow of `result` for every generator output.
* C89 the loops of `NegativeBinomialDistribution` and `PoissonDistribution` do not end for `u = 1`.
* C90 `BernoulliDistribution(1)` returns `false` for 1024 of the 2^64 outputs.
* C91 `ExponentialDistribution` and `GammaDistribution` return infinity for the 1024 outputs that give `u = 1`;
  `ExponentialDistribution(0)` is accepted; `GammaDistribution(k, theta)` with `k >= 2^31` converts `k` to int.
* C92 `NormalDistribution` keeps its spare value when the generator is seeded again.
* C93 `normal.next() * std::sqrt(r_ / chi2.next())` leaves open which operand draws first; both orders give
  different results.
* C104 `UniformIntDistribution` accepts ranges wider than `INT_MAX`, for which every sample overflows;
  `UniformDistribution` returns `max` and accepts NaN.
* C107 generators constructed without a seed in the same second yield the same sequence.
* C108 `ExponentialDistribution(49).lambda()` is not 49; `ChiSquaredDistribution` rejects the least positive double.
* C109 the array version of `variance` of ints loses half of the digits (46340, 46340, 46339); the container version does not.
* C110 the variance of three times 0.1 is not zero.
* C111 `sum` depends on the order; the mean of three times 0.1 is not 0.1; the mean of two large doubles is infinite.
* C169 the variance has no bounded relative error: three times 0.1 gives 2^-112 instead of 0; 2^511, -2^511, 2^511, -2^511 gives
  infinity instead of 2^1022.
* C170 `nextVertexID`, `nextEdgeID`, `StringAdapter::mapChar` and the generator of `random_functions.cpp` are unprotected static
  variables: constructing vertices (edges, tries) or calling `randomInt` in two threads is a data race.
* C171 `SegmentTree::init` on a tree in use resets the flags of leaves only: `add(0, 1, 5)`, `init` with 3, 4, then position 0 reads 8.
  The overloads with a node ignore what is pending at its ancestors: after `mulInterval(0, 1, 3)` on 1, 2 and
  `addInterval(0, 0, 1, 0, 0, 2)` position 0 reads 6 instead of 4.
* C172 `dump` erases two characters from the indentation of every closing brace instead of one tab (Json.cpp:445), and writes an empty
  object as `{`, an empty line, `}`. Every object with members is laid out wrong with every tab of three or more characters, and from
  depth 2 on with every tab of one character (`C172_tab_all_refuted`).
* C173 `b[i] = d` never changes `len` (BigNum.h:60): digits written above it are ignored by comparison and printing but not by addition;
  a top digit set to 0 leaves a leading zero.
* C174 `a - b` is wrong for all pairs of different negative numbers (`cmp(…, true)` compares magnitudes but returns a result with the
  sign of the number, BigNum.h:241-243); (-5) - (-15) prints as `-`.
* C176 A loop over a Vector whose body calls `push`, `insert`, `erase`, `pop` or `clear` and goes on to the next round is undefined even if
  there is room (the stored `end()` is invalid); over a List, erasing the current element is undefined, pushing in every round never
  ends, and `reverse()` makes the loop visit elements twice or never.  The comments in List.h and Vector.h mention none of this.
* C177 A loop over a Map or Set that erases the current element and goes on is undefined, and one over a Map with string keys that
  inserts a greater key in every round never ends.  The comments in Map.h and Set.h mention neither.
* C178 A loop over a MultiSet that inserts the current element (or a greater one) in every round never ends, whatever the type; erasing
  the current element of a MultiSet or MultiMap and going on is undefined.  Not mentioned in MultiSet.h and MultiMap.h.
* C179 The message of `loadJSON` can name the wrong character: for `[1e+5]` it is `Array: Expected ',' or ']', found '5'`, because
  `parse_number` gives back one character too many after an exponent (Json.cpp:167-188).
* C180 `Object[Key.toString()] = Value` (Json.cpp:40) copies the value with everything in it although it is not used again; a
  value is copied once for each object around it, so loading `n` nested objects copies about `n²/2` of them.  The loop for
  arrays moves its elements.
* C181 inserting into a `Trie` inside a range-based for loop over it may move the node the iterator stands at (Trie.cpp:154-204).
  The words b, bb with an insertion of ba in the round of b: undefined behaviour; bb, bc with ba in the round of bb: the loop ends
  before bc.  Removing is safe.
* C182 `dump` is not linear in its output: every array and object copies the text of its elements once more (twice for objects), and
  every value, even a number inside an array, first builds an indentation (Json.cpp:430-432).  Nested arrays cost the square of the
  text; n nested objects cost more than 2n^3/3 characters.
* C183 `contain` is not proportional to the word: `tail.getWithCheck` returns a `std::string` by value (Trie.h:24), so looking up "a"
  copies the rest of any stored word that is the only one with that letter in front.  Inserting aⁿc next to aⁿb takes n(n-1)/2 steps, as `checkAvailable`
  starts at slot 0 for each letter (Trie.cpp:243-248).
* C184 every `BigNum` operation clears `MAX_SIZE` cells two or three times (`BigNum ret;` in the operator and in `add`, `sub`, `mul`), also
  for one-digit numbers; `++` goes through all digits even without a carry.
* C185 `BST::erase` leaves the links of the erased node as they are, and `insert` does not reset them: inserting an erased node
  again, or a node that is in the tree, never gives a correct tree and mostly never returns.
* C186 `StudentTDistribution::next` makes a new `NormalDistribution` for each number, so the spare result of the polar method is never
  used: twice as many outputs for the normal part as needed (no wrong result).
* C187 `LCA` (Tree.cpp:38-51) of nodes without a common ancestor reads `ancestor[i]` out of range unless the smaller depth is `2^k - 1`,
  and `getDistance` (Tree.cpp:54) dereferences the `nullptr` returned in that case. Witness: two separate paths, nodes at depth 2.
* C188 `dump`, copying and `~JSONObject` recurse once per level of nesting without a limit, so a value built by putting it into an
  array again and again cannot even be destroyed.
* C189 `mean`, `variance` and `sample_variance` add up in the element type: the mean of the bytes 200 and 100 is 22, the mean of two
  true values is 1/2.
* C190 `float`s are written with six digits: 1234567 comes back as 1234570.
* C191 `editDistance` keeps the whole matrix: for two texts of 100000 characters it takes 40 GB, where two rows would do.
* C193 `base64Decode` pads the bits of the whole text to a multiple of 8 and writes the padding too: bits left over in the last character (`Zm`,
  `Zm==`, or a single character after full groups) become an additional byte that RFC 4648 does not have.
* C195 `operator>>` of `Vector` does not look at the state of the stream: after a number out of range (`{0.1, 1e39}`) `ch` still is the comma
  before it, and the next round stores a `value` that was never written.  Only as first number it ends the program.
* C112 `sample_variance(arr, INT_MIN)` is undefined though documented to return 0; size 0 gives NaN (not documented).
* C114 `operator=(const JSONObject&)` (Json.cpp:335-353) calls `clearData()` before it reads `src`. So `x = x` reads freed memory if `x` is a string, array or object; `x = x["a"]` does so for every element; `x = std::move(x["a"])` too (Json.cpp:325-333). `x = std::move(x)` leaves null. A check for `this == &src` would not help for elements: the copy has to be made first.
* C113 The order in which `x[p]` and `y[q]` are evaluated in `x[p] = y[q]` is unspecified before C++17; the model takes the right side first. With `x` and `y` different it makes no difference.
* C116 integers are converted to `int`: `JSONObject(3000000000L).toInt()` is -1294967296; a `char` is stored as a number.
* C118 `begin() const` and `end() const` of `JSONIterator` (Json.h:31-32) call themselves for ever.
* C119 `==` of vertices and edges compares identities, `<` compares values: different edges of equal value are equivalent for `std::set`; a copy is never equal to its original.
* C120 `find` does not splay: after insertions in increasing order every look-up of the smallest key takes `n` steps.
* C122 `BigNum::operator++(int)` and `operator--(int)` return a reference to a local variable.  `operator*=(const BigNum&) const`, `abs() const` and the friend `abs` do not compile when used (they change `*this` or bind a non-const reference in a const function).
* C123 `Matrix::toString` reads `A[i][0]` of a matrix without columns.
* C124: `update` at a leaf passes its summand or factor on to two children that do not exist (their entries are never read); these entries keep collecting and overflow. One element -2147483648, three times `addInterval(0, 0, 1073741824)`: the element is -2147483648, -1073741824, 0, 1073741824, but the third addition first computes 1073741824 + 1073741824 at index 2. Thirty-two times `mulInterval(0, 0, 2)` on the single element 0 overflows too.
* C125: `operator*` (Matrix.h:72, :77) returns a copy of `*ret` and never deletes `ret`: an r-row product leaves r + 2 blocks allocated. `operator*=` (Matrix.h:87-88) calls `clear()` and then `operator=`, which calls `clear()` again: the rows are read through the deleted array and deleted twice.
* C126: `reduce()` on doubles takes the first entry that is not exactly 0 as pivot (Matrix.h:160). A rounding residue of an entry that should have become 0 counts as pivot, so [[49,1],[49,1]] reduces to rank 2; and a tiny pivot destroys the other rows: 2^-60 x + y = 1, x + y = 2 reduces to x = 0, y = 1.
* C64 `disToSegment` compares with an absolute eps: for a segment of length 1e-9 it returns the distance from the line;
  for a segment of length 0 it returns NaN.
* C65 `Point::operator==` compares with eps, so it is not transitive and points that are `==` may be `<`; NaN is equal to
  everything and breaks `<`.
* C97 `p *= p[0]` and `p /= p[0]` change the factor on the way; an index outside the dimension is not rejected but undefined.
* C98 `len` and `normalize` overflow: every point with a coordinate of `2^512` or more is normalised to the zero vector; every
  point with coordinates below `2^-538` only is normalised to infinities and NaNs.
* C99 `PI` is 3.1415926.
* C100 every binary operator of `Point` allocates its result and copies it: one object is leaked per call. For whole
  programs (`Model/PointProg.lean`) the number left is the number of such operators evaluated, rounds of loops included.
* C101 the cross product of `getIntersection` can underflow to 0, as it does for all directions below `2^-538`; then no
  coordinate of the result is finite.
* C68 the copy constructor and `operator=` of `Vertex` copy the pointers to edges that each vertex deletes: two copies
  delete the same edge twice; assignment to a vertex with edges leaks them.
* C102 self-assignment of a vertex empties its lists.
* C103 the destructor of `Vertex` leaves the pointers to its edges in the lists of their other ends, and edges to it in
  the lists of theirs.
* C133, C134 `parse_number` multiplies the number before the exponent by `std::pow(10, exp)`: `3e-1` is read as
  0.30000000000000004, `5e-324` as 0, `0.001e+310` as infinity and `0e+400` as NaN.  `dump` writes six places, so small
  doubles are lost, and writes infinity and NaN as `inf` and `nan`, which `loadJSON` rejects.
* C135 `x = x` for a `BigNum` calls `memcpy` with equal source and destination (BigNum.h:55), which is undefined.
* C135 consequence of C71 for programs: `BigNum<5> x(10); --x; x += 10;` leaves 29 in `x`.  Programs are safe as long as
  no variable gets shorter.
