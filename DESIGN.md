# Formal model of flatsurf/exact-real in Lean 4: design

All paths are relative to `/repo/libexactreal` unless they start with `Verif/` (then `/verif/lean/`). The model is hand-written from the
source; every definition cites the lines it models and says where it simplifies. Theorems are about the model; the tie to the code
is that reading (the code cannot be built or run here).

## 1. Layout

`Verif/Model/*` is the program, `Verif/Spec/*` the small vocabulary in which properties are stated, `Verif/Lemma/*` internal lemmas,
`Verif/Props/*` the theorems named in `MANIFEST.json`, each with a concrete case that meets its hypotheses (`example`s and `good_*`
theorems).

| layer | model | specification | theorems | code |
|---|---|---|---|---|
| outcomes (`ok`/`throws`/`abort`/`ub`/`pending`), build switches | `Outcome` | – | – | exceptions, `src/util/assert.ipp`, undefined behaviour, fuel |
| products of atoms | `Monomial` | `RealNumber` | `RealNumber` | `src/real_number_product.cc` |
| real numbers, exact part | `RealNumber` | `RealNumber` | `RealNumber` | `src/real_number.cc`, `src/rational_real_number.cc`, `src/real_number_product.cc` |
| 32 bit exponents | `Overflow` | `RealNumber` | `Overflow` | `src/real_number_product.cc` |
| coefficient rings | `Ring` | `Ring` | `Convert`, `NumberField` | `src/integer_ring.cc`, `src/rational_field.cc`, `src/number_field.cc` |
| modules | `Module` | `Module` | `Module` | `src/module.cc` |
| elements, exact part | `Element` | `Element` | `Element`, `Scalar`, `Convert`, `TrueDiv` | `src/element.cc` |
| rational coefficients | `RationalCoefficients` | (in the theorem file) | `RationalCoefficients` | `src/element.cc` |
| floating point numbers | `Arf` | `Approx` | `Arf` | `src/arf.cc`, rounding of FLINT |
| balls | `Ball` | `Ball` | `Ball` | `src/arb.cc`, predicates of FLINT |
| assertions of `refine` | `Assertions` | `Ball` | `Assertions` | `src/real_number.cc:63-77` |
| approximations, `arf`, `arb`, `refine`, `cmp`, comparisons | `Approx` | `Approx`, `Order` | `Approx`, `RealOrder`, `RealOrderExact` | `src/real_number.cc`, the four `arf_` |
| cache of approximations | `ArfCache` | – | `ArfCache` | `src/real_number.cc:195-219` |
| the cache under threads | `ArfThreads` | `Threads` | `ArfThreads` | `src/real_number.cc:195-219`, `src/impl/real_number_base.hpp:50-52` |
| random numbers | `Random` | `Approx` | `Random` | `src/random_real_number.cc`, `src/constrained_random_real_number.cc` |
| the random generator | `Rand48` | – | `Rand48` | `boost::random::rand48` as used in `src/random_real_number.cc` |
| floating point numbers with infinities, printing | `ArfSpecial` | `ArfSpecial` | `ArfSpecial` | `src/arf.cc`, `exact-real/arf.hpp` |
| doubles | `Double` | `Double` | `Approx`, `ElementDouble`, `ElementDoubleFails` | `operator double` |
| elements, numeric part | `ElementApprox` | `Element`, `Order` | `ElementOrder`, `ElementOrderFails`, `ElementRound`, `FloorDiv` | `src/element.cc` |
| ownership of memory | `Storage` | `Storage` | `Storage` | special member functions in `src/arf.cc`, `src/arb.cc`, `exact-real/element.hpp`; `src/element.cc:208-221` |
| printing elements | `Print` | `Print` | `Print` | `src/element.cc:920-969` |
| objects, factories, reference counts, address reuse | `Heap`, `ModuleHeap` | `Heap`, `ModuleHeap` | `Heap`, `ModuleHeap` | the factories of all files |
| elements and programs on objects, with interference | `ElementHeap` | `ProgramHeap` | `ProgramHeap` | `src/element.cc`, `src/module.cc` |
| files of bytes | `ArchiveBytes` | `ArchiveBytes` | `ArchiveBytes` | `exact-real/cereal.hpp`, `save`/`load` with a `cereal::BinaryOutputArchive` |
| several threads and a scheduler | – | `ProcessThreads` | `ProcessThreads` | the same |
| the precision the loops reach | – | `Effort` | `Effort`, `EffortDivision` | `src/element.cc`, `src/real_number.cc` |
| approximations and order on objects, with interference | `OrderHeap` | `OrderHeap` | `ProgramOrderHeap` | `src/element.cc`, `src/real_number.cc` |
| serialization | `Serialize`, `ModuleHeap` | `Heap`, `ModuleHeap` | `Heap`, `ModuleHeap` | `exact-real/cereal.hpp`, `save`/`load` |
| identities and seeds under threads | `Counter` | – | `Counter` | `src/real_number_base.cc`, `src/seed.cc` |
| client programs | `Program` | `Program` | `Construct`, `Program`, `ProgramQuery` | sequences of calls of the above |
| number fields are refined | `Embedding` | `Embedding` | `Embedding`, `EmbeddingEffort` | `src/arb.cc:103-107`, `src/element.cc` |
| Python comparisons of balls | `PyBall` | `PyBall` | `PyBall` | `/repo/pyexactreal/src/pyexactreal/cppyy_exactreal.py` |
| Python expressions | `PyExpr` | `PyExpr` | `PyExpr` | `/repo/pyexactreal/src/pyexactreal/cppyy_exactreal.py` |
| 64 bit integers of the approximations | `Long` | `Long` | `Long` | the files of the rows on approximations |
| the Python ring | `Python`, `PythonSquare` | `Python` | `Python` | `/repo/pyexactreal/src/pyexactreal/exact_reals.py` |
| expression templates | `Yap` | `Yap` | `Yap` | `exact-real/yap/*.hpp` |

Value semantics. An atom (random or constrained random real) is an identity (`uniqueId`); its real value is given by a valuation
`v : ℕ → ℝ`. Theorems quantify over all `v`, or over all algebraically independent `v` where the documentation assumes independence
(`Verif/Lemma/IndependentAtoms.lean` shows that independent values in [0,1] exist). In the numeric layer the value of an
atom is the limit of its digits, for an arbitrary sequence of digits.

## 2. Per property: what is modelled, how it is proved

* **C01–C05** products are lists of `(identity, exponent)`; semantics in `ℕ →₀ ℕ` and in any commutative ℚ-algebra; induction over the
  merge / three-way comparison / quotient loops. The hash (C04) is computed in `UInt64`.
* **C06–C07** `deglex` as coded; equals the specification order `Precedes`; strict total order, compatible with `*`, well-founded.
* **C08–C10** modules: sorting is an arbitrary function that returns a sorted permutation (`make_any_sort`); insertion sort is the instance.
* **C11–C17, C30–C33, C45, C53** elements as coefficient lists over a module over one of the three rings; `LawfulCRing` is proved for all
  three. C11 (F8), C32 (F12), C33 (F20), C45 (F7) are false as documented; each has a counterexample theorem and the true part.
* **C18–C19** the division loop with fuel: soundness for every fuel, enough fuel exists, completeness by leading monomials.
* **C20–C22, C26, C35, C36** the numeric loops with fuel, over FLINT's ball arithmetic as a contract (`Arith.Lawful`). Exact when the
  enclosures of the generators contain them, correct up to an explicit error otherwise, termination always; counterexample theorems
  for the unrestricted claims (F22, F25).
* **C23–C25, C27, C34** numeric behaviour of real numbers as coded, with error bounds; counterexamples (F1, F2, F3, F6, F17).
* **C28, C29** FLINT's comparison predicates decide the relation for all pairs of points; F4 is the counterexample for `!=`.
  `Props/BallRational.lean` extends C29 to balls with infinite or NaN midpoint and infinite radius.
* **C37, C51** counters as state machines under every interleaving of threads.
* **C38, C42, C55** histories: transition systems with reference counting, destruction at any time after the last reference is gone, and
  arbitrary reuse of addresses; invariants by induction over histories.
* **C39** the cache as a state machine that is refined to the pure function.
* **C40, C41, C52** digits are arbitrary functions `ℕ → Bool`; the generators are parameters. F23 is the counterexample for C52.
* **C43, C44** archives are trees; loading happens in another history (other identities, addresses, live objects). F9 is the counterexample
  for C44.
* **C46** as coded; F5 is the counterexample.
* **C47** expression trees, a store with aliasing, the evaluation of the code with its temporaries.
* **C48** exact arithmetic on dyadic rationals and correct rounding; shifts and `logb` also with 64 bit integers (`Model/ArfLong.lean`).
* **C49, C50** number fields are subfields of the real algebraic numbers generated by one element; e-antic's functions by contract, which
  is proved to be satisfiable.
* **C54** the list algorithms with 32 bit signed arithmetic, overflow being undefined behaviour; agreement with the unbounded model.
* **C56** `refine` and its callers with the assertions; `arb`'s interval is wide enough for everything but products; F28 is the
  counterexample for products.
* **C57** `rand48` (`Model/Rand48.lean`) has full period and its top bit is flipped after half a period, so the numbers are fractions over
  a Fermat number; distinct seeds are distinct states, distinct states have distinct digit streams.
* **C58** false: the stream of one seed is a shift of the stream of another one (F29), and the same seed is used twice by
  `random(lower, upper, seed)` (F15). For a single number: the prime factors of Fermat numbers are large.
* **C59** `XArf` (`Model/ArfSpecial.lean`) adds infinities and NaN to the values; compare with `EReal`, case by case.
* **C60** parse the printed string at its first `=` and `p`; false for integers (F31).
* **C61** tokens instead of characters; a grammar of the output (`Spec/Print.lean`) that is shown to be unambiguous; `std::set` as insertion into a sorted
  list; C22 gives the comparisons.
* **C62** `arf` as a program of single accesses to the mutable members; executions are all interleavings of any number of threads; that a
  single thread does what `Model/ArfCache.lean` says is proved. No races for disjoint footprints by induction over executions; races in
  every complete execution by a predicate on programs (`Until`, `Must`).
* **C63** `XBall`: a midpoint and a radius on the extended real line or NaN; FLINT's predicates by their documentation.
* **C64** approximations do not cross floating point numbers with one digit more (`Lemma/NonCrossing.lean`), so there is a floating point
  number between two numbers whose balls separate; transitivity by looking at the precision at which `x < z` separates; false in
  general (F33).
* **C65** the constructors return (`make` of sorted generators is the identity), values by the sum over the terms.
* **C66** client programs (`Model/Program.lean`) as sequences of calls on variables; `Spec/Program.lean` says what each call means for real numbers;
  a simulation, by induction over the run. False over ℤ for calls that throw (F7).
* **C67** `Build` is a parameter of the model; runs are transported from one build to another call by call (`Lemma/BuildIndep.lean`, `Lemma/BuildDiv.lean`), using
  that the invariant `WF` makes every asserted condition true.
* **C68** every modelled call is shown to have the outcomes `ok` or `throws` only; for the loop of `truediv` well-founded induction on the leading monomial of the remainder.
* **C69** a memory of objects and blocks (`Model/Storage.lean`) against a specification without memory (`Spec/Storage.lean`); the invariant is that every block has exactly one
  owner; the loop of `+=` is run coefficient by coefficient, with operands that can be the same object.
* **C70–C73** the ring `ExactReals(K)` of the Python package (`Model/Python.lean`) on top of the model of the C++ elements; the specification
  (`Spec/Python.lean`) is the ring of polynomials `MvPolynomial ℕ` with coefficients in the base ring; `Made` is the set of elements that a program can make.
  The proofs go through the values at algebraically independent reals, which determine a polynomial.
* **C74** Python objects, the references that Python knows of and the C++ references as separate graphs (`Model/PyExpr.lean`), a collector that may delete any object that
  cannot be reached, addresses that are chosen by an adversary; the specification has neither objects nor addresses. Invariant: every operand of a held expression is reachable. Python numbers as operands: `Model/PyExprNumber.lean`.
* **C75** the invariants of C66 make the theorems of C20–C22 and C35 applicable to every variable of every program.
* **C76** `Model/BallBounds.lean` follows `arb_set_interval_arf`; error bounds of the rounding from `Lemma/Arf.lean`.
* **C77** `Spec/Archive.lean` says which number an archive describes (inductively); `Reach`/`MReach` include loads of such archives; `load` is related to the description by induction on the archive (`Lemma/Archive.lean`), `save` in `Lemma/ArchiveSave.lean`.
* **C78** `Model/Text.lean` follows `mpz_get_str`, `mpz_set_str` (with detection of the base), `mpq_set_str`, `arf_dump_str`, `arf_load_str`, `arb_load_str`; round trips by induction on the digits.
* **C79** `Model/Format.lean` is `%.Pg` (rounding of the exact value to `P` significant digits, ties to even), `Model/PrintReal.lean` the four `operator>>`; `Spec/Format.lean` reads decimal numbers. The text is shown to be within half a unit of the last digit; identification by showing that `*`, `^`, `,` and `/` occur in no factor, so that a text can be cut in only one way.
* **C80** `Model/ArchiveStream.lean`: an archive with its table of addresses and the references it holds, for both branches of the `#if CEREAL_VERSION`; a reader with its table. `Spec/ArchiveStream.lean`: histories in which writes (reads) are interleaved with anything else. Proof: an invariant relates the table to what the items describe (`Tree.Denotes` of C77), for the writer and for the reader.
* **C81** `Model/RandomSpecial.lean`: `random(a, b)` and `random(d)` for all bounds and doubles with the assertions. Proof: alignment of the exponents; the mantissa of an infinity is 0.
* **C82** `Model/ElementHeap.lean`: the functions of elements, modules and programs once more, on shared pointers, as trees of atomic steps (reads, factory calls) that can be interleaved with arbitrary histories of the process (`Waits`, `Exec`). Proof: a simulation (`Lemma/World.lean`, `Lemma/ElementHeap.lean`, `Lemma/ProgramHeap.lean`): while the thread holds references, what it refers to does not change, so every execution has the outcome of the value-level model; then C66. The random numbers have arbitrary values by seed (`Spec/ProgramHeap.lean`).
* **C83** `Model/Heap.lean`, `Model/ModuleHeap.lean` (events `destroy`, `forget`), `Spec/Reclaim.lean`: what is needed (reachability from references), the events that free memory, settled states. By an invariant (one heap entry per pointer, one factory entry per object), a decreasing measure and induction on the kind of object (products refer to atoms, constrained numbers to random numbers, so there are no cycles).
* **C84** `Model/OrderHeap.lean`: `arf`, `refine`, `arb`, the comparisons, `floor`, `ceil`, `operator double`, `floordiv` on heap objects (each approximation of a number is one atomic step that follows pointers at that time), `Spec/OrderHeap.lean`: asking a question in a process. By simulation against the value-level model (`Lemma/OrderHeap.lean`), then C20–C26 and C35 of that model.
* **C85, C86** `Spec/ProcessThreads.lean`: any number of threads in one process, an explicit scheduler that lets one thread take one atomic step of `Model/ElementHeap.lean`/`Model/OrderHeap.lean` at a time, copies between threads. Invariant: every thread's references are strong references to live objects, and its call in progress is the rest of an execution in the sense of C82 (for which the steps of the others are interference); so the simulation of C82/C84 applies to each thread. Calls with a number that the thread does not refer to are undefined (`Exec`, `Act.Moves`) – the proof shows they do not happen.
* **C87** `Model/ArchiveBytes.lean`: the bytes of a `cereal::BinaryOutputArchive`, and the readers of `cereal.hpp` and of the four kinds of numbers as functions that consume bytes and change the process step by step (so that an exception leaves what has been made so far). `Spec/ArchiveBytes.lean`: `CutOff` (a proper prefix), `Unharmed` (what the program still has), `FetchesFrom` (histories with calls that read bytes, also after exceptions). Proof: a relation `Serves` – all bytes are consumed, and every proper prefix leads to the exception in a state in which the invariants hold – is closed under sequencing; with it the reader is shown to refine the one of C80 by induction over the archive. The recursion depth is a parameter, at least 3 (shown to be enough). That identifiers, exponents and sizes fit into what `cereal` writes is not assumed: it follows (`written_fits`) from the values of the writing process being values of their C++ types and fewer than 2^31 objects in the archive.
* **C88** `Spec/Effort.lean`: `magnitude`, `Elt.size` (the sum of the sizes of the terms), `Elt.Enough` (how many doublings make up for cancellation), `CoeffAccurate` (the rate of `Ring::arb`), `AgreeUpTo` (two worlds agree on all precisions up to M). Proof: error bounds for `RealNumber::arb` and for the sum in `Element::arb` by induction on the terms, so that the loop (written as a `search`, `Lemma/Search.lean`) succeeds at a given iteration; locality (congruence of the search) says that no larger precision is looked at.
* **C89** `Model/PythonSquare.lean`; proof: a polynomial whose square is constant is constant (degrees), and the coefficients of elements are in `K` (`coeff_base`).
* **C90** `Model/Long.lean`, `Model/LongMore.lean`, `Spec/Long.lean`; every signed operation on precisions, digits and exponents may be undefined behaviour; agreement with the unbounded model by induction over the loops, with `2^60` as the bound of everything. `Model/Log2.lean`: `ceil(log2(.))` in floating point for any `log2` close to the logarithm; `3n` is at least 1 away from powers of two.
* **C91** `Model/PyBall.lean`, `Spec/PyBall.lean`; from C63 by cases for one comparison; programs are decision trees, by induction.
* **C92** `Model/Embedding.lean`, `Spec/Embedding.lean`: the functions of `ElementApprox` again, with the precision to which the number field was refined as a state (a pure function of precision and coefficient, as in C20–C36, ignores that approximating refines the shared field); `arb` with a state equals `arb` without it for the balls at that state, then the proofs of C20–C22, C26, C35, C36, C88 for arbitrary states in each iteration.
* **C93** `Model/PythonRound.lean`: integers, floats and hashes in the Python ring, on top of `Py.Made` and the theorems of C20, C21, C35, C36; statements in terms of the polynomial of an element.
* **C94** `Model/PythonRing.lean`, `Spec/PythonRing.lean`: syntax of expressions, evaluated in Python and in any commutative ring; induction over expressions with C70, and the universal ring of polynomials over the integers for the converse.
* **C95** `Props/RandomRoundTrip.lean`, `Props/RandomElement.lean`: the computed bounds are less than 3/8 of the gap away from `d`; `d ± 3/8` of the gap are 56-bit numbers, which rounding to nearest with 55 bits or more does not cross; so every approximation that is ever computed stays closer to `d` than to any other double. For elements: the balls contain the approximation.
* **C96** `Props/Rank.lean`: the generators of a well-formed module are strictly sorted, hence distinct, so that ranks are cardinalities of the sets of
  C09, C12, C14 and C17; inclusion and exclusion, and the image of a product of finite sets.
* **C97** `Spec/Provenance.lean` (which random numbers flow into which variable), `Props/Provenance.lean`, `Props/ProvenanceExact.lean`: induction over runs; multiplicities of atoms add up
  in products and subtract in quotients; generators of results are generators, products or quotients of generators of operands; approximations read atoms
  of generators only.
* **C98–** appended later, see `properties.jsonl` and `MANIFEST.json`.

No property is `not_applicable`.

## 3. Findings

Places where the code contradicts the documented property; each is proved as a theorem about the model unless marked (note).

| | what | theorem |
|---|---|---|
| F1 | `arb(prec)`/`refine` use a radius that is too small by a factor of about 2: the enclosure may miss the number | `arb_contains_fails` |
| F2 | `<` between a real number and an `Arf`, integer, or another number may be wrong for close numbers | `real_lt_arf_fails`, `real_lt_fails` |
| F3 | `cmp` answers 0 for numbers slightly outside of the ball | `cmp_fails` |
| F4 | `Arb != mpq` is a copy of `==` | `ball_rational_ne_wrong`, `ball_rational_ne_fails` |
| F5 | `RationalField::floor` truncates towards zero | `rational_floor_wrong` |
| F6 | `RealNumber` to `double` rounds twice; it does not even preserve the order of real numbers | `toDouble_not_nearest`, `toDouble_not_monotone` |
| F7 | a failing `*=`/`/=` over ℤ leaves the element modified | `imulQ_corrupts`, `idivZ_corrupts` |
| F8 | `promote` silently drops non-zero coefficients | `promote_drops` |
| F9 | loading an element in another process may permute its coefficients | `element_round_trip_fails` |
| F10 | `floordiv` by zero: undefined behaviour (and `0 // 0` is 0) | `floordiv_zero`, `py_floordiv_zero` |
| F11 | `bool` is true for an element that equals 0 if `rational(0)` is a generator | `bool_zero_generator` |
| F12 | `unit()` ignores the value of a rational generator | `unit_wrong` |
| F13 | `Module::one` builds a non-canonical `mpq_class` for a rational generator that is not positive | `one_undefined` |
| F14 | default seeds: wrap after 2^32, race, collide with explicit seeds | `seeds_wrap`, `seeds_race`, `seeds_explicit` |
| F15 | `random(seed)` and `random(a, b, seed)` with the same seed are linearly dependent but treated as independent | `random_same_seed_dependent`, `same_seed_fails` |
| F16 | `truediv` throws when the modules contain a rational generator other than 1 | `truediv_nonunital` |
| F17 | `arf(prec)` of a product may have a relative error above 2^-prec | `arf_relative_error_fails` |
| F18 | conversion of a ball to a pair of endpoints may use a precision ≤ 0 | `bounds_undefined` |
| F19 | `rational(0) / rational(0)` is 1 | `zero_div_zero` (1 · 0 = 0, so `div_sound` holds) |
| F20 | `one()` over ℤ misses the number 1 for the generator 1/2 | `one_wrong` |
| F21 | `*=` by an element of another number field leaves coefficients outside of the module's ring | `nf_imulR_leaves_ring` |
| F22 | `Element` to `double` is not a nearest double in the subnormal range | `elt_double_subnormal_fails` |
| F23 | `random(d)` for the largest or smallest double uses an infinite bound | `randomDouble_infinite`, `random_double_extreme_fails` |
| F24 | `Element::arb` never returns for elements that are zero but have non-zero coefficients | `zero_element_pending` |
| F25 | consequences of F1 for `<`, `floor`, `double`, hash and `floordiv` of elements | `elt_lt_fails`, `elt_floor_fails`, `elt_double_fails`, `elt_hash_fails`, `floordiv_fails` |
| F26 | the caches of approximations are unsynchronised although `arf` is `const`: data races | `threads_race`, `threads_race_products` |
| F27 | exponents overflow after 31 squarings | `squaring_overflows`, `degree_overflows` |
| F28 | `arb(prec)` of a product may fail its own assertion in a debug build | `arb_abort_fails` |
| F30 | `<=` and `>=` between NaN and every Arf hold, `==` does not | `arf_order_nan` |
| F31 | integers beyond 2^53 are printed as doubles only, contrary to the header | `arf_print_integer_fails` |
| F32 | printing an element of a module with the generator rational(0) never returns | `print_zero_generator_fails` |
| F33 | `<` of real numbers is not a strict weak order: a number may be neither less nor greater than two numbers that are themselves ordered | `real_lt_not_weak`, `real_le_not_antisymm` |
| F34 | In Python, `-a` of an Arb or Arf does not keep `a` alive: `enable_yap` wraps the binary operators only | `py_neg_dangles` |
| F35 | `RealNumberProduct::load` (and the loading of elements) checks nothing in release builds: a product with a single factor becomes a second object for its factor, elements get a wrong number of coefficients | `archive_single_fails`, `element_count_fails` |
| F36 | Numbers in archives are parsed with base detection and without canonicalization: `"010"` is 8, `"2/4"` is a non-canonical `mpq_class`, `"1/0"` is accepted | `text_fails` |
| F37 | A random number in an interval is printed as `ℝ(A + BpE)` but equals `A + B·2^(E-1)`: the exponent that is printed is off by one | `constrained_print_fails` |
| F38 | With `cereal` before 1.3.1 (`#else` branch of `cereal.hpp:256-260`) an archive remembers addresses of numbers that may have been destroyed: a number written later, at the same address, is read as the first one | `stream_address_fails` |
| F39 | `random(a, b)` with an infinite bound: the process ends, or the number is not in the interval | `random_infinite_fails` |
| F40 | `a - 1` for an `Arb` (or `Arf`) `a` in Python: the expression refers to the C++ number that cppyy has made for the call only; its evaluation is undefined behaviour (`a - Arb(1)` is fine) | `py_number_operand_fails` |
| F41 | `x >> n` for the smallest `long` `n`: undefined behaviour (`-n` overflows) | `arf_shift_fails` |
| F42 | `logb` of `2^(2^63-1)`: the result is a `long` but is computed from an exponent that is not (`fmpz_get_si` of `2^63`) | `arf_logb_fails` |
| F29 | random numbers with different seeds are linearly dependent: digits of seed t = digits of seed s from 65536 on | `random_dependent`, `independence_fails` |

## 4. Trusted base

* The Lean 4.33.0 kernel. Mathlib is used as a library; all of its proofs are checked by the same kernel.
* Axioms: every theorem of the manifest depends on a subset of `propext`, `Classical.choice`, `Quot.sound`. `AXIOMS.md` has the list per
  theorem (generated by `tools/axioms.py` from `#print axioms`). No axioms are added; compiled evaluation is not trusted anywhere.
* The reading of the C++ source: each `Verif/Model` definition cites the lines it models.
* Contracts of external code that is not in `/repo`, each a hypothesis or a definition in the model, never an axiom:
  * GMP integers and rationals are exact (values in `ℤ`, `ℚ`).
  * FLINT `arf`: correct rounding to `prec` bits in the requested direction (`Verif/Model/Arf.lean`, `Rnd.round`).
  * FLINT `arb`: `Arith.Lawful` and `CoeffLawful` of `Verif/Spec/Ball.lean`/`Verif/Spec/Element.lean`: results contain the exact results and are not much larger
    than necessary; `Verif/Lemma/FlintLike.lean` shows that the contract can be met. Comparison predicates are exact.
  * e-antic: exact arithmetic in the real embedding, numerators in the power basis (`NumVector.Lawful`, shown to be satisfiable).
  * Boost.Random and GMP random: arbitrary functions with the documented range; only for C57 and C58 `rand48` and
    `uniform_int_distribution` are computed as Boost documents them (`Model/Rand48.lean`).
  * `unique-factory` (an absent submodule): returns the live object with an equal key, otherwise creates one.
  * cereal: numbers addresses in order of appearance; the binary format of numbers, strings, vectors and maps and the exception for files that end too early (`Model/ArchiveBytes.lean`); JSON and XML formatting is not modelled.

### Evidence that the model is faithful

The library cannot be run here, but its documentation and tests contain outputs that the project's own test suite compares with those of the compiled library.
`lean/Verif/Conformance/` runs these programs in the model and compares (checked by the kernel; these are tests of the model, not proofs of properties):

* `Random.lean`: the printed form of the random numbers with seeds 1337–1341; of `random(13.37)` and `random(1.0)` with all digits of the initial segment, using the
  implementation of GMP's Mersenne Twister and of `mpz_urandomm` in `Model/GmpRandom.lean` (`GmpRandom.generators` is thus an instance of the parameter `Generators` of the
  model); initial segments of `random(3.141)`, `random(0)` and `random(1.414, 3.141)`.
* `Numbers.lean`: the programs in `arf.hpp`, `arb.hpp` and `real_number.hpp`; all 100 quotients and all orders of monomials in `test/real_number_product.test.cc`.
* `Elements.lean`: the programs in `element.hpp` (arithmetic, division, floor, comparison, conversion, simplification, printing) and some Python tests.

One program differs: `x->cmp([0, 1])` is 0 in the documentation and undefined in the model because it asks FLINT for a precision below the minimum that FLINT documents.

## 5. Simplifications and what is not modelled

* Infinite and NaN `Arf`/`Arb` values only in the layers of C59, C60, C63 and C81; precisions are unbounded integers (in the code `long`; C88 shows that below the stated 2^29 bits of cancellation no precision exceeds 2^56; C90 has the same functions with 64 bit integers).
* Balls of coefficients are a function of precision and coefficient, except in the layer of C92, where they also depend on how far the number field was refined before. (Refinement by several threads at the same time is not modelled: e-antic does not support it.)
* `std::sort` by its specification; `std::set`/`std::map` by sorted lists.
* `RealNumber::rational(q)` is called with canonical `q` (as `mpq_class` requires).
* Multi-threading: the two counters (C37, C51) and the caches of approximations (C62) step by step; otherwise calls of factories (which hold a lock) and reads of immutable objects are the atomic steps (C82). Temporaries of a call are kept until it returns (C82; C++ destroys some of them earlier).
* Printing (`operator<<`) of `Arb` and of the coefficients of elements, the Python package except for the ring operations of `exact_reals.py` (C70–C73, C89, C93), the comparisons of balls (C91) and the lifetime of expressions (C74), and the test and benchmark programs.
* Exponents are unbounded in all modules but `Overflow`, which proves agreement below total degree 2^31.
* Identities are unbounded in the exact layer; `Heap` has 64 bit identities and counts creations.
* Proofs by evaluation of concrete counterexamples use `decide +kernel`/`norm_num`/`simp`, all checked by the kernel.

## 6. Testing the theorems

`tools/mutate.py` applies one realistic bug at a time to a scratch copy of the model and rebuilds; `seeded/LOG.jsonl` has one line per attempt
with the theorems that failed and those that were tightened. The mutations are in `tools/mutations/`.
