#!/usr/bin/env python3
# Generates properties.jsonl from the table below (source of truth for the property list).
import json,os
P=[]
def p(id,title,statement,quantifier,why,anchors):
    P.append(dict(id=id,title=title,statement=statement,quantifier=quantifier,why_tests_cant=why,anchors=anchors))
S="libexactreal/src/"; H="libexactreal/exact-real/"
p("C01","Product of real numbers denotes the product",
 "If x * y returns z for two RealNumbers, then z's value is the product of the values of x and y for whatever reals the random atoms stand for, and z is in canonical form (1 is absorbed, factors sorted by identity with positive exponents, a product object has total degree at least 2 and never contains a rational factor). The only inputs on which * throws are those with a rational different from 1 on one side and a non-rational on the other.",
 "all pairs of reachable RealNumbers (rationals, random atoms, products of any number of factors and any exponents), all assignments of reals to atoms",
 "products can be arbitrarily long and the value of atoms is arbitrary; tests use a handful of random seeds",
 [S+"real_number_product.cc: Key::persist, RealNumber::operator*",S+"rational_real_number.cc: RationalRealNumber::operator*"])
p("C02","Multiplication of real numbers is commutative and associative up to object identity",
 "Whenever the products are defined, x*y and y*x are the same object, (x*y)*z and x*(y*z) are the same object, and 1*x is x; in particular every bracketing and ordering of a product of random reals yields the identical RealNumber.",
 "all triples of reachable RealNumbers","any bracketing of any number of factors; unbounded combinations",
 [S+"real_number_product.cc: Key::persist, RealNumber::operator*",S+"rational_real_number.cc: operator*"])
p("C03","Product cache lookup recognizes exactly the same product",
 "Looking up the product of two factors in the product cache finds an already existing product object if and only if that object is the product of the same atoms with the same multiplicities; lookups never confuse two different products.",
 "all pairs of factors and all stored canonical products","three-way merge comparison with many boundary cases over unbounded lists",
 [S+"real_number_product.cc: Key::operator== (138-268)"])
p("C04","Product hash is consistent",
 "The hash computed from the two factors of a product equals, modulo 2^64, the hash computed from the resulting list of atoms and exponents, including when the product is a square, so a stored product is always found again by the hash table.",
 "all pairs of factors, all ids, all exponents, with wrap-around 64 bit arithmetic","wrap-around modular arithmetic over unbounded exponents",
 [S+"real_number_product.cc: Key::Hash, MonomialsExponents, persist"])
p("C05","Exact quotient of real numbers is sound and complete",
 "x / y returns a real number q only if q * y is x again; it returns nothing only if no real number q built from the same atoms satisfies q * y = x; it throws exactly when y is a rational other than 1 and x is not that same rational object (and not covered otherwise).",
 "all pairs of reachable RealNumbers","quantifies over the non-existence of any quotient",
 [S+"real_number_product.cc: RealNumberProduct::operator/",S+"real_number.cc: RealNumber::operator/"])
p("C06","deglex is a strict total order",
 "deglex is irreflexive, transitive, and any two distinct real numbers that are not both rational are comparable; the branches of deglex marked unreachable are never reached.",
 "all pairs/triples of reachable RealNumbers","total order laws over an infinite set; std::sort has undefined behaviour if they fail",
 [S+"real_number_product.cc: RealNumber::deglex"])
p("C07","deglex is a monomial order",
 "If x precedes y in deglex then x*z precedes y*z for every real number z for which the products are defined, 1 precedes every non-rational number, and there is no infinite strictly descending deglex sequence.",
 "all triples of RealNumbers, all descending sequences","well-foundedness and compatibility are about infinitely many inputs; polynomial division relies on them for termination",
 [S+"real_number_product.cc: RealNumber::deglex",S+"element.cc: Element::truediv"])
p("C08","Module::make is insensitive to generator order",
 "Module::make of any permutation of the same generators over the same ring yields the same module, two modules are equal if and only if they have the same set of generators and the same ring, the stored basis is strictly deglex-increasing, and construction throws exactly when two generators are rational or a generator is repeated.",
 "all generator lists of any length and all their permutations","n! permutations, unbounded n",
 [S+"module.cc: Module::make, Implementation ctor, Implementation::Key"])
p("C09","span is the least common supermodule",
 "If span(m, n) succeeds its generators are exactly the union of the generators of m and n; it is independent of argument order, idempotent and is contained in every module that contains both. It fails only when the rings are incompatible or both contain different rational generators.",
 "all pairs of modules","all pairs of modules of any rank",
 [S+"module.cc: Module::span"])
p("C10","submodule is inclusion of generators",
 "m.submodule(n) holds if and only if every generator of m is a generator of n; hence it is reflexive, transitive and antisymmetric (over a fixed ring).",
 "all modules","all modules",[S+"module.cc: Module::submodule"])
p("C11","promote preserves the value or fails",
 "x.promote(M) either leaves the value of x unchanged and yields an element of M, or reports failure; it never silently changes the value.",
 "all elements and all target modules","every pair of modules, unbounded rank; the release build has no assertions",
 [S+"element.cc: Element::promote"])
p("C12","Addition of elements denotes addition of reals",
 "If x + y succeeds, its value is the sum of the values, whatever modules x and y live in; x + y == y + x and (x + y) + z == x + (y + z) when defined; it fails only if no common module exists. On failure the left operand keeps its value.",
 "all elements of all modules over ℤ, ℚ, number fields; all assignments of reals to atoms","all pairs of modules and coefficients",
 [S+"element.cc: Element::operator+=, promote",S+"module.cc: span"])
p("C13","Negation and subtraction of elements denote negation and subtraction",
 "-x has minus the value of x, x - y has the difference of the values, and x - x is the zero element.",
 "all elements","all elements of unbounded rank",[S+"element.cc: operator-, operator-="])
p("C14","Multiplication of elements denotes multiplication of reals",
 "If x * y succeeds, its value is the product of the values of x and y; the resulting module basis is in deglex order with coefficients attached to the right generators (colliding products are accumulated); multiplication is commutative, associative and distributes over addition with respect to ==.",
 "all pairs/triples of elements, all assignments of reals to atoms","all pairs of elements of unbounded rank with arbitrary collisions among generator products",
 [S+"element.cc: Element::operator*="])
p("C15","Scalar multiplication and division are exact",
 "x * s and x / s multiply/divide the value of x exactly for s an integer, rational or ring element; over ℤ they throw exactly when the result has a non-integral coefficient; division by zero throws.",
 "all elements and scalars","all elements and scalars, unbounded integers",
 [S+"element.cc: operator*=, operator/=",S+"integer_ring.cc: imul, idiv",S+"rational_field.cc: imul, idiv",S+"number_field.cc: imul, idiv"])
p("C16","Equality of elements is equality of reals",
 "If the atoms are algebraically independent (which is the library's standing assumption on random reals), x == y holds if and only if the two elements have the same real value, for elements whose comparison does not throw and whose modules do not have the number 0 as a generator; == is an equivalence relation.",
 "all pairs of elements in arbitrary modules, all algebraically independent assignments","needs all algebraically independent tuples of reals",
 [S+"element.cc: Element::operator==, promote"])
p("C17","simplify removes exactly the unused generators",
 "x.simplify() has the same value as x, its module's generators are exactly those of x with non-zero coefficient, and it is idempotent; equal elements over the same ring simplify to identical representations.",
 "all elements","all elements of unbounded rank",[S+"element.cc: Element::simplify"])
p("C18","truediv is exact when it succeeds",
 "If x.truediv(y) returns q then q * y == x (and the value of x is the value of q times the value of y); division by zero throws invalid_argument.",
 "all pairs of elements, all assignments of reals to atoms","unbounded number of division steps",
 [S+"element.cc: Element::truediv"])
p("C19","truediv terminates and is complete",
 "x.truediv(y) always terminates for y != 0 (over modules whose rational generator, if any, is 1) and returns nothing only if there is no element q over the same ring with q * y == x.",
 "all pairs of elements","termination of an unbounded loop and non-existence of a quotient",
 [S+"element.cc: Element::truediv"])
p("C20","floordiv is the floor of the quotient",
 "If x.floordiv(y) returns n for y of non-zero value then n = floor(x / y) as reals; if x is an integer multiple of y the shortcut is taken without any approximation; otherwise the refinement loop terminates whenever x / y is not an integer.",
 "all pairs of elements, all approximations consistent with the ball arithmetic contract","refinement loop over unbounded precision",
 [S+"element.cc: Element::floordiv"])
p("C21","floor and ceil are exact",
 "If x.floor() (x.ceil()) returns n then n is the floor (ceiling) of the value of x; the loop terminates for every element that is not an integer.",
 "all elements","refinement loop over unbounded precision",[S+"element.cc: Element::floor, Element::ceil"])
p("C22","Comparison of elements is the order of the reals",
 "If x < y (x > y) returns, its result is the order of the real values, and it returns for all x, y; < is a strict total order compatible with ==.",
 "all pairs of elements","refinement loop over unbounded precision",[S+"element.cc: lt, gt"])
p("C23","Comparison of real numbers is the order of the reals",
 "If x < y, x > y (against RealNumber, Arf, integers, rationals) returns, the answer is the order of the real values.",
 "all pairs of real numbers","depends on every bit pattern",[S+"real_number.cc: operator<, operator>"])
p("C24","arf(prec) has relative error at most 2^-prec",
 "For every real number x and every prec >= 0, x.arf(prec) differs from x by at most 2^-prec |x|, as documented.",
 "all real numbers (rational, random, constrained random, products), all precisions","all precisions, all digit streams",
 [S+"rational_real_number.cc: arf_",S+"random_real_number.cc: arf_",S+"constrained_random_real_number.cc: arf_",S+"real_number_product.cc: arf_",H+"real_number.hpp: arf"])
p("C25","arb(prec) / refine contain the number",
 "x.arb(prec) contains x and has prec bits of relative accuracy; refine keeps containment.",
 "all real numbers and precisions","all precisions, all digit streams",[S+"real_number.cc: refine, arb"])
p("C26","Element::arb contains the element and reaches the accuracy",
 "If x.arb(accuracy) returns a ball, then it contains the value of x (given that the generators' balls contain the generators) and has at least the requested relative accuracy; it terminates for x of non-zero value.",
 "all elements, all accuracies","refinement loop over unbounded precision",[S+"element.cc: Element::arb"])
p("C27","cmp locates a number relative to an interval",
 "x.cmp(ball) is -1 only if x is below, +1 only if x is above the ball, and 0 only if x is in the ball.",
 "all numbers and balls","all bit patterns",[S+"real_number.cc: cmp"])
p("C28","Ball comparisons are sound",
 "For two Arb balls, <, <=, >, >= return true/false only if the relation holds/fails for all points of the balls, and nullopt only if it is undetermined; == and != are negations of each other.",
 "all pairs of balls including exact and infinite radius","all balls",[S+"arb.cc: operator<, operator>, operator<=, operator>=, operator==, operator!="])
p("C29","Comparison of balls with rationals is sound",
 "For an Arb and a rational q each comparison operator returns a definite answer only if it is correct for all points of the ball; != is the negation of ==.",
 "all balls and rationals","all balls and rationals",[S+"arb.cc: operators with mpq_class"])
p("C30","Rational and integer conversions of elements are exact",
 "An element converts to a rational (integer) exactly when its value is rational (an integer) under algebraic independence of atoms, and then to its value; x == q for a rational or integer q says exactly that. (Over a number field, for modules that do not have the number 0 as a generator.)",
 "all elements","all elements",[S+"element.cc: operator optional<mpq_class>, operator optional<mpz_class>, operator==(mpq_class)"])
p("C31","Boolean conversion means non-zero",
 "bool(x) is false exactly when the value of x is zero (real numbers, and elements of modules that do not have the number 0 as a generator), under algebraic independence.",
 "all elements","all elements",[S+"element.cc: operator bool",S+"real_number.cc: operator bool"])
p("C32","unit() recognizes units",
 "x.unit() holds exactly when x has an inverse in its parent module, i.e., there is an element y of the same module with x * y = 1.",
 "all elements","existence of an inverse",[S+"element.cc: Element::unit"])
p("C33","Module::one is the number 1",
 "M.one() returns an element of M with value 1 if M contains 1, and throws otherwise.",
 "all modules","all modules",[S+"module.cc: Module::one"])
p("C34","RealNumber to double is correctly rounded",
 "double(x) is the double nearest to x, ties to even.",
 "all real numbers","all bit patterns",[S+"real_number.cc: operator double",H+"real_number.hpp"])
p("C35","Element to double is correctly rounded",
 "double(x) of an Element is the double nearest to its value.",
 "all elements","refinement loop over unbounded precision",[S+"element.cc: operator double"])
p("C36","Equal elements have equal hashes",
 "If x == y then hash(x) == hash(y), even if they live in different modules.",
 "all pairs of elements","all pairs of elements in different modules",[S+"element.cc: std::hash<Element>"])
p("C37","Default seeds are pairwise distinct",
 "Seeds created without argument are pairwise distinct for the lifetime of a process (as long as fewer than 2^32 are created).",
 "all sequences of seed creations","needs 2^32 steps to fail",[S+"seed.cc"])
p("C38","Real numbers are unique in every history",
 "At any point of any history of creating, multiplying, dividing and destroying real numbers, with arbitrary reuse of freed memory addresses, two live real numbers are == (pointer equal) if and only if they were built as the same number (same rational, same seed, same interval data, same product of atoms), and identities are never reused.",
 "all histories of operations, all address reuse patterns of the allocator","needs every interleaving of destruction and address reuse",
 [S+"real_number_base.cc",S+"real_number_product.cc: factory",S+"rational_real_number.cc: factory",S+"random_real_number.cc: factory",S+"constrained_random_real_number.cc: factory",S+"impl/real_number_base.hpp"])
p("C39","Caching of approximations is transparent and bounded",
 "For every sequence of arf calls with arbitrary precisions, each call returns exactly what an uncached computation would return and at most 130 approximations are kept per number.",
 "all sequences of arf calls","unbounded call sequences",[S+"real_number.cc: RealNumberBase::arf"])
p("C40","Random reals are stable, in [0, 1] and approximations are prefixes",
 "For every seed whose digit stream contains a 1: arf(prec) lies in [0, 1], it never exceeds the number, and increasing prec only appends binary digits (arf is monotone in prec and the approximations are nested).",
 "all digit streams and precisions","all digit streams",[S+"random_real_number.cc: arf_"])
p("C41","Random reals in an interval stay in the interval",
 "RealNumber::random(a, b) has a value in [a, b] for all a < b, and throws when a >= b.",
 "all pairs of dyadic numbers, all random bits","all intervals and all random draws",[S+"constrained_random_real_number.cc: random(lower, upper, seed)"])
p("C42","Seeds determine random numbers",
 "random(seed) and random(a, b, seed) return the same object as long as it is alive and a number with identical approximations after it has been destroyed; the result depends on the seed and interval only, not on the history.",
 "all histories","all histories",[S+"random_real_number.cc",S+"constrained_random_real_number.cc"])
p("C43","Serialization of real numbers round-trips",
 "Loading a serialized real number yields a number with the same kind, atoms and exponents; loading it while the original is alive yields the original object, in any order of memory addresses and ids.",
 "all real numbers, all address and id assignments at load time","all address/id orders",[S+"real_number.cc: save, load",S+"real_number_product.cc: save, load",H+"cereal.hpp"])
p("C44","Serialization of elements and modules round-trips",
 "Loading a serialized element yields an element with the same value.",
 "all elements, all states of the loading process","depends on the id order in the loading process",[H+"cereal.hpp: Element, Module"])
p("C45","A failing in-place scaling leaves the element unchanged",
 "If x *= q or x /= q throws, x keeps its value.",
 "all elements over ℤ, all rationals","all coefficient patterns",[S+"integer_ring.cc: imul, idiv",S+"element.cc: ElementImplementation::operator*="])
p("C46","RationalField::floor is the floor",
 "RationalField::floor(q) is the largest integer not exceeding q.","all rationals","all rationals",[S+"rational_field.cc: floor"])
p("C47","Expression templates evaluate like plain arithmetic even under aliasing",
 "Evaluating an arithmetic expression over Arf/Arb variables into a variable gives the same result as evaluating it functionally on the old values, even if the assigned variable occurs in the expression, with the precision and rounding attached to the innermost enclosing call.",
 "all expressions, all variable aliasing patterns","unbounded nesting and aliasing",[H+"yap/assign_transformation.hpp",H+"yap/arf_assign_transformation.hpp",H+"yap/arb_assign_transformation.hpp",H+"yap/params_transformation.hpp"])
p("C48","Arf mantissa/exponent/shift/floor/ceil/logb are exact",
 "For finite x: x = mantissa·2^exponent with odd mantissa (or 0); Arf(m, e) has value m·2^e; << and >> scale by powers of two exactly and are inverse; floor/ceil are exact; 2^logb <= |x| < 2^(logb+1).",
 "all dyadic numbers","all dyadic numbers",[S+"arf.cc"])
p("C49","rationalCoefficients determine the coefficients",
 "rationalCoefficients lists for each coefficient its rational coordinates in the power basis padded to the degree of the field; the length is rank times degree and the element can be reconstructed from it.",
 "all elements over ℤ, ℚ, number fields","all elements",[S+"element.cc: rationalCoefficients"])
p("C50","Mixing number fields never produces wrong values",
 "Operations on elements over different number fields either throw or produce the right value; they succeed when one of the fields is ℚ.",
 "all pairs of number fields","all pairs of fields",[S+"number_field.cc: compositum, coerce",S+"element.cc: promote"])
p("C51","Concurrent creation yields distinct identities",
 "Under every interleaving of threads creating real numbers, their identities are distinct.",
 "all interleavings of any number of threads","all schedules",[S+"real_number_base.cc: next"])
p("C52","random(d) rounds to d",
 "RealNumber::random(d) for a finite double d yields a real number whose nearest double is d.",
 "all finite doubles, all random bits","2^64 doubles times random bits",[S+"constrained_random_real_number.cc: random(double, seed)"])
p("C53","Comparison of an element with a generator",
 "x == r for an element x and a real number r answers whether the value of x is r when r is among the generators of x's module (and the number 0 is not), and throws otherwise (for non-zero x).",
 "all elements and real numbers","all elements",[S+"element.cc: operator==(const RealNumber&)"])
p("C54","Exponent arithmetic does not overflow below degree 2^31",
 "As long as the total degree of the involved products stays below 2^31, multiplication, division, hashing and deglex comparison perform no signed overflow (undefined behaviour) and agree with unbounded arithmetic.",
 "all products","needs degree 2^31",[S+"real_number_product.cc"])
p("C55","Modules are unique in every history",
 "At any point of any history of creating and destroying real numbers and modules, with arbitrary address reuse, two live modules are the same object if and only if they have the same ring and the same set of generators; Module::make throws exactly when a generator is repeated or two are rational; a live module never changes.",
 "all histories","needs every interleaving of destruction, address reuse and id order",[S+"module.cc: make, factory",H+"module.hpp"])
p("C56","The assertions of refine never fail",
 "In a build with assertions, x.refine(ball, prec) for a ball that contains x, x.arb(prec), and the comparisons x < y, x < a never terminate the process through a failing assert: x.cmp(x.arb(prec)) is 0, and the results are the ones of a release build.",
 "all real numbers, balls and precisions","depends on every bit pattern of every digit stream, and on the length of the history of refinements",[S+"real_number.cc: refine, arb, cmp, operator<"])
p("C57","Random numbers with different seeds are different and can be approximated and compared",
 "RealNumber::random(s) and RealNumber::random(t) with s != t are different real numbers strictly between 0 and 1; arf(prec) returns for every precision; comparing the two, and comparing one with an integer or floating point number, returns and orders them correctly (for approximations that are not exactly half way, see C23).",
 "all 2^32 seeds, all precisions","2^32 seeds, and the loop searching for the first non-zero digit is not bounded by the code",[S+"random_real_number.cc: arf_, rng",S+"real_number.cc: operator<"])
p("C58","Random generators are linearly independent",
 "An element of a module generated by 1 and distinct random numbers is zero as a real number only if all its coefficients are zero; so x == 0 answers whether the number is zero, and sign, floor and conversion to double return.",
 "all seeds, all coefficients","needs all linear relations of all digit streams",[S+"element.cc: operator==, operator<, floor, arb",S+"random_real_number.cc",S+"constrained_random_real_number.cc: random"])
p("C59","Floating point numbers with infinities are totally ordered, and doubles embed into them",
 "For values of Arf other than NaN (infinities included) ==, !=, <, >, <=, >= between two Arfs and between an Arf and an integer on either side are the order of the extended real line; equal values have equal std::hash; negation and abs are the ones of the extended reals; every double (infinities and NaN included) survives the conversion to Arf and back; the conversion to double rounds to nearest and is monotone; floor and ceil return exactly for the finite values.",
 "all pairs of values of Arf (finite ones of any size), all doubles","infinitely many floating point numbers, all pairs",[S+"arf.cc: operator<, operator==, operator-, abs, operator double, floor, ceil, hash",H+"arf.hpp: boost::totally_ordered"])
p("C60","A floating point number is determined by what is printed for it",
 "Printing an Arf writes non-integers and large numbers exactly, so two different values are never printed alike.",
 "all pairs of values of Arf","infinitely many floating point numbers, all pairs",[S+"arf.cc: operator<<",H+"arf.hpp: operator<<"])
p("C61","Printing an element writes each of its terms once",
 "operator<< of an element returns and writes a sum which, read as an arithmetic expression, consists of the non-zero terms of the element, each exactly once: so it has the value of the element, positive terms come first, terms of the same sign are sorted by the value of their generators, and two different elements of a module are never written alike (for generators that are written differently).",
 "all elements of all modules over all coefficient rings","the summands go through a std::set whose order is a comparison of real numbers by approximation; all coefficients and generators matter",[S+"element.cc: operator<<",S+"element.cc: operator<"])
p("C62","Approximations can be asked for from several threads",
 "arf (and everything that uses it: comparisons, conversion to double, floor, printing) is const. So any number of threads may call it at the same time, on the same or on different numbers, without a data race, and every call returns what it would return in a single thread.",
 "all sets of threads, all sequences of calls with all precisions, all contents of the caches, all interleavings of the accesses to the mutable members","interleavings; a data race usually has no visible effect in a test run",[S+"real_number.cc: RealNumberBase::arf",S+"impl/real_number_base.hpp: arf54, arf64, large",S+"real_number_product.cc: arf_",S+"constrained_random_real_number.cc: arf_"])
p("C63","Balls with infinities are compared on the extended real line",
 "The operators <, <=, >, >=, ==, != of two balls, or of a ball and an integer of any built-in type, answer true if the relation holds for all points of the balls, false if it holds for none, and give no answer otherwise; this includes infinite midpoints and radii, for points on the extended real line. Exact balls including infinities are always comparable; nothing is answered for an indeterminate. Integers of every built-in type are converted without a change of their value on every platform. The named constants, negation, is_finite, is_exact and equal are consistent with that.",
 "all balls with all midpoints (finite, infinite, NaN) and all radii (finite, infinite), all integer types, all of their values","all pairs of balls and all corner cases with infinities",[S+"arb.cc: to_supported_integer, operator<, operator==, operator-, equal, pos_inf, neg_inf, zero_pm_inf, indeterminate",H+"arb.hpp: Comparison Operators"])
p("C64","< of real numbers is a strict weak order that can be used for sorting",
 "x < x is false; x < y and y < x are never both true; x < y and y < z imply x < z; numbers that are not related by < are equal, so that not being related is transitive and <=, >=, > (derived from <) are the corresponding relations. In particular RealNumber can be sorted and be used as a key of ordered containers.",
 "all real numbers x, y, z (and all elements for irreflexivity and asymmetry), all random digits, all iterations of the refinement",
 "The law quantifies over all triples of numbers and all digit sequences; answers depend on the precision at which the balls first separate.",
 [H+"real_number.hpp:57-69", S+"real_number.cc:99-113", S+"real_number.cc:63-83", H+"element.hpp:64-84", S+"element.cc:87-111"])
p("C65","Constructors and conversions of elements keep the value",
 "Element(module, coefficients) is the linear combination of the generators with these coefficients, in the order of basis(), and throws if their number is wrong; operator[] gives the coefficients back; gen(i) is the i-th generator, zero() and Element() are zero, Element(c) is the number c; converting an element to a larger coefficient ring (integers to rationals or a number field, rationals to a number field) keeps its value and its generators, and converting in two steps is converting in one.",
 "all modules, all lists of coefficients, all indices, all elements","all coefficients and generators",[S+"element.cc:113-166",S+"element.cc: operator[]",H+"element.hpp: constructors",S+"module.cc: gen, zero"])
p("C66","Programs that use the library compute with the right numbers",
 "In a program that makes any calls (RealNumber::rational and random, products and quotients of real numbers, modules and their generators, elements from coefficients, sums, differences, products, negation, scalar multiplication and division, promote, simplify, truediv, one, zero), where results are used as arguments of later calls, operands may be the same variable, and exceptions are caught, every variable stands at every time for the real number that the program has computed in exact arithmetic: a call that returns has assigned the exact result to its variable and nothing else has changed, a call that throws has changed nothing. The answers of ==, bool, and the conversions to rationals and integers about the variables are the right ones for these numbers.",
 "all programs (sequences of calls of any length with any arguments), all coefficient rings, all values of the random numbers","all histories of calls: a value could be damaged by one call and be used by a later one",[S+"element.cc",S+"module.cc",S+"real_number.cc",S+"real_number_product.cc",S+"rational_real_number.cc"])
p("C67","Debug and release builds give the same results",
 "A program that uses the library (as in C66) runs the same whether the library has been built with assertions or without (NDEBUG, LIBEXACTREAL_NOASSERT): every call has the same outcome and leaves the same variables; so no assertion of the library fails in a program that only makes calls of the documented interface. Queries (==, <, floordiv, truediv and comparison with real numbers) agree as well. If in addition no division threw invalid_argument, then the program also runs the same when argument checks have been disabled (LIBEXACTREAL_NOCHECK).",
 "all programs (sequences of calls of any length with any arguments), all coefficient rings, all combinations of build and runtime switches","tests run in one build; an assertion that can fail for one history, or that guards a wrong result, shows in no finite set of runs",[S+"util/assert.ipp:55-111",S+"element.cc",S+"module.cc"])
p("C68","Calls of a program return or throw",
 "In a program that uses the library (as in C66), and that makes no rational number that is not positive, every call returns or throws a standard exception: it does not run forever and has no undefined behaviour. In particular truediv() ends for all operands.",
 "all programs (sequences of calls of any length with any arguments), all coefficient rings","non-termination and undefined behaviour for some history is not visible in finitely many runs",[S+"element.cc:418-465",S+"module.cc:199-214"])
p("C69","Objects behave like values and own their memory",
 "Arf, Arb and Element objects behave like variables that share nothing: after any sequence of constructions, copies, moves, assignments (also of an object to itself), swaps, in-place operations with any operands (also x += x), and destructions, every object has the value that this sequence says, an operation changes no other object, no memory is freed twice or used after it was freed, and every allocated block belongs to exactly one object, so nothing is allocated after all objects are destroyed. Moving out of a number leaves a number; moving out of an element leaves an element that can be assigned to and destroyed.",
 "all histories of objects, all results of the allocator that are not in use, all values of small and large size","all histories and all aliasing patterns; a wrong special member function shows as memory corruption only later and only for large mantissas",[S+"arf.cc:60-126",S+"arb.cc:61-110,284-315,329-331",H+"element.hpp:687",S+"element.cc:208-221"])
p("C70","The Python ring ExactReals(K) is the polynomial ring over K in the random numbers",
 "For elements of ExactReals(K) that a Python program makes from random elements and elements of K with + - * / and simplification, + - * and unary minus and multiplication by elements of K never raise, and the result is the sum, difference, product of the polynomials in the random numbers; a random element is a new variable, the coercion of c in K is the constant c; every polynomial over K is the value of such an element and there are no others; == says whether two elements are the same polynomial, and so (if no algebraic relation holds between the random numbers) the same real number. rational(q) is documented to be outside of this: rational(p) and rational(q) for p != q cannot be added or compared.",
 "all base rings K (integers, rationals, number fields), all elements that a program can make, all histories of operations","quantifies over all expressions and all polynomials; tests only see a few",["pyexactreal/src/pyexactreal/exact_reals.py: _add_, _sub_, _mul_, _neg_, _lmul_, _rmul_, _richcmp_, random_element, rational, CoercionExactReals"])
p("C71","Division and divisibility in ExactReals(K)",
 "x / y for y != 0 returns after finitely many steps: the element z with z * y == x, or NotRepresentableError, the latter exactly if there is no such element in the ring; division by zero raises. x.is_unit() says whether x has an inverse in the ring, ~x is that inverse and raises NotRepresentableError exactly if x is not a unit. x.divides(y) says whether y is a multiple of x (also when x is zero). If x.gcd(y) returns an element it is a greatest common divisor, and NotImplementedError is raised exactly if neither of x and y divides the other.",
 "all pairs of elements of the ring over all base rings","non-existence of a quotient in an infinite ring cannot be tested",["pyexactreal/src/pyexactreal/exact_reals.py: _div_, __invert__, is_unit, divides, gcd","pyexactreal/src/pyexactreal/cppyy_exactreal.py: unwrap_binary_optional"])
p("C72","The comparison operators of ExactReals(K) agree with each other and with the order of the reals",
 "If no algebraic relation holds between the random numbers then x < y, x <= y, x == y, x != y, x > y, x >= y return for all elements of the ring. Exactly one of <, ==, > holds and <=, !=, >= are the negations of >, ==, <. x < y and x > y say how the real numbers compare. abs(x) is the absolute value.",
 "all pairs of elements, all values of the random numbers, all precisions that the comparison reaches","all reals and unbounded refinement",["pyexactreal/src/pyexactreal/exact_reals.py: _richcmp_, __abs__"])
p("C73","Conversion of elements of ExactReals(K) to algebraic numbers",
 "AA(x) and QQbar(x) return exactly the value of x if that is an algebraic number, whatever the module x lives in, and raise TypeError if it is not.",
 "all elements of the ring over all base rings","transcendence of a value cannot be observed by tests",["pyexactreal/src/pyexactreal/exact_reals.py: _algebraic_"])
p("C74","Python expressions keep their operands alive",
 "In Python, a variable that holds an unevaluated expression of Arb or Arf numbers and Python numbers evaluates to the value of the expression as it was written, no matter which variables have been reassigned or deleted since, when the garbage collector runs and how memory is reused; the evaluation never reads an object that has been collected.",
 "all programs of creations, arithmetic operations, evaluations, assignments and deletions, all interleavings with the garbage collector, all choices of addresses","dangling references show at the mercy of the collector and of the allocator only",["pyexactreal/src/pyexactreal/cppyy_exactreal.py: Yap, enable_yap, enable_arithmetic","libexactreal/exact-real/cppyy.hpp: add, sub, mul, truediv, neg, eval","libexactreal/exact-real/yap/arb_expr.hpp: ArbExpr"])
p("C75","Programs that ask for the order of numbers get consistent answers",
 "In a program that builds elements with any sequence of calls, the sign of every element is reported correctly, and comparisons, floor, ceil, floordiv and the conversion to double of its elements return and are the ones of the real numbers that the program has computed (up to the errors of C20-C22 and C35).",
 "all programs, all lengths, all values of the random numbers that are algebraically independent","a program can build arbitrarily close numbers in arbitrarily many steps",["libexactreal/src/element.cc: operator<, operator>, floor, ceil, floordiv, operator double"])
p("C76","Balls and their bounds enclose each other",
 "The pair of bounds that an Arb is converted to encloses all points of the ball and is not much wider than the ball; an Arb that is constructed from a pair of bounds contains every number between them at every precision, and is exactly that interval if nothing needs to be rounded; converting a ball to bounds and back never loses a point.",
 "all balls, all pairs of bounds, all precisions","there are infinitely many balls and precisions; an error in the last place is invisible in most of them",["libexactreal/src/arb.cc: Arb(const std::pair<Arf, Arf>&, prec), operator std::pair<Arf, Arf>"])
p("C77","Archives from anywhere",
 "An archive that describes a real number (a rational, a random number, a random number with leading digits, or a product of distinct random numbers with positive exponents and total degree at least two), whether it was written by the library or not, is loaded as that number: as the existing object if there is one, at any point of a history; two archives that describe the same number yield the same object. An archive of an element is accepted exactly if its generators are distinct and at most one is rational. Everything the library writes is such an archive; anything else is rejected.",
 "all archives, all histories before and between loads, all assignments of addresses and identities","archives and histories are unbounded; tests load what they have just written",["libexactreal/exact-real/cereal.hpp: load","libexactreal/src/real_number.cc: RealNumber::load","libexactreal/src/real_number_product.cc: RealNumberProduct::load","libexactreal/src/constrained_random_real_number.cc: load"])
p("C78","Numbers survive being written as text",
 "What is written to an archive for an integer, a rational, an Arf (including infinities and NaN) or an Arb is read back as exactly this number; different numbers are written differently.",
 "all integers, rationals, floating point numbers and balls","there are infinitely many numbers; the base is guessed from the first digits when reading",["libexactreal/exact-real/cereal.hpp: save_minimal, load_minimal, save(Archive&, const Arf&), load(Archive&, Arf&), save(Archive&, const Arb&), load(Archive&, Arb&)"])
p("C79","Printing real numbers and modules",
 "What is printed for a rational real number is the rational in lowest terms; for a random number it is ℝ(t…) where t is a decimal number that agrees with the number to the digits shown; for a random number in an interval, ℝ(A + BpE) denotes A + B * 2^E. What is printed for products and modules identifies them up to random numbers that are printed alike.",
 "all real numbers and modules, all precisions of the output stream","there are infinitely many numbers, and the tests compare the output of a handful",["libexactreal/src/real_number.cc: operator<<","libexactreal/src/random_real_number.cc: operator>>","libexactreal/src/constrained_random_real_number.cc: operator>>","libexactreal/src/real_number_product.cc: operator>>","libexactreal/src/module.cc: operator<<"])
p("C80","Several numbers and elements in one archive",
"Everything that a program writes to one archive, at any times, numbers and elements in any order, is read from the archive as what it was when it was written: the same number, or the element with the same ring, generators and coefficients. This holds whatever the writing program creates and destroys between its calls, and whatever the reading program does between its calls; an object that exists already in the reading process is the one that is read. Writing never fails.",
"all sequences of writes to an archive interleaved with arbitrary histories of the writing process, and of reads interleaved with arbitrary histories of the reading process, with arbitrary reuse of addresses",
"the failure needs an allocator that reuses the address of a destroyed object between two writes; tests write objects that are alive",
["libexactreal/exact-real/cereal.hpp: save, load of shared_ptr<const RealNumber>, shared_ptr<const Module>, Element"])
p("C81","Random reals with infinite bounds",
"RealNumber::random(a, b) for bounds that may be infinite or NaN returns a number between a and b if a < b, in builds with and without assertions, and throws if a >= b or one of them is NaN.",
"all pairs of Arf including infinities and NaN, all random draws, builds with and without assertions",
"the result depends on the generator; all intervals",
[S+"constrained_random_real_number.cc: RealNumber::random(const Arf&, const Arf&, seed)"])
p("C82","Programs in a running process",
"A program that computes with elements and real numbers gets the exact results (as in C66) in every process: whatever other threads create, load, copy, drop and destroy before, between and during its calls, and however addresses are reused. No call follows a pointer to a destroyed object, calls return or throw, and comparisons of elements, of references to numbers, and with zero are right.",
"all programs over the operations of elements and numbers, all values of the random numbers, all histories of the process before, between and inside of calls (at the granularity of factory calls and reads), all memory allocators",
"the failures need other threads to destroy or create objects at a certain step of a call and an allocator that reuses an address",
[S+"element.cc: operator+=, operator*=, operator==, promote, simplify, truediv",S+"module.cc: make, span, submodule, gen, zero, one",S+"real_number_product.cc: operator*, operator/","libexactreal/exact-real/element.hpp","libexactreal/exact-real/module.hpp"])
p("C83","Memory is reclaimed",
"Nothing leaks and nothing needed is lost: every call gives the caller exactly one reference, to its result; numbers and modules that are reachable from references that somebody holds are never destroyed, moved or changed, in whatever order the others are destroyed; destruction comes to an end, the final state does not depend on the order, and then the living numbers and modules, and the entries of the factories, are exactly those reachable from references (so nothing is left when all references are gone).",
"all histories of a process (calls, loads, copies and drops of references), all orders in which unreferenced objects and stale factory entries are removed",
"leaks and premature destruction only show up for certain orders of destruction in long histories; absence of reference cycles is a statement about all object graphs",
[S+"real_number_product.cc: factory, Key",S+"constrained_random_real_number.cc: factory, random",S+"random_real_number.cc: factory",S+"rational_real_number.cc: factory",S+"module.cc: factory, make, Module::Implementation"])
p("C84","Comparisons, rounding and approximation in a running process",
"In a running program, where other threads create, share and destroy numbers and modules between any two steps of a question, the answers to <, >, floor, ceil, conversion to double, floordiv and arb are those for the numbers the program has computed: signs are always right, the others within the documented relative error; every question that must return does return; the answer does not depend on other threads nor on where objects are placed in memory; and asking changes no variable, so that the program can go on.",
"all programs, all histories and schedules of the process before, during and after each question, all placements of objects in memory",
"an answer is computed from many approximations taken at different times; a test sees one schedule and one placement of the objects",
[S+"real_number.cc: refine, arb, operator<",S+"element.cc: arb, lt, gt, floor, ceil, operator double, floordiv, operator==",S+"random_real_number.cc: arf",S+"constrained_random_real_number.cc: arf",S+"real_number_product.cc: arf"])
p("C85","Several threads compute in one process",
"When several threads of a program compute with shared numbers and modules, each with its own variables, and copy variables from each other while they are not in a call, then at any time and for every schedule of their atomic steps the variables of every thread hold the real numbers that the calls that have returned, in the order of their return, say. Calls in progress have no visible effect yet. No thread waits for another one: wherever the other threads are stopped, a thread that is scheduled alone finishes its call. A call that is over has returned or thrown (but for the exceptions of C30 and C66).",
"all programs of any number of threads, all interleavings of their steps, all histories of the process before and in between",
"the number of interleavings is unbounded, and a test runs one of them; a wrong interleaving leaves a wrong number without any visible failure",
[S+"real_number.cc: factories",S+"external/unique-factory/unique_factory.hpp: get",S+"module.cc: make",S+"element.cc: all operators"])
p("C86","Answers to several threads in one process",
"When several threads compute and ask questions (comparisons, floor, ceil, double, floordiv, arb) at the same time, the answer each of them gets is an answer for the values of its variables, the same for all schedules, with the right sign and within the error bounds of the single questions; whatever the others do, a thread that is scheduled alone gets its answer.",
"all programs of any number of threads, all interleavings of their steps",
"the number of interleavings is unbounded and an answer is computed from approximations taken at many points of the schedule",
[S+"real_number.cc: refine, arb, operator<",S+"element.cc: arb, lt, gt, floor, ceil, operator double, floordiv, operator=="])
p("C87","Binary archives: complete files, and files that end anywhere",
"What a program has written to a binary archive (with cereal 1.3.1 or later) is read from the bytes of the file as it was written, whatever follows. If the program that writes is killed at any time, so that the file is an arbitrary prefix of what was to be written, then everything that is complete in the file is read as it was written, the first call for something incomplete throws cereal's exception, and whatever the reading program had before is unchanged and still unique; it can go on and read another file. An incomplete number or element is never taken for a complete one.",
"all programs that write and read, all histories before and between the calls, all positions at which the file ends",
"every byte of every file is a possible end, the reader is interrupted inside nested constructors in a state that no complete run goes through, and damage done to the tables of unique numbers would show up only later",
[H+"cereal.hpp: save, load for RealNumber, Module, Element, Arf, mpz_class, mpq_class",S+"real_number.cc: RealNumber::save, RealNumber::load",S+"rational_real_number.cc: save, load",S+"random_real_number.cc: save, load",S+"constrained_random_real_number.cc: save, load",S+"real_number_product.cc: save, load"])
p("C88","Precision grows only as far as the numbers require",
"Comparisons, rounding and approximations return before their precision exceeds what is needed to tell the numbers apart: the number of times the precision is doubled is bounded by the logarithm of the quotient of the size of the numbers and their difference (for elements, of the size of the terms of a sum and the sum, to make up for cancellation). The answer does not depend on any bit of the random numbers, or of the library of balls, beyond that precision. In particular, for numbers of at most 2^20 generators that differ in the first 2^29 bits no precision overflows a long.",
"all real numbers and elements, all random numbers, all lawful libraries of balls",
"the effort depends on how close numbers are to each other, and on cancellation in sums with arbitrarily many terms; tests can only measure samples, and a loop that runs too far still gives the right answer",
[S+"element.cc: arb, lt, gt, floor, ceil, floordiv, operator double",S+"real_number.cc: operator<, operator>, refine, arb",S+"real_number_product.cc: arf"])
p("C89","Squares in the Python ring",
"x.is_square() for an element x of ExactReals(K) is right whenever it answers: True exactly if x is the square of an element of the ring, not just of an element of K. It answers exactly for the elements of K (for the others, NotImplementedError is raised).",
"all elements of ExactReals(K) that can be made with the operations of the ring, K the integers, the rationals or a number field",
"the answer False is a statement about all elements of the ring, with any number of random numbers and any degree",
["pyexactreal/src/pyexactreal/exact_reals.py: is_square, _integer_, _rational_, _algebraic_"])
p("C90","No overflow of longs in the approximations",
"Precisions, numbers of digits and exponents, which the code computes with longs, do not overflow in comparisons of real numbers and of elements (also with floating point numbers and rationals), in approximations of elements, in conversions to double, and in floor, ceil and floordiv, so the results are those of the computation with unbounded integers: for numbers between 2^-2^60 and 2^2^60 with at most 2^31 random factors, as long as the precision stays below 2^60 bits; in particular comparisons, floor, ceil, floordiv and conversions to double of elements that cancel or agree in at most 2^29 bits return without overflow. Numbers in intervals that are as small as 2^-2^63 do overflow (undefined behaviour). The extra bits that are computed as ceil(log2(.)) in floating point are the integers they should be, for products of up to 2^31 factors and modules of rank up to 2^32.",
"all well formed numbers and elements of that size, all coefficient rings, all digits of the random numbers",
"needs astronomical exponents or precisions to fail, and undefined behaviour is not observable reliably",
[S+"real_number.cc: refine, arb, operator<",S+"element.cc: arb, lt, floor, ceil",S+"real_number_product.cc: arf_",S+"random_real_number.cc: arf_",S+"constrained_random_real_number.cc: arf_"])
p("C91","Comparisons of balls in Python",
"In Python, a comparison of balls (and of balls and integers, in either order) returns True if the relation holds for all numbers in the balls, False if it holds for none, and raises PrecisionError otherwise (and for every comparison with an indeterminate). Hence a program that looks at balls only through comparisons, such as sorted, min, max or bisect, and that does not raise, returns what it would return for any exact numbers in the balls; a list that sorted returns is sorted for every choice of numbers in the balls.",
"all balls including infinite ones, all integers of any type, the six operators, all programs that only compare",
"quantifies over all points of the balls, all choices of numbers and all programs",
["pyexactreal/src/pyexactreal/cppyy_exactreal.py: enable_optional, PrecisionError",S+"arb.cc: operator<, operator>, operator<=, operator>=, operator==, operator!="])
p("C92","Approximations over number fields are right in every history",
"Approximating an element with coefficients in a number field computes more digits of the generator of the field, which all elements over the field share, so the balls of its coefficients depend on what was approximated before. Still, whatever was computed before: arb() has the requested accuracy; comparisons, floor, ceil, floordiv and the conversion to double are as right as in C20-C22 and C35 (right if the balls of the generators contain the generators), so that asking twice gives the same answer; elements that compare equal have the same hash; and each of these returns after a number of iterations that does not depend on the history.",
"all elements, all precisions to which the field has been refined before, before and in the course of the call",
"the state of the field depends on the entire history of the process; a test sees one history",
[S+"arb.cc: Arb::Arb(const renf_elem_class&, prec)",S+"number_field.cc: NumberField::arb",S+"element.cc: Element::arb, lt, floor, ceil, floordiv, operator double, hash"])
p("C93","Integers, floats and hashes of elements of the Python ring",
"In ExactReals(K): ZZ(x) and QQ(x) succeed exactly for the elements that are an integer or a rational constant, however they were computed, and return it; the way from K into the ring and back is the identity. x // y is n whenever x = n*y and y is not zero, in particular x // x == 1, without any approximation; x // y returns for all y != 0, floor, ceil and float return for all x; floor and ceil of integers are exact. (x*y) // y and x.floor() agree (for integers x, and if the balls of the generators contain the generators; otherwise up to one if x is moderate). Equal elements have the same hash, e.g., hash(x + 1 - 1) == hash(x) (with the same proviso). an_element() behaves like zero.",
"all elements of the ring that a program can make, over the integers, the rationals and any number field",
"quantifies over all histories of computations in the ring and all random numbers",
["pyexactreal/src/pyexactreal/exact_reals.py: ExactRealElement._integer_, _rational_, _floordiv_, floor, ceil, __float__, __hash__, ExactReals.an_element",H+"cppyy.hpp: optional_integer, optional_rational"])
p("C94","ExactReals(K) is a domain of characteristic zero with all ring identities",
"In Python, evaluating an expression of +, -, *, negation, integer constants and integer multiples in elements of ExactReals(K) never raises; two expressions that are equal in every commutative ring always compare == True, and for expressions in distinct random elements == returns True only for such identities. What the parent says about itself is right: is_integral_domain() is True and a product is zero only if a factor is, common factors can be cancelled, and (x*y)/y returns something equal to x; characteristic() is 0 and no non-zero integer becomes zero; is_field() is False and random elements are not units, so ~x raises NotRepresentableError. some_elements() returns the nine elements it documents.",
"all expressions of any size, all elements of the ring that can be made, all integers, all base rings and all random numbers",
"quantifies over all expressions, all identities of commutative rings and all elements",
["pyexactreal/src/pyexactreal/exact_reals.py: _add_, _sub_, _mul_, _neg_, _lmul_, _div_, __invert__, is_unit, some_elements, characteristic, is_field, is_integral_domain"])
p("C95","Random numbers made from doubles give back the double",
"double(RealNumber::random(d)) == d; the element that has this number as its only generator, with coefficient 1, converts to the double d as well, i.e., float(ExactReals(K).random_element(d)) == d in Python, and the conversion returns; what is printed for the number starts with d (unless d is 0) and contains no correction [~...]. For doubles a < b, double(RealNumber::random(a, b)) and the conversion of the element with this generator, if it returns, are in [a, b]. (The two doubles of largest absolute value are excluded, see C52.)",
"all finite doubles other than the largest and the smallest one, including zero, powers of two and subnormal doubles; all random digits and seeds; all base rings",
"2^64 doubles times all sequences of random digits; the conversion rounds twice, so that near misses are a matter of single bits",
[S+"constrained_random_real_number.cc: random(double, seed), arf_, operator>>",S+"real_number.cc: operator double",S+"element.cc: operator double","pyexactreal/src/pyexactreal/exact_reals.py: random_element, __float__"])
p("C96","How many generators results have",
"The rank of span(m, n) is the sum of the ranks less the number of generators in common, and a submodule has no larger rank (and the same generators if it has the same rank). The rank of the module of x + y is the sum of the ranks less the generators in common; that of x * y is at most the product of the ranks, or x or y itself is returned if it is zero. After simplify() the rank is the number of non-zero coefficients, and no element that compares equal has a smaller rank; equal elements have the same generators once they are simplified.",
"all modules and elements over the three base rings",
"quantifies over all modules and elements; a generator too many or twice in a module changes no value",
[S+"module.cc: span, submodule, rank, basis",S+"element.cc: operator+=, operator*=, simplify, operator=="])
p("C97","Results involve only the random numbers of their operands",
"After any program, a random number occurs in the generators of an element (or in a real number) only if it has been drawn by the program and has flowed into this variable through the operands of the calls that assigned to it: x * y, x + y, truediv and so on bring in only random numbers of x and y, a quotient of real numbers only those of the dividend, scalar operations and simplify none, and calls that throw none at all. What can be observed (approximations, comparisons, floor, ceil, floordiv, the conversion to double, hashes, and the number of iterations that they take) depends only on the digits of the random numbers that occur: changing the seeds of all the others changes nothing. Conversely, the value of an element really depends on each random number that occurs in a generator whose coefficient is not zero, so that after simplify() exactly those occur on which the value depends.",
"all programs of any length, all variables, all random numbers and all ways to replace those that do not occur; the three base rings",
"quantifies over all histories and over pairs of worlds (non-interference); shared state such as caches and factories could leak between unrelated numbers",
[S+"element.cc: all arithmetic and comparison operators",S+"real_number_product.cc: operator*, operator/, arf_",S+"module.cc: span, make",S+"real_number.cc: refine, arb, operator<"])
out=os.path.join(os.path.dirname(__file__),"..","properties.jsonl")
with open(out,"w") as f:
    for x in P: f.write(json.dumps(x,ensure_ascii=False)+"\n")
print(len(P))
