# Reading notes (working file)
Paths relative to /repo/libexactreal. Findings = places where the code contradicts the documented property.

F1  real_number.cc:63-77 refine: radius 2^(exp-prec-2) (exp = arf exponent of midpoint, |mid| in [2^(exp-1),2^exp)), but
    arf(prec) only guarantees error <= 2^-prec|x|  (rational: half ulp at prec bits = 2^(exp-prec-1) = 2*radius; random: truncation of
    prec+1 digits, err < 2^(exp-prec-1) = 2*radius). So arb(prec) need NOT contain x. header docs real_number.hpp:156-190 even show it:
    1/3 arb(3) = 0.3125+-0.0157.
F2  => RealNumber::operator<(Arf/mpz/RealNumber) real_number.cc:99-152 wrong: rational(41/2) < 21 returns false; rational(1/3) < Arf(0.34..) false
    (loop starts with prec=2: 41/2 -> 24 +- 2). rational(21) < 22 is false too (arb_ge 22>=22).
F3  cmp (real_number.cc:49-61) returns 0 for rational(1+2^-100) vs [0,1]. (-1/+1 sound for rationals since rounding is monotone)
F4  arb.cc(file line = 258 in src/arb.cc: operator!=(mpq)) returns `lhs == num`: same as operator==.
F5  rational_field.cc:49 floor uses mpz truncating division: floor(-1/2)=0.
F6  RealNumber::operator double = arf(54) then to 53 bits: double rounding; 1+2^-53+2^-80 -> 1 instead of 1+2^-52.
F7  integer_ring.cc:62-86 imul/idiv(mpq) mutate before throwing; element left corrupted: {3} *= 5/2 -> throws, leaves {15}.
F8  promote (element.cc:855-897) silently drops nonzero coefficient of a generator that sorts before a remaining generator of the target.
F9  cereal.hpp:187-210,299-319: Element load: Module::make sorts basis by deglex (ids); coefficients not permuted. If ids order differs at load (generator
    died & recreated, or other process) the value is changed.
F10 element.cc:469 floordiv: 0.floordiv(0) = 0; x.floordiv(0), x != 0: `!(div != 0)` tests has_value -> divides by exact zero -> NaN -> arf_get_fmpz abort.
F11 generator rational(0): bool(x) true while x == 0 true; arb() loops forever.
F12 unit(): ignores generator value: Z-module{2}: 1*2 unit; Z-module{1/2}: 2*(1/2)=1 not unit.
F13 Module::one for negative rational generator builds mpq_class(den,num) non-canonical (negative denominator). num=0 -> den 0.
F14 Seed: wraps after 2^32; nextSeed++ not atomic (ids are atomic). Explicit Seed(1337) collides with the first default seed.
F15 same seed random(seed) and random(a,b,seed): constrained = initial + inner*2^(e-1): linearly dependent; == says different, < never terminates.
F16 truediv with rational generator != 1: quotient(zero of {2}) += 3*gen{1} -> span throws.
F17 product arf_ (real_number_product.cc:519-553): workingPrec = prec + clog2(3n); errors 2n*2^-w + 2^-(prec+1): for n=5 total bound 1.125*2^-prec. maybe violation?
F18 pair<Arf,Arf>(Arb) uses precision arb_rel_accuracy_bits which may be <= 0 (arb.cc:315..): precondition.
F19 rational(0)/rational(0) = 1 (real_number.cc:85-97: *this == rhs).
F20 Module::one over ZZ with generator 1/2: no one() although 2*(1/2) = 1.
F21 Element *= over number fields with a foreign field element: coefficients leave the module's ring.
F22 Element -> double: subnormals are rounded with 53 bits of precision only.
F23 random(double) for +-DBL_MAX: nextafter gives an infinite bound.
F24 Element::arb loops forever for elements that are zero but have nonzero coefficients.
F25 consequences of F1 for elements: <, floor, double, hash, floordiv.
F26 caches arf54/arf64/large are unsynchronised mutable members.
F27 int exponents overflow after 31 squarings; totalDegree overflows at 2^31.
Other: expression templates: calls on left operands do not compile (base class *this); rational() with non-canonical mpq yields distinct
objects; raw-pointer table in cereal < 1.3.1.
F28 asserts of refine (debug): product of 10 random numbers, arb(4): cmp returns 1 => abort (Props/Assertions.lean arb_abort_fails).
F29 rand48: for every seed s there is t != s with random(t) = 2^65536 random(s) - m: linear dependence; comparing never returns (Props/Rand48.lean independence_fails).
F30 Arf NaN: operator< false both ways, so boost's <= and >= hold between NaN and everything while == fails (Props/ArfSpecial.lean arf_order_nan).
F31 operator<<(Arf): exponent >= 0 prints only the double: 2^53 and 2^53+1 print alike; header documents "large numbers are written ... exactly" (arf_print_integer_fails).
F32 operator<<(Element): inserts generators into a std::set ordered by Element <; with generator rational(0) (and another one) never returns, even for the zero element (print_zero_generator_fails).
F33 RealNumber <: not a strict weak order (touching balls at low precision answer false both ways) (Props/RealOrderWeak.lean real_lt_not_weak).
F35 RealNumberProduct::load / Element load check nothing in release builds (Props/Archive.lean archive_single_fails, element_count_fails).
F36 mpz_class(str)/mpq_class(str) in cereal.hpp: base detection, no canonicalization (Props/Text.lean text_fails).
F37 constrained_random_real_number.cc:106 prints p<e> but arf_ uses inner << (e-1) (Props/PrintReal.lean constrained_print_fails).
F40 cppyy.hpp add/sub/... take const T& and yap keeps const int& terminals (arb_expr.hpp:41-47): Python `a - 1` dangles (Props/PyExprNumber.lean).
F41 arf.cc:133 >>= negates a long. F42 arf.cc:189 logb: fmpz_get_si(e) - 1 with e = 2^63 (Props/ArfLong.lean).
