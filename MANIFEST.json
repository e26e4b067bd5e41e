{
 "claims": [
  {
   "property": "C01",
   "status": "proved",
   "theorems": [
    "ExactReal.Props.mul_value",
    "ExactReal.Props.mul_mult",
    "ExactReal.Props.mul_throws_iff"
   ],
   "note": ""
  },
  {
   "property": "C02",
   "status": "proved",
   "theorems": [
    "ExactReal.Props.mul_comm",
    "ExactReal.Props.mul_assoc",
    "ExactReal.Props.mul_assoc_defined",
    "ExactReal.Props.one_mul"
   ],
   "note": ""
  },
  {
   "property": "C03",
   "status": "proved",
   "theorems": [
    "ExactReal.Props.cache_lookup_exact",
    "ExactReal.Props.cache_lookup_mult"
   ],
   "note": ""
  },
  {
   "property": "C04",
   "status": "proved",
   "theorems": [
    "ExactReal.Props.hash_consistent",
    "ExactReal.Props.hash_spec"
   ],
   "note": ""
  },
  {
   "property": "C05",
   "status": "proved",
   "theorems": [
    "ExactReal.Props.div_sound",
    "ExactReal.Props.div_value",
    "ExactReal.Props.div_complete",
    "ExactReal.Props.div_throws_iff",
    "ExactReal.Props.mul_div_cancel"
   ],
   "note": ""
  },
  {
   "property": "C06",
   "status": "proved",
   "theorems": [
    "ExactReal.Props.deglex_never_throws",
    "ExactReal.Props.deglex_iff",
    "ExactReal.Props.deglex_strict_total"
   ],
   "note": ""
  },
  {
   "property": "C07",
   "status": "proved",
   "theorems": [
    "ExactReal.Props.deglex_mul",
    "ExactReal.Props.rational_deglex",
    "ExactReal.Props.deglex_wellFounded"
   ],
   "note": ""
  },
  {
   "property": "C08",
   "status": "proved",
   "theorems": [
    "ExactReal.Props.make_spec",
    "ExactReal.Props.make_order_irrelevant",
    "ExactReal.Props.make_any_sort",
    "ExactReal.Props.make_throws_iff",
    "ExactReal.Props.module_eq_iff"
   ],
   "note": ""
  },
  {
   "property": "C09",
   "status": "proved",
   "theorems": [
    "ExactReal.Props.span_spec",
    "ExactReal.Props.span_least",
    "ExactReal.Props.span_comm",
    "ExactReal.Props.span_comm_gens",
    "ExactReal.Props.span_self",
    "ExactReal.Props.span_throws_iff"
   ],
   "note": ""
  },
  {
   "property": "C10",
   "status": "proved",
   "theorems": [
    "ExactReal.Props.submodule_iff",
    "ExactReal.Props.submodule_order"
   ],
   "note": ""
  },
  {
   "property": "C11",
   "status": "partial",
   "theorems": [
    "ExactReal.Props.promote_partial",
    "ExactReal.Props.promote_general",
    "ExactReal.Props.promote_drops"
   ],
   "note": "promote preserves the value when the element's generators with non-zero coefficient are in the target; promote_drops is a machine-checked counterexample to the full claim: promotion to a module lacking a generator with a nonzero coefficient silently changes the value (finding F8). promote_general characterizes the outcome in every case."
  },
  {
   "property": "C12",
   "status": "proved",
   "theorems": [
    "ExactReal.Props.add_value",
    "ExactReal.Props.add_fails_iff",
    "ExactReal.Props.add_module",
    "ExactReal.Props.add_comm_eq",
    "ExactReal.Props.add_assoc_eq"
   ],
   "note": ""
  },
  {
   "property": "C13",
   "status": "proved",
   "theorems": [
    "ExactReal.Props.neg_value",
    "ExactReal.Props.sub_value",
    "ExactReal.Props.sub_defined_iff",
    "ExactReal.Props.sub_self_eq"
   ],
   "note": ""
  },
  {
   "property": "C14",
   "status": "proved",
   "theorems": [
    "ExactReal.Props.elt_mul_value",
    "ExactReal.Props.elt_mul_module",
    "ExactReal.Props.elt_mul_fails_iff",
    "ExactReal.Props.elt_mul_unital",
    "ExactReal.Props.elt_mul_defined",
    "ExactReal.Props.elt_mul_comm_eq",
    "ExactReal.Props.elt_mul_assoc_eq",
    "ExactReal.Props.elt_mul_add_eq"
   ],
   "note": ""
  },
  {
   "property": "C15",
   "status": "proved",
   "theorems": [
    "ExactReal.Props.imulZ_value",
    "ExactReal.Props.imulQ_value",
    "ExactReal.Props.imulR_value",
    "ExactReal.Props.idivZ_value",
    "ExactReal.Props.idivQ_value",
    "ExactReal.Props.idivR_value",
    "ExactReal.Props.field_scale_defined",
    "ExactReal.Props.integers_scale_defined"
   ],
   "note": "division by zero of an element of a rank-0 module returns (there is no coefficient to divide); the theorems state this explicitly."
  },
  {
   "property": "C16",
   "status": "proved",
   "theorems": [
    "ExactReal.Props.eq_iff",
    "ExactReal.Props.eq_sound",
    "ExactReal.Props.eq_throws_iff",
    "ExactReal.Props.eq_equivalence",
    "ExactReal.Props.eq_zero_generator"
   ],
   "note": "eq_zero_generator shows that the exception for the generator 0 is needed (finding F11); completeness (equal numbers compare equal) is for generators that are linearly independent, as the documentation assumes; C58 is about the generators the library actually produces."
  },
  {
   "property": "C17",
   "status": "proved",
   "theorems": [
    "ExactReal.Props.simplify_spec",
    "ExactReal.Props.simplify_idempotent",
    "ExactReal.Props.simplify_canonical"
   ],
   "note": ""
  },
  {
   "property": "C30",
   "status": "proved",
   "theorems": [
    "ExactReal.Props.rational_sound",
    "ExactReal.Props.rational_iff",
    "ExactReal.Props.eqQ_iff",
    "ExactReal.Props.eqZ_iff",
    "ExactReal.Props.integer_iff",
    "ExactReal.Props.integer_rational_coefficients",
    "ExactReal.Props.rational_zero_generator"
   ],
   "note": "rational_zero_generator shows that the exception for the generator 0 is needed (finding F11)."
  },
  {
   "property": "C31",
   "status": "proved",
   "theorems": [
    "ExactReal.Props.rn_bool_iff",
    "ExactReal.Props.bool_iff",
    "ExactReal.Props.bool_sound",
    "ExactReal.Props.bool_zero_generator"
   ],
   "note": "the only exception, a module with the generator rational(0) (finding F11), is shown by bool_zero_generator."
  },
  {
   "property": "C32",
   "status": "partial",
   "theorems": [
    "ExactReal.Props.unit_iff_partial",
    "ExactReal.Props.unit_wrong"
   ],
   "note": "proved for modules whose rational generator is 1; unit_wrong is a counterexample to the full claim (finding F12: the value of a rational generator is ignored)."
  },
  {
   "property": "C33",
   "status": "partial",
   "theorems": [
    "ExactReal.Props.one_sound",
    "ExactReal.Props.one_complete_partial",
    "ExactReal.Props.one_complete_rings",
    "ExactReal.Props.one_wrong"
   ],
   "note": "one() is sound always and complete over fields and for generator 1; one_wrong is a counterexample over the integers (finding F20)."
  },
  {
   "property": "C45",
   "status": "partial",
   "theorems": [
    "ExactReal.Props.scale_unchanged_partial",
    "ExactReal.Props.imulQ_corrupts",
    "ExactReal.Props.idivZ_corrupts",
    "ExactReal.Props.scale_keeps_module",
    "ExactReal.Props.scale_int_outcome"
   ],
   "note": "scale_int_outcome says exactly what is left over the integers; the full claim is false: imulQ_corrupts/idivZ_corrupts are counterexamples over ZZ (finding F7); proved for the rational and number field rings. Missing: the integers."
  },
  {
   "property": "C46",
   "status": "partial",
   "theorems": [
    "ExactReal.Props.rational_floor_partial",
    "ExactReal.Props.rational_floor_wrong",
    "ExactReal.Props.rational_floor_neg"
   ],
   "note": "the full claim is false of the code, which truncates (finding F5); proved for q >= 0 or integral q, and the exact deviation otherwise."
  },
  {
   "property": "C50",
   "status": "proved",
   "theorems": [
    "ExactReal.Props.nf_compositum",
    "ExactReal.Props.nf_mixed_sound",
    "ExactReal.Props.nf_mixed_defined",
    "ExactReal.Props.nf_mixed_throws",
    "ExactReal.Props.nf_compositum_order",
    "ExactReal.Props.exists_sqrt2",
    "ExactReal.Props.nf_imulR_leaves_ring"
   ],
   "note": "nf_imulR_leaves_ring records that in-place multiplication by a foreign field element keeps the module's smaller ring (finding F21)."
  },
  {
   "property": "C53",
   "status": "proved",
   "theorems": [
    "ExactReal.Props.eqRN_iff",
    "ExactReal.Props.eqRN_throws_iff",
    "ExactReal.Props.eq_zero_generator"
   ],
   "note": "eq_zero_generator shows that the exception for the generator 0 is needed (finding F11)."
  },
  {
   "property": "C18",
   "status": "proved",
   "theorems": [
    "ExactReal.Props.truediv_sound",
    "ExactReal.Props.truediv_zero",
    "ExactReal.Props.truediv_mul_eq",
    "ExactReal.Props.mul_truediv_cancel"
   ],
   "note": ""
  },
  {
   "property": "C19",
   "status": "proved",
   "theorems": [
    "ExactReal.Props.truediv_terminates",
    "ExactReal.Props.truediv_stable",
    "ExactReal.Props.truediv_complete",
    "ExactReal.Props.truediv_nonunital",
    "ExactReal.Props.truediv_ends"
   ],
   "note": "truediv_nonunital shows that the caveat about rational generators in the statement is needed (finding F16)."
  },
  {
   "property": "C48",
   "status": "partial",
   "theorems": [
    "ExactReal.Props.arf_mantissa_exponent",
    "ExactReal.Props.arf_of_mantissa_exponent",
    "ExactReal.Props.arf_shift",
    "ExactReal.Props.arf_floor",
    "ExactReal.Props.arf_ceil",
    "ExactReal.Props.arf_logb",
    "ExactReal.Props.arf_dyadic_closed",
    "ExactReal.Props.arf_round_spec",
    "ExactReal.Props.arf_round_nearest",
    "ExactReal.Props.arf_shift_machine_partial",
    "ExactReal.Props.arf_logb_machine_partial",
    "ExactReal.Props.arf_shift_fails",
    "ExactReal.Props.arf_logb_fails"
   ],
   "note": "false for two extreme values: >> by the smallest long (finding F41, arf_shift_fails) and logb of 2^(2^63-1) (finding F42, arf_logb_fails); proved for everything else, with 64 bit integers in arf_shift_machine_partial and arf_logb_machine_partial."
  },
  {
   "property": "C40",
   "status": "proved",
   "theorems": [
    "ExactReal.Props.random_arf",
    "ExactReal.Props.random_arf_append",
    "ExactReal.Props.random_arf_mono",
    "ExactReal.Props.random_value_mem",
    "ExactReal.Props.random_arf_all_zero"
   ],
   "note": "random_arf_all_zero: for a stream without any digit 1 the loop never returns."
  },
  {
   "property": "C24",
   "status": "partial",
   "theorems": [
    "ExactReal.Props.arf_relative_error_partial",
    "ExactReal.Props.arf_relative_error_product_partial",
    "ExactReal.Props.arf_relative_error_few_factors_partial",
    "ExactReal.Props.arf_relative_error_two_factors_partial",
    "ExactReal.Props.arf_relative_error_few_factors_interval_partial",
    "ExactReal.Props.arf_relative_error_fails"
   ],
   "note": "the full claim fails for products (finding F17, arf_relative_error_fails); proved with the claimed constant for every other number and with 3/2 * 2^-prec for products (prec >= 2; 7/2 for prec < 2); for products of random numbers the claimed constant is proved whenever a power of two lies between 4n and 6n for the number n of factors (n = 2, 3, 4, 6, 7, 8, 11, ..., 16, ...; the counterexample has n = 5), and with random numbers in intervals for 4n(1 + 2^-prec) <= 2^k < 6n."
  },
  {
   "property": "C41",
   "status": "proved",
   "theorems": [
    "ExactReal.Props.randomIn_mem",
    "ExactReal.Props.randomIn_throws_iff",
    "ExactReal.Props.random_bounds_finite"
   ],
   "note": "the pseudo-random generators are arbitrary functions with GMP's documented range."
  },
  {
   "property": "C52",
   "status": "partial",
   "theorems": [
    "ExactReal.Props.random_double_round_trip",
    "ExactReal.Props.randomNear_partial",
    "ExactReal.Props.randomDouble_infinite",
    "ExactReal.Props.random_double_builds",
    "ExactReal.Props.random_double_special",
    "ExactReal.Props.random_double_extreme_fails"
   ],
   "note": "proved for every finite double but the largest and the smallest one, for which one of the computed bounds is infinite (finding F23)."
  },
  {
   "property": "C34",
   "status": "partial",
   "theorems": [
    "ExactReal.Props.toDouble_partial",
    "ExactReal.Props.toDouble_not_nearest",
    "ExactReal.Props.toDouble_rational_double",
    "ExactReal.Props.toDouble_few_factors_partial",
    "ExactReal.Props.toDouble_two_factors_partial",
    "ExactReal.Props.toDouble_faithful_partial",
    "ExactReal.Props.toDouble_rational_mono",
    "ExactReal.Props.toDouble_not_monotone"
   ],
   "note": "the full claim fails: the conversion rounds twice (finding F6, toDouble_not_nearest); proved: as close as any other double up to 2^-53 |x| (3*2^-54 |x| for products; 2^-53 |x| also for products of 2, 3, 4, 6, 7, 8, ... random numbers), exact for doubles, and faithful (no double lies strictly between the number and the result) for numbers that are not products; the double rounding even breaks the order of real numbers (toDouble_not_monotone)."
  },
  {
   "property": "C28",
   "status": "proved",
   "theorems": [
    "ExactReal.Props.ball_lt",
    "ExactReal.Props.ball_gt",
    "ExactReal.Props.ball_le",
    "ExactReal.Props.ball_ge",
    "ExactReal.Props.ball_eq",
    "ExactReal.Props.ball_ne",
    "ExactReal.Props.ball_ne_eq"
   ],
   "note": ""
  },
  {
   "property": "C29",
   "status": "partial",
   "theorems": [
    "ExactReal.Props.ball_rational_partial",
    "ExactReal.Props.ball_rational_ne_wrong",
    "ExactReal.Props.ball_rational_ne_fails",
    "ExactReal.Props.xball_rational_partial",
    "ExactReal.Props.xball_rational_exact",
    "ExactReal.Props.xball_rational_ne_wrong"
   ],
   "note": "every comparison of a ball (including infinite and indeterminate ones, xball_rational_partial) and a rational but != is sound; != is a copy of == (finding F4)."
  },
  {
   "property": "C25",
   "status": "partial",
   "theorems": [
    "ExactReal.Props.arb_partial",
    "ExactReal.Props.refine_partial",
    "ExactReal.Props.arb_contains_fails",
    "ExactReal.Props.arb_random_contains_iff"
   ],
   "note": "the enclosure returned may miss the number by a small factor of its radius (finding F1, arb_contains_fails); proved with the enlarged radius, and arb_random_contains_iff characterizes when a random number is in its enclosure."
  },
  {
   "property": "C27",
   "status": "partial",
   "theorems": [
    "ExactReal.Props.cmp_partial",
    "ExactReal.Props.cmp_zero_partial",
    "ExactReal.Props.cmp_rational_partial",
    "ExactReal.Props.cmp_error_partial",
    "ExactReal.Props.cmp_fails",
    "ExactReal.Props.cmp_lower_end_fails"
   ],
   "note": "cmp answers 0 for an x slightly outside of the ball (finding F3); proved: -1 and 1 are right for every number that is not a product (up to the lower end of the ball), and up to an error bound for products."
  },
  {
   "property": "C23",
   "status": "partial",
   "theorems": [
    "ExactReal.Props.real_lt_partial",
    "ExactReal.Props.real_lt_opposite_signs",
    "ExactReal.Props.real_lt_rational",
    "ExactReal.Props.real_lt_terminates",
    "ExactReal.Props.real_lt_arf_partial",
    "ExactReal.Props.real_sign",
    "ExactReal.Props.real_lt_arf_terminates",
    "ExactReal.Props.real_lt_rational_partial",
    "ExactReal.Props.real_lt_rational_terminates",
    "ExactReal.Props.real_lt_random",
    "ExactReal.Props.real_lt_arf_random",
    "ExactReal.Props.real_lt_arf_two_bits",
    "ExactReal.Props.real_lt_arf_equal",
    "ExactReal.Props.real_lt_sound",
    "ExactReal.Props.real_lt_arf_fails",
    "ExactReal.Props.real_lt_fails",
    "ExactReal.Props.real_lt_integer_partial",
    "ExactReal.Props.real_lt_integer_fails"
   ],
   "note": "the full claim fails for numbers that agree to about the working precision (finding F2); proved: exact for two rationals, two random numbers, opposite signs, non-products against numbers of two binary digits (such as small integers), positive answers for non-products, correct up to an error bound otherwise; termination for distinct numbers."
  },
  {
   "property": "C26",
   "status": "partial",
   "theorems": [
    "ExactReal.Props.elt_arb_contains",
    "ExactReal.Props.elt_arb_partial",
    "ExactReal.Props.elt_arb_terminates",
    "ExactReal.Props.elt_arb_fails"
   ],
   "note": "the full claim is false (elt_arb_fails, finding F1); accuracy and termination are unconditional; containment assumes that the enclosures of the generators contain them (they need not: finding F1) and the documented contract of FLINT's arithmetic."
  },
  {
   "property": "C22",
   "status": "partial",
   "theorems": [
    "ExactReal.Props.elt_lt_exact",
    "ExactReal.Props.elt_lt_partial",
    "ExactReal.Props.elt_sign",
    "ExactReal.Props.elt_lt_terminates",
    "ExactReal.Props.elt_lt_returns",
    "ExactReal.Props.elt_gt_exact",
    "ExactReal.Props.elt_trichotomy",
    "ExactReal.Props.elt_lt_fails",
    "ExactReal.Props.good_case"
   ],
   "note": "exact when the enclosures of the generators contain them; otherwise a correct order up to 2^-61 relative; elt_lt_fails is a counterexample to the full claim (finding F25)."
  },
  {
   "property": "C21",
   "status": "partial",
   "theorems": [
    "ExactReal.Props.elt_floor_exact",
    "ExactReal.Props.elt_floor_partial",
    "ExactReal.Props.elt_floor_terminates",
    "ExactReal.Props.elt_floor_returns",
    "ExactReal.Props.elt_floor_fails"
   ],
   "note": "exact when the enclosures of the generators contain them and for elements that equal a rational; otherwise correct up to an error bound; elt_floor_fails is a counterexample to the full claim (finding F25)."
  },
  {
   "property": "C35",
   "status": "partial",
   "theorems": [
    "ExactReal.Props.elt_double_exact",
    "ExactReal.Props.elt_double_partial",
    "ExactReal.Props.elt_double_rational",
    "ExactReal.Props.elt_double_terminates",
    "ExactReal.Props.elt_double_returns",
    "ExactReal.Props.elt_double_subnormal_fails",
    "ExactReal.Props.elt_double_fails",
    "ExactReal.Props.good_double"
   ],
   "note": "a double that is nearest up to 3*2^-53 relative always; a nearest double when the enclosures of the generators contain them; elt_double_subnormal_fails and elt_double_fails are counterexamples to the full claim (findings F22, F25)."
  },
  {
   "property": "C36",
   "status": "partial",
   "theorems": [
    "ExactReal.Props.elt_hash_partial",
    "ExactReal.Props.nearest_unique",
    "ExactReal.Props.elt_hash_fails",
    "ExactReal.Props.good_double"
   ],
   "note": "equal elements hash to the same value when the enclosures of the generators contain them or the value is rational; elt_hash_fails is a counterexample to the full claim (finding F25)."
  },
  {
   "property": "C20",
   "status": "partial",
   "theorems": [
    "ExactReal.Props.floordiv_exact",
    "ExactReal.Props.floordiv_partial",
    "ExactReal.Props.floordiv_multiple",
    "ExactReal.Props.floordiv_zero",
    "ExactReal.Props.floordiv_terminates",
    "ExactReal.Props.floordiv_returns",
    "ExactReal.Props.floordiv_fails",
    "ExactReal.Props.good_floordiv"
   ],
   "note": "the shortcut is sound, complete and exact; the loop returns the floor when the enclosures of the generators contain them, and is correct up to 2^-59 relative otherwise; termination for every nonzero divisor; floordiv_fails is a counterexample to the full claim (finding F25) and floordiv_zero shows undefined behaviour for a zero divisor (finding F10)."
  },
  {
   "property": "C38",
   "status": "proved",
   "theorems": [
    "ExactReal.Props.unique",
    "ExactReal.Props.id_unique",
    "ExactReal.Props.id_never_reused",
    "ExactReal.Props.immutable",
    "ExactReal.Props.held_alive",
    "ExactReal.Props.mul_result",
    "ExactReal.Props.div_result",
    "ExactReal.Props.factory_result",
    "ExactReal.Props.unique_with_modules"
   ],
   "note": "histories have fewer than 2^64 - 2^31 creations (identities are 64 bits wide); the factory library is modelled by its contract."
  },
  {
   "property": "C42",
   "status": "proved",
   "theorems": [
    "ExactReal.Props.random_same",
    "ExactReal.Props.random_digits",
    "ExactReal.Props.randomIn_result",
    "ExactReal.Props.randomIn_same"
   ],
   "note": ""
  },
  {
   "property": "C43",
   "status": "proved",
   "theorems": [
    "ExactReal.Props.save_total",
    "ExactReal.Props.round_trip",
    "ExactReal.Props.round_trip_alive"
   ],
   "note": "the archive is a tree of named values; writing numbers as text is not modelled."
  },
  {
   "property": "C44",
   "status": "partial",
   "theorems": [
    "ExactReal.Props.element_round_trip_partial",
    "ExactReal.Props.element_round_trip_alive",
    "ExactReal.Props.element_round_trip_fails"
   ],
   "note": "the full claim is false: coefficients are written in the order of the generators in the writing process and are not permuted on load (finding F9, element_round_trip_fails, a fresh loading process); proved: never throws, same ring, same set of generators; same value if the module is alive or the random numbers have ids in the same order."
  },
  {
   "property": "C55",
   "status": "proved",
   "theorems": [
    "ExactReal.Props.module_unique",
    "ExactReal.Props.module_make_result",
    "ExactReal.Props.module_immutable",
    "ExactReal.Props.module_alive"
   ],
   "note": ""
  },
  {
   "property": "C37",
   "status": "proved",
   "theorems": [
    "ExactReal.Props.seeds_distinct",
    "ExactReal.Props.seeds_wrap",
    "ExactReal.Props.seeds_race",
    "ExactReal.Props.seeds_explicit"
   ],
   "note": "seeds of calls without a seed that do not run concurrently are distinct until 2^32 calls; seeds_race, seeds_wrap and seeds_explicit show that each caveat of the statement is needed (finding F14)."
  },
  {
   "property": "C39",
   "status": "proved",
   "theorems": [
    "ExactReal.Props.cache_transparent",
    "ExactReal.Props.cache_bounded"
   ],
   "note": ""
  },
  {
   "property": "C47",
   "status": "proved",
   "theorems": [
    "ExactReal.Props.assign_sound",
    "ExactReal.Props.assign_defined",
    "ExactReal.Props.inplace_sound",
    "ExactReal.Props.inplace_defined",
    "ExactReal.Props.inplace_mul_arf"
   ],
   "note": "the kernels are arbitrary functions of the operands' values, precision and rounding mode; proved for every expression tree and every aliasing of the target with the operands."
  },
  {
   "property": "C49",
   "status": "proved",
   "theorems": [
    "ExactReal.Props.rationalCoefficients_nf",
    "ExactReal.Props.rationalCoefficients_injective",
    "ExactReal.Props.rationalCoefficients_unique",
    "ExactReal.Props.rationalCoefficients_rational",
    "ExactReal.Props.numVector_exists"
   ],
   "note": "e-antic's vector of numerators is modelled by its contract; numVector_exists shows that the contract can be met for every number field."
  },
  {
   "property": "C51",
   "status": "proved",
   "theorems": [
    "ExactReal.Props.ids_distinct",
    "ExactReal.Props.ids_wrap",
    "ExactReal.Props.ids_fresh"
   ],
   "note": ""
  },
  {
   "property": "C54",
   "status": "proved",
   "theorems": [
    "ExactReal.Props.mul_overflow",
    "ExactReal.Props.mul_no_overflow",
    "ExactReal.Props.keyEq_no_overflow",
    "ExactReal.Props.div_no_overflow",
    "ExactReal.Props.hash_no_overflow",
    "ExactReal.Props.deglex_no_overflow",
    "ExactReal.Props.totalDegree_overflow",
    "ExactReal.Props.squaring_overflows",
    "ExactReal.Props.degree_overflows"
   ],
   "note": "mul_overflow and totalDegree_overflow characterize exactly when the behaviour is undefined; squaring_overflows and degree_overflows show that the bound is within reach of a client."
  },
  {
   "property": "C56",
   "status": "partial",
   "theorems": [
    "ExactReal.Props.cmp_self_partial",
    "ExactReal.Props.refine_no_abort_partial",
    "ExactReal.Props.refine_contained_no_abort_partial",
    "ExactReal.Props.arb_no_abort_partial",
    "ExactReal.Props.lt_no_abort_partial",
    "ExactReal.Props.lt_arf_no_abort_partial",
    "ExactReal.Props.arb_zero_debug",
    "ExactReal.Props.arb_abort_fails"
   ],
   "note": "proved for all numbers that are neither zero nor a product; false for products (finding F28, arb_abort_fails) and undefined for zero (F18, arb_zero_debug)."
  },
  {
   "property": "C57",
   "status": "proved",
   "theorems": [
    "ExactReal.Props.random_distinct",
    "ExactReal.Props.random_arf_returns",
    "ExactReal.Props.random_strictly_between",
    "ExactReal.Props.random_lt_returns",
    "ExactReal.Props.random_denominator",
    "ExactReal.Props.random_not_dyadic",
    "ExactReal.Props.random_lt_arf_returns",
    "ExactReal.Props.rand48_documented"
   ],
   "note": "Boost's rand48 and uniform_int_distribution are modelled by their documented algorithm; rand48_documented checks it against the number printed in the project's documentation."
  },
  {
   "property": "C58",
   "status": "partial",
   "theorems": [
    "ExactReal.Props.independence_partial",
    "ExactReal.Props.random_dependent",
    "ExactReal.Props.independence_fails",
    "ExactReal.Props.random_same_seed_dependent",
    "ExactReal.Props.same_seed_fails",
    "ExactReal.Props.zero_element_pending"
   ],
   "note": "the full claim is false: independence_fails (finding F29, distinct seeds: the digit streams are shifts of each other) and same_seed_fails (finding F15, the same seed for different intervals); zero_element_pending is the consequence (finding F24); proved for one random number and integer coefficients of up to 49 bits."
  },
  {
   "property": "C59",
   "status": "proved",
   "theorems": [
    "ExactReal.Props.arf_order",
    "ExactReal.Props.arf_order_long",
    "ExactReal.Props.arf_order_nan",
    "ExactReal.Props.arf_hash",
    "ExactReal.Props.arf_neg_abs",
    "ExactReal.Props.arf_double_round_trip",
    "ExactReal.Props.arf_to_double",
    "ExactReal.Props.arf_floor_special"
   ],
   "note": "arf_order_nan shows that NaN has to be excluded (finding F30): NaN <= x and NaN >= x hold for every x although NaN == x does not. The two zeros of double are not distinguished."
  },
  {
   "property": "C60",
   "status": "partial",
   "theorems": [
    "ExactReal.Props.arf_print_fraction_partial",
    "ExactReal.Props.arf_print_integer_fails",
    "ExactReal.Props.arf_print_integer",
    "ExactReal.Props.arf_print_default_fails",
    "ExactReal.Props.stream_valid"
   ],
   "note": "proved for non-integers: what is printed for one is printed for no other value; false for integers beyond 2^53 (finding F31, arf_print_integer_fails). How doubles and integers are written is a parameter with the three properties XArf.Format.Valid; stream_valid: the streams of the C++ library (printf %g) have them. With the default precision already 1000000 and 1000001 are printed alike (arf_print_default_fails); integers with at most as many digits as the precision of the stream are printed exactly (arf_print_integer)."
  },
  {
   "property": "C61",
   "status": "partial",
   "theorems": [
    "ExactReal.Props.print_denotes",
    "ExactReal.Props.print_sorted",
    "ExactReal.Props.print_separated_partial",
    "ExactReal.Props.denotes_unique",
    "ExactReal.Props.denotes_value",
    "ExactReal.Props.print_injective",
    "ExactReal.Props.print_zero_generator_fails"
   ],
   "note": "proved for generators that are not zero and differ by more than 2^-61 relative (print_separated_partial), and for any comparison that distinguishes the generators (print_denotes, print_sorted, print_injective); false for modules with the generator rational(0): printing never returns (print_zero_generator_fails, finding F32)."
  },
  {
   "property": "C62",
   "status": "partial",
   "theorems": [
    "ExactReal.Props.threads_disjoint_partial",
    "ExactReal.Props.threads_cached_partial",
    "ExactReal.Props.threads_race",
    "ExactReal.Props.threads_race_large",
    "ExactReal.Props.threads_race_products"
   ],
   "note": "proved when no number is involved in the calls of two threads (threads_disjoint_partial), and when everything has been computed before (threads_cached_partial). False otherwise (finding F26): two threads that ask the same number for an approximation that has not been computed before have a data race in every complete execution (threads_race), also for different precisions (threads_race_large), and even for different products with a common factor (threads_race_products). Interleavings are sequentially consistent, which is enough to define data races."
  },
  {
   "property": "C64",
   "status": "partial",
   "theorems": [
    "ExactReal.Props.real_lt_sound",
    "ExactReal.Props.real_lt_asymm",
    "ExactReal.Props.real_lt_trans_partial",
    "ExactReal.Props.real_lt_not_weak",
    "ExactReal.Props.real_le_not_antisymm",
    "ExactReal.Props.elt_lt_asymm",
    "ExactReal.Props.elt_derived_exact",
    "ExactReal.Props.elt_le_exact",
    "ExactReal.Props.real_derived_rational",
    "ExactReal.Props.real_derived_mpq"
   ],
   "note": "irreflexive and asymmetric for all numbers; transitive and positive answers right for numbers that are not products; not a strict weak order: real_lt_not_weak has a number that is equivalent to two numbers of which one is smaller (finding F33)."
  },
  {
   "property": "C63",
   "status": "proved",
   "theorems": [
    "ExactReal.Props.xball_compare",
    "ExactReal.Props.xball_compare_nan",
    "ExactReal.Props.xball_compare_exact",
    "ExactReal.Props.xball_equal",
    "ExactReal.Props.xball_of_int",
    "ExactReal.Props.xball_compare_int",
    "ExactReal.Props.xball_neg",
    "ExactReal.Props.xball_constants",
    "ExactReal.Props.xball_finite_exact"
   ],
   "note": "FLINT's predicates are modelled by their documentation (balls are subintervals of the extended real line); the comparisons with rationals are in C29."
  },
  {
   "property": "C65",
   "status": "proved",
   "theorems": [
    "ExactReal.Props.ofCoefficients_value",
    "ExactReal.Props.ofCoefficients_throws",
    "ExactReal.Props.coefficient_spec",
    "ExactReal.Props.gen_value",
    "ExactReal.Props.zero_value",
    "ExactReal.Props.default_value",
    "ExactReal.Props.ofScalar_value",
    "ExactReal.Props.convert_value_of",
    "ExactReal.Props.convert_int_rat",
    "ExactReal.Props.convert_int_field",
    "ExactReal.Props.convert_rat_field",
    "ExactReal.Props.convert_compose"
   ],
   "note": "number fields are subfields of the real algebraic numbers; coefficients passed to a constructor belong to the ring of the module."
  },
  {
   "property": "C66",
   "status": "partial",
   "theorems": [
    "ExactReal.Props.program_value_partial",
    "ExactReal.Props.program_wf",
    "ExactReal.Props.program_gensIn",
    "ExactReal.Props.program_noZero",
    "ExactReal.Props.program_queries",
    "ExactReal.Props.program_value_fields",
    "ExactReal.Props.sample_run"
   ],
   "note": "proved for all programs over the rationals and number fields (program_value_fields) and over the integers except for one thing that is false of the code: a scalar multiplication or division over the integers that throws may have changed the element (finding F7; Cmd.Failed says which calls; sample_run has such a run). program_queries needs that the program does not call rational(0) and that the random numbers are algebraically independent."
  },
  {
   "property": "C67",
   "status": "proved",
   "theorems": [
    "ExactReal.Props.program_builds",
    "ExactReal.Props.queries_builds",
    "ExactReal.Props.program_nocheck",
    "ExactReal.Props.exec_build",
    "ExactReal.Props.truediv_nocheck",
    "ExactReal.Props.promote_depends_on_build"
   ],
   "note": "promote_depends_on_build shows that assertions do matter for calls outside of such programs (promote() to a module that misses a generator)."
  },
  {
   "property": "C68",
   "status": "proved",
   "theorems": [
    "ExactReal.Props.program_progress",
    "ExactReal.Props.program_division",
    "ExactReal.Props.truediv_ends",
    "ExactReal.Props.exec_outcomes",
    "ExactReal.Props.one_undefined",
    "ExactReal.Props.zero_div_zero"
   ],
   "note": "program_progress is about all calls but truediv, whose loop has a budget in the model; program_division says that there is a budget from which on the outcome does not depend on the budget. one_undefined shows that the restriction to positive rational numbers is needed (finding F13)."
  },
  {
   "property": "C69",
   "status": "proved",
   "theorems": [
    "ExactReal.Props.storage_num_defined",
    "ExactReal.Props.storage_num_value",
    "ExactReal.Props.storage_num_leak",
    "ExactReal.Props.storage_elt_defined",
    "ExactReal.Props.storage_elt_value",
    "ExactReal.Props.storage_elt_leak",
    "ExactReal.Props.storage_add_self"
   ],
   "note": "the functions of FLINT and the smart pointer of spimpl (an absent submodule) are modelled by their contracts; copying an element whose value was moved out is left undefined."
  },
  {
   "property": "C70",
   "status": "proved",
   "theorems": [
    "ExactReal.Props.py_elements",
    "ExactReal.Props.py_operations",
    "ExactReal.Props.py_surjective",
    "ExactReal.Props.py_eq",
    "ExactReal.Props.py_eq_real",
    "ExactReal.Props.py_rational"
   ],
   "note": "elements are those of Spec/Python.lean (Made); the default element Element() without a module is left out."
  },
  {
   "property": "C71",
   "status": "proved",
   "theorems": [
    "ExactReal.Props.py_div",
    "ExactReal.Props.py_div_zero",
    "ExactReal.Props.py_unit",
    "ExactReal.Props.py_invert",
    "ExactReal.Props.py_divides",
    "ExactReal.Props.py_gcd"
   ],
   "note": "py_div_zero is for builds with argument checks (the default)."
  },
  {
   "property": "C72",
   "status": "partial",
   "theorems": [
    "ExactReal.Props.py_compare_returns",
    "ExactReal.Props.py_operators_agree",
    "ExactReal.Props.py_order_exact",
    "ExactReal.Props.py_order_partial",
    "ExactReal.Props.py_abs"
   ],
   "note": "the order is exact if the approximations of the generators contain them (they need not: findings F1 and F25), and otherwise up to 2^-61 of the size of the operands; elt_lt_fails is the counterexample for the comparison of the C++ elements."
  },
  {
   "property": "C73",
   "status": "proved",
   "theorems": [
    "ExactReal.Props.py_algebraic"
   ],
   "note": "for every ring of numbers into which the base ring is mapped and that is mapped to the reals."
  },
  {
   "property": "C74",
   "status": "partial",
   "theorems": [
    "ExactReal.Props.py_expression_partial",
    "ExactReal.Props.py_expression_progress_partial",
    "ExactReal.Props.py_expression_alive",
    "ExactReal.Props.py_neg_dangles",
    "ExactReal.Props.py_neg_type_error",
    "ExactReal.Props.py_number_operand_fails",
    "ExactReal.Props.py_number_operand_value_partial",
    "ExactReal.Props.py_number_operand_left"
   ],
   "note": "proved for all programs that do not negate a number outside of an expression; for those that do the claim is false of the code (finding F34, py_neg_dangles, py_neg_type_error); an operand that is a Python number is gone before the expression is evaluated (finding F40, py_number_operand_fails); as long as no object has been collected, all programs compute the right expressions (py_expression_alive)."
  },
  {
   "property": "C75",
   "status": "partial",
   "theorems": [
    "ExactReal.Props.program_order_partial",
    "ExactReal.Props.program_order_returns",
    "ExactReal.Props.elt_sign_pos"
   ],
   "note": "signs are exact and all calls return; comparisons, floor, ceil, floordiv and double are right up to the error bounds of C20-C22 and C35, whose counterexamples (findings F22, F25) show that they are not exact."
  },
  {
   "property": "C76",
   "status": "partial",
   "theorems": [
    "ExactReal.Props.bounds_enclose_partial",
    "ExactReal.Props.ofBounds_contains",
    "ExactReal.Props.ofBounds_tight",
    "ExactReal.Props.bounds_round_trip_partial",
    "ExactReal.Props.bounds_undefined"
   ],
   "note": "the conversion to bounds is correct for balls with at least two accurate bits; for all others the code asks FLINT for a precision that is not valid (finding F18, bounds_undefined)."
  },
  {
   "property": "C77",
   "status": "partial",
   "theorems": [
    "ExactReal.Props.archive_of_save",
    "ExactReal.Props.archive_read_partial",
    "ExactReal.Props.archive_unique",
    "ExactReal.Props.archive_same",
    "ExactReal.Props.element_read",
    "ExactReal.Props.archive_single_fails",
    "ExactReal.Props.element_count_fails"
   ],
   "note": "archives that do not describe a number are not rejected in release builds: a product with a single factor becomes a second object for the same number (finding F35, archive_single_fails), a wrong number of coefficients is accepted (element_count_fails)."
  },
  {
   "property": "C78",
   "status": "proved",
   "theorems": [
    "ExactReal.Props.mpz_text",
    "ExactReal.Props.mpq_text",
    "ExactReal.Props.arf_text",
    "ExactReal.Props.arb_text",
    "ExactReal.Props.text_injective",
    "ExactReal.Props.mpz_text_rejects",
    "ExactReal.Props.mpz_text_space",
    "ExactReal.Props.mpz_text_base",
    "ExactReal.Props.text_fails"
   ],
   "note": "GMP's and FLINT's string functions are modelled after their sources. text_fails shows what happens to texts that the library does not write (finding F36)."
  },
  {
   "property": "C79",
   "status": "partial",
   "theorems": [
    "ExactReal.Props.double_print",
    "ExactReal.Props.double_print_int",
    "ExactReal.Props.rational_print_partial",
    "ExactReal.Props.random_print_partial",
    "ExactReal.Props.real_print_injective",
    "ExactReal.Props.module_print_injective",
    "ExactReal.Props.constrained_print_fails"
   ],
   "note": "false for random numbers in an interval (finding F37, constrained_print_fails): ℝ(A + BpE) is printed for A + B * 2^(E-1). Proved for rationals (rational_print_partial), random numbers (random_print_partial; the dots suggest truncation but the digits are rounded), and for identification of products and modules (real_print_injective, module_print_injective)."
  },
  {
   "property": "C80",
   "status": "partial",
   "theorems": [
    "ExactReal.Props.stream_read_partial",
    "ExactReal.Props.stream_read_alive",
    "ExactReal.Props.stream_write",
    "ExactReal.Props.stream_address_fails"
   ],
   "note": "proved for archives that keep the objects alive that have been written (cereal since 1.3.1; or the program does); the #if branch for older versions confuses numbers (finding F38, stream_address_fails). The coefficients of elements belong to the same generators under the assumption of C44 (finding F9)."
  },
  {
   "property": "C81",
   "status": "partial",
   "theorems": [
    "ExactReal.Props.random_bounds_finite",
    "ExactReal.Props.random_bounds_rejected",
    "ExactReal.Props.random_infinite_partial",
    "ExactReal.Props.random_infinite_fails"
   ],
   "note": "finite bounds, rejected bounds and infinite intervals that contain numbers of both signs are right; (0, inf), (-inf, 0), (-inf, inf) end the process, and (-inf, b) with b < 0 fails an assertion or yields a positive number (finding F39, random_infinite_fails)."
  },
  {
   "property": "C82",
   "status": "proved",
   "theorems": [
    "ExactReal.Props.program_in_process",
    "ExactReal.Props.process_progress",
    "ExactReal.Props.eq_in_process",
    "ExactReal.Props.questions_in_process",
    "ExactReal.Props.random_in_process",
    "ExactReal.Props.of_value"
   ],
   "note": "proved for processes with at most 2^64 numbers created (the identities must not wrap). Factory calls are atomic steps, temporaries live until the call returns (DESIGN section 5). The exceptions of C66 and C30 (division by zero generators, one() with a nonpositive generator, F7) are part of the statements."
  },
  {
   "property": "C83",
   "status": "proved",
   "theorems": [
    "ExactReal.Props.reclaim_bounded",
    "ExactReal.Props.reclaim_total",
    "ExactReal.Props.reclaim_spares",
    "ExactReal.Props.reclaim_complete",
    "ExactReal.Props.reclaim_confluent",
    "ExactReal.Props.reclaim_everything",
    "ExactReal.Props.references_accounted"
   ],
   "note": "proved for processes with at most 2^64 numbers created. The contract of UniqueFactory (entries can be removed after their object is gone) is assumed; the up to 1024 references of KeepSetAlive and the references of an archive that is being read count as references that somebody holds."
  },
  {
   "property": "C84",
   "status": "partial",
   "theorems": [
    "ExactReal.Props.order_in_process_partial",
    "ExactReal.Props.arb_in_process_partial",
    "ExactReal.Props.num_order_in_process_partial",
    "ExactReal.Props.order_returns_in_process",
    "ExactReal.Props.question_deterministic",
    "ExactReal.Props.question_keeps",
    "ExactReal.Props.question_possible"
   ],
   "note": "partial for the same reason as C20-C22, C26 and C35: the documented exactness is false of the code (findings F1, F2, F22, F25, with counterexample theorems), so the answers are right up to the stated error; signs are exactly right. Determinism, independence of schedules and placement, possibility and harmlessness of questions are proved in full, for processes with at most 2^64 numbers created. The cache of approximations is the subject of C39 and C62 and not part of this model."
  },
  {
   "property": "C85",
   "status": "proved",
   "theorems": [
    "ExactReal.Props.threads_compute",
    "ExactReal.Props.thread_run",
    "ExactReal.Props.threads_progress",
    "ExactReal.Props.threads_finish",
    "ExactReal.Props.threads_finish_asking"
   ],
   "note": "for processes that create at most 2^64 numbers (hypothesis next <= 2^64, the counter of seeds and ids is a 64 bit integer). The atomic steps are those of C82 and C84: reads of objects, calls of factories (which hold a lock, C38). Data races on the memory of the approximation caches are C39 and C62."
  },
  {
   "property": "C86",
   "status": "partial",
   "theorems": [
    "ExactReal.Props.threads_answer_partial",
    "ExactReal.Props.threads_finish_asking"
   ],
   "note": "partial for the same reason as C84: the documented exactness of the answers is false of the code, so they are right up to the stated error. Independence of the schedule, correct signs and termination when scheduled alone are proved in full."
  },
  {
   "property": "C87",
   "status": "proved",
   "theorems": [
    "ExactReal.Props.bytes_read",
    "ExactReal.Props.bytes_cut",
    "ExactReal.Props.file_recovered",
    "ExactReal.Props.integer_exact",
    "ExactReal.Props.rational_exact",
    "ExactReal.Props.unit_exact"
   ],
   "note": "for processes whose objects hold values of their C++ types (Source.Typed: long and int exponents, texts and vectors shorter than 2^64), fewer than 2^31 objects in the archive and fewer than 2^64 objects in a process; number fields through the contract Codec.Exact"
  },
  {
   "property": "C88",
   "status": "proved",
   "theorems": [
    "ExactReal.Props.real_lt_effort",
    "ExactReal.Props.real_lt_arf_effort",
    "ExactReal.Props.real_lt_rational_effort",
    "ExactReal.Props.elt_arb_effort",
    "ExactReal.Props.elt_lt_effort",
    "ExactReal.Props.elt_ltRN_effort",
    "ExactReal.Props.elt_ltQ_effort",
    "ExactReal.Props.elt_floor_effort",
    "ExactReal.Props.elt_floordiv_effort",
    "ExactReal.Props.elt_double_effort",
    "ExactReal.Props.real_lt_local",
    "ExactReal.Props.elt_arb_local",
    "ExactReal.Props.elt_lt_local",
    "ExactReal.Props.elt_floor_local",
    "ExactReal.Props.elt_double_local",
    "ExactReal.Props.elt_floordiv_local",
    "ExactReal.Props.elt_lt_long"
   ],
   "note": "under the contracts Arith.Lawful and CoeffLawful, and CoeffAccurate (coefficients are approximated with a few units in the last place: proved for integers and rationals, for number fields a property of e-antic)."
  },
  {
   "property": "C89",
   "status": "proved",
   "theorems": [
    "ExactReal.Props.py_is_square",
    "ExactReal.Props.py_is_square_integers",
    "ExactReal.Props.py_is_square_rationals",
    "ExactReal.Props.py_is_square_field"
   ],
   "note": "SageMath decides squares in K (hypothesis hs); for number fields K(x) is assumed to be the conversion of C73 (py_is_square covers any conversion that is right when it returns)"
  },
  {
   "property": "C90",
   "status": "proved",
   "theorems": [
    "ExactReal.Props.real_lt_no_overflow",
    "ExactReal.Props.elt_arb_no_overflow",
    "ExactReal.Props.elt_lt_no_overflow",
    "ExactReal.Props.elt_lt_other_no_overflow",
    "ExactReal.Props.elt_floor_no_overflow",
    "ExactReal.Props.elt_lt_machine",
    "ExactReal.Props.moderate_of_atoms",
    "ExactReal.Props.arb_overflow",
    "ExactReal.Props.real_lt_other_no_overflow",
    "ExactReal.Props.real_lt_arf_machine",
    "ExactReal.Props.real_lt_rational_machine",
    "ExactReal.Props.elt_double_no_overflow",
    "ExactReal.Props.elt_floordiv_no_overflow",
    "ExactReal.Props.elt_floor_machine",
    "ExactReal.Props.elt_double_machine",
    "ExactReal.Props.elt_floordiv_machine",
    "ExactReal.Props.product_bits",
    "ExactReal.Props.rank_bits",
    "ExactReal.Props.rank_bits_inexact"
   ],
   "note": "the integers in the mantissas and exponents of FLINT's numbers are unbounded as in FLINT; the int of totalDegree() is C54; log2 of the C library is assumed to be off by less than 2^-33 and, for elements, exact for powers of two"
  },
  {
   "property": "C91",
   "status": "proved",
   "theorems": [
    "ExactReal.Props.py_ball_compare",
    "ExactReal.Props.py_ball_compare_nan",
    "ExactReal.Props.py_program",
    "ExactReal.Props.py_program_plain",
    "ExactReal.Props.py_sorted"
   ],
   "note": "rationals (mpq_class) as operands are C29, where != is wrong (finding F4); cppyy's choice of an overload for a Python int is any integer type that holds it"
  },
  {
   "property": "C92",
   "status": "partial",
   "theorems": [
    "ExactReal.Props.embed_arb",
    "ExactReal.Props.embed_arb_terminates",
    "ExactReal.Props.embed_lt_exact",
    "ExactReal.Props.embed_lt_partial",
    "ExactReal.Props.embed_lt_same",
    "ExactReal.Props.embed_floor_exact",
    "ExactReal.Props.embed_floor_partial",
    "ExactReal.Props.embed_double",
    "ExactReal.Props.embed_hash_partial",
    "ExactReal.Props.embed_floordiv",
    "ExactReal.Props.embed_lt_effort",
    "ExactReal.Props.embed_ltRN_effort",
    "ExactReal.Props.embed_ltQ_effort",
    "ExactReal.Props.embed_floor_effort",
    "ExactReal.Props.embed_double_effort",
    "ExactReal.Props.embed_floordiv_effort"
   ],
   "note": "everything under the hypothesis that the balls of the generators contain the generators (or up to the stated relative error without it), because without it C20-C22, C35 and C36 are false of the code, see elt_lt_fails, elt_floor_fails, floordiv_fails and the hash counterexample there"
  },
  {
   "property": "C93",
   "status": "partial",
   "theorems": [
    "ExactReal.Props.py_to_number",
    "ExactReal.Props.py_number_roundtrip",
    "ExactReal.Props.py_floordiv_multiple",
    "ExactReal.Props.py_round_returns",
    "ExactReal.Props.py_floor_integer",
    "ExactReal.Props.py_rounding_partial",
    "ExactReal.Props.py_floordiv_partial",
    "ExactReal.Props.py_floordiv_mul_partial",
    "ExactReal.Props.py_floordiv_zero",
    "ExactReal.Props.py_hash_partial",
    "ExactReal.Props.py_hash_example_partial",
    "ExactReal.Props.py_an_element"
   ],
   "note": "(x*y) // y == x.floor() and equality of hashes are false in general since floordiv, floor and the conversion to double are (floordiv_fails, elt_floor_fails, findings of C20, C21, C36), so they are proved under the hypothesis that the balls of the generators contain the generators, for rational elements, and up to an error otherwise; 0 // 0 is 0 and x // 0 is undefined (finding F10)"
  },
  {
   "property": "C94",
   "status": "proved",
   "theorems": [
    "ExactReal.Props.py_identity",
    "ExactReal.Props.py_identity_complete",
    "ExactReal.Props.py_domain",
    "ExactReal.Props.py_characteristic",
    "ExactReal.Props.py_not_field",
    "ExactReal.Props.py_some_elements"
   ],
   "note": "powers are products (SageMath's generic power is not part of the repository)"
  },
  {
   "property": "C95",
   "status": "proved",
   "theorems": [
    "ExactReal.Props.random_double_round_trip",
    "ExactReal.Props.random_element_double",
    "ExactReal.Props.py_random_element_float",
    "ExactReal.Props.random_double_print",
    "ExactReal.Props.random_between_double",
    "ExactReal.Props.random_element_between"
   ],
   "note": ""
  },
  {
   "property": "C96",
   "status": "proved",
   "theorems": [
    "ExactReal.Props.span_rank",
    "ExactReal.Props.submodule_rank",
    "ExactReal.Props.add_rank_eq",
    "ExactReal.Props.add_rank",
    "ExactReal.Props.mul_rank",
    "ExactReal.Props.simplify_rank",
    "ExactReal.Props.simplify_rank_minimal"
   ],
   "note": ""
  },
  {
   "property": "C97",
   "status": "proved",
   "theorems": [
    "ExactReal.Props.program_provenance",
    "ExactReal.Props.program_observations",
    "ExactReal.Props.elt_observations",
    "ExactReal.Props.real_observations",
    "ExactReal.Props.elt_depends_iff",
    "ExactReal.Props.simplify_involved"
   ],
   "note": "the state shared between numbers (caches of approximations, factories) is separated from the values here; that it does not change results is C39, C82 and C84; over number fields the shared state of the field is C92"
  }
 ]
}