c("C01","proved","mul_value mul_mult mul_throws_iff")
c("C02","proved","mul_comm mul_assoc mul_assoc_defined one_mul")
c("C03","proved","cache_lookup_exact cache_lookup_mult")
c("C04","proved","hash_consistent hash_spec")
c("C05","proved","div_sound div_value div_complete div_throws_iff mul_div_cancel")
c("C06","proved","deglex_never_throws deglex_iff deglex_strict_total")
c("C07","proved","deglex_mul rational_deglex deglex_wellFounded")
c("C08","proved","make_spec make_order_irrelevant make_any_sort make_throws_iff module_eq_iff")
c("C09","proved","span_spec span_least span_comm span_comm_gens span_self span_throws_iff")
c("C10","proved","submodule_iff submodule_order")
c("C11","partial","promote_partial promote_general promote_drops","promote preserves the value when the element's generators with non-zero coefficient are in the target; promote_drops is a machine-checked counterexample to the full claim: promotion to a module lacking a generator with a nonzero coefficient silently changes the value (finding F8). promote_general characterizes the outcome in every case.")
c("C12","proved","add_value add_fails_iff add_module add_comm_eq add_assoc_eq")
c("C13","proved","neg_value sub_value sub_defined_iff sub_self_eq")
c("C14","proved","elt_mul_value elt_mul_module elt_mul_fails_iff elt_mul_unital elt_mul_defined elt_mul_comm_eq elt_mul_assoc_eq elt_mul_add_eq")
c("C15","proved","imulZ_value imulQ_value imulR_value idivZ_value idivQ_value idivR_value field_scale_defined integers_scale_defined","division by zero of an element of a rank-0 module returns (there is no coefficient to divide); the theorems state this explicitly.")
c("C16","proved","eq_iff eq_sound eq_throws_iff eq_equivalence eq_zero_generator","eq_zero_generator shows that the exception for the generator 0 is needed (finding F11); completeness (equal numbers compare equal) is for generators that are linearly independent, as the documentation assumes; C58 is about the generators the library actually produces.")
c("C17","proved","simplify_spec simplify_idempotent simplify_canonical")
c("C30","proved","rational_sound rational_iff eqQ_iff eqZ_iff integer_iff integer_rational_coefficients rational_zero_generator","rational_zero_generator shows that the exception for the generator 0 is needed (finding F11).")
c("C31","proved","rn_bool_iff bool_iff bool_sound bool_zero_generator","the only exception, a module with the generator rational(0) (finding F11), is shown by bool_zero_generator.")
c("C32","partial","unit_iff_partial unit_wrong","proved for modules whose rational generator is 1; unit_wrong is a counterexample to the full claim (finding F12: the value of a rational generator is ignored).")
c("C33","partial","one_sound one_complete_partial one_complete_rings one_wrong","one() is sound always and complete over fields and for generator 1; one_wrong is a counterexample over the integers (finding F20).")
c("C45","partial","scale_unchanged_partial imulQ_corrupts idivZ_corrupts scale_keeps_module scale_int_outcome","scale_int_outcome says exactly what is left over the integers; the full claim is false: imulQ_corrupts/idivZ_corrupts are counterexamples over ZZ (finding F7); proved for the rational and number field rings. Missing: the integers.")
c("C46","partial","rational_floor_partial rational_floor_wrong rational_floor_neg","the full claim is false of the code, which truncates (finding F5); proved for q >= 0 or integral q, and the exact deviation otherwise.")
c("C50","proved","nf_compositum nf_mixed_sound nf_mixed_defined nf_mixed_throws nf_compositum_order exists_sqrt2 nf_imulR_leaves_ring","nf_imulR_leaves_ring records that in-place multiplication by a foreign field element keeps the module's smaller ring (finding F21).")
c("C53","proved","eqRN_iff eqRN_throws_iff eq_zero_generator","eq_zero_generator shows that the exception for the generator 0 is needed (finding F11).")
c("C18","proved","truediv_sound truediv_zero truediv_mul_eq mul_truediv_cancel")
c("C19","proved","truediv_terminates truediv_stable truediv_complete truediv_nonunital truediv_ends","truediv_nonunital shows that the caveat about rational generators in the statement is needed (finding F16).")
c("C48","partial","arf_mantissa_exponent arf_of_mantissa_exponent arf_shift arf_floor arf_ceil arf_logb arf_dyadic_closed arf_round_spec arf_round_nearest arf_shift_machine_partial arf_logb_machine_partial arf_shift_fails arf_logb_fails","false for two extreme values: >> by the smallest long (finding F41, arf_shift_fails) and logb of 2^(2^63-1) (finding F42, arf_logb_fails); proved for everything else, with 64 bit integers in arf_shift_machine_partial and arf_logb_machine_partial.")
c("C40","proved","random_arf random_arf_append random_arf_mono random_value_mem random_arf_all_zero","random_arf_all_zero: for a stream without any digit 1 the loop never returns.")
c("C24","partial","arf_relative_error_partial arf_relative_error_product_partial arf_relative_error_few_factors_partial arf_relative_error_two_factors_partial arf_relative_error_few_factors_interval_partial arf_relative_error_fails","the full claim fails for products (finding F17, arf_relative_error_fails); proved with the claimed constant for every other number and with 3/2 * 2^-prec for products (prec >= 2; 7/2 for prec < 2); for products of random numbers the claimed constant is proved whenever a power of two lies between 4n and 6n for the number n of factors (n = 2, 3, 4, 6, 7, 8, 11, ..., 16, ...; the counterexample has n = 5), and with random numbers in intervals for 4n(1 + 2^-prec) <= 2^k < 6n.")
c("C41","proved","randomIn_mem randomIn_throws_iff random_bounds_finite","the pseudo-random generators are arbitrary functions with GMP's documented range.")
c("C52","partial","random_double_round_trip randomNear_partial randomDouble_infinite random_double_builds random_double_special random_double_extreme_fails","proved for every finite double but the largest and the smallest one, for which one of the computed bounds is infinite (finding F23).")
c("C34","partial","toDouble_partial toDouble_not_nearest toDouble_rational_double toDouble_few_factors_partial toDouble_two_factors_partial toDouble_faithful_partial toDouble_rational_mono toDouble_not_monotone","the full claim fails: the conversion rounds twice (finding F6, toDouble_not_nearest); proved: as close as any other double up to 2^-53 |x| (3*2^-54 |x| for products; 2^-53 |x| also for products of 2, 3, 4, 6, 7, 8, ... random numbers), exact for doubles, and faithful (no double lies strictly between the number and the result) for numbers that are not products; the double rounding even breaks the order of real numbers (toDouble_not_monotone).")
c("C28","proved","ball_lt ball_gt ball_le ball_ge ball_eq ball_ne ball_ne_eq")
c("C29","partial","ball_rational_partial ball_rational_ne_wrong ball_rational_ne_fails xball_rational_partial xball_rational_exact xball_rational_ne_wrong","every comparison of a ball (including infinite and indeterminate ones, xball_rational_partial) and a rational but != is sound; != is a copy of == (finding F4).")
c("C25","partial","arb_partial refine_partial arb_contains_fails arb_random_contains_iff","the enclosure returned may miss the number by a small factor of its radius (finding F1, arb_contains_fails); proved with the enlarged radius, and arb_random_contains_iff characterizes when a random number is in its enclosure.")
c("C27","partial","cmp_partial cmp_zero_partial cmp_rational_partial cmp_error_partial cmp_fails cmp_lower_end_fails","cmp answers 0 for an x slightly outside of the ball (finding F3); proved: -1 and 1 are right for every number that is not a product (up to the lower end of the ball), and up to an error bound for products.")
c("C23","partial","real_lt_partial real_lt_opposite_signs real_lt_rational real_lt_terminates real_lt_arf_partial real_sign real_lt_arf_terminates real_lt_rational_partial real_lt_rational_terminates real_lt_random real_lt_arf_random real_lt_arf_two_bits real_lt_arf_equal real_lt_sound real_lt_arf_fails real_lt_fails real_lt_integer_partial real_lt_integer_fails","the full claim fails for numbers that agree to about the working precision (finding F2); proved: exact for two rationals, two random numbers, opposite signs, non-products against numbers of two binary digits (such as small integers), positive answers for non-products, correct up to an error bound otherwise; termination for distinct numbers.")
c("C26","partial","elt_arb_contains elt_arb_partial elt_arb_terminates elt_arb_fails","the full claim is false (elt_arb_fails, finding F1); accuracy and termination are unconditional; containment assumes that the enclosures of the generators contain them (they need not: finding F1) and the documented contract of FLINT's arithmetic.")
c("C22","partial","elt_lt_exact elt_lt_partial elt_sign elt_lt_terminates elt_lt_returns elt_gt_exact elt_trichotomy elt_lt_fails good_case","exact when the enclosures of the generators contain them; otherwise a correct order up to 2^-61 relative; elt_lt_fails is a counterexample to the full claim (finding F25).")
c("C21","partial","elt_floor_exact elt_floor_partial elt_floor_terminates elt_floor_returns elt_floor_fails","exact when the enclosures of the generators contain them and for elements that equal a rational; otherwise correct up to an error bound; elt_floor_fails is a counterexample to the full claim (finding F25).")
c("C35","partial","elt_double_exact elt_double_partial elt_double_rational elt_double_terminates elt_double_returns elt_double_subnormal_fails elt_double_fails good_double","a double that is nearest up to 3*2^-53 relative always; a nearest double when the enclosures of the generators contain them; elt_double_subnormal_fails and elt_double_fails are counterexamples to the full claim (findings F22, F25).")
c("C36","partial","elt_hash_partial nearest_unique elt_hash_fails good_double","equal elements hash to the same value when the enclosures of the generators contain them or the value is rational; elt_hash_fails is a counterexample to the full claim (finding F25).")
c("C20","partial","floordiv_exact floordiv_partial floordiv_multiple floordiv_zero floordiv_terminates floordiv_returns floordiv_fails good_floordiv","the shortcut is sound, complete and exact; the loop returns the floor when the enclosures of the generators contain them, and is correct up to 2^-59 relative otherwise; termination for every nonzero divisor; floordiv_fails is a counterexample to the full claim (finding F25) and floordiv_zero shows undefined behaviour for a zero divisor (finding F10).")
c("C38","proved","unique id_unique id_never_reused immutable held_alive mul_result div_result factory_result unique_with_modules","histories have fewer than 2^64 - 2^31 creations (identities are 64 bits wide); the factory library is modelled by its contract.")
c("C42","proved","random_same random_digits randomIn_result randomIn_same")
c("C43","proved","save_total round_trip round_trip_alive","the archive is a tree of named values; writing numbers as text is not modelled.")
c("C44","partial","element_round_trip_partial element_round_trip_alive element_round_trip_fails","the full claim is false: coefficients are written in the order of the generators in the writing process and are not permuted on load (finding F9, element_round_trip_fails, a fresh loading process); proved: never throws, same ring, same set of generators; same value if the module is alive or the random numbers have ids in the same order.")
c("C55","proved","module_unique module_make_result module_immutable module_alive")
c("C37","proved","seeds_distinct seeds_wrap seeds_race seeds_explicit","seeds of calls without a seed that do not run concurrently are distinct until 2^32 calls; seeds_race, seeds_wrap and seeds_explicit show that each caveat of the statement is needed (finding F14).")
c("C39","proved","cache_transparent cache_bounded")
c("C47","proved","assign_sound assign_defined inplace_sound inplace_defined inplace_mul_arf","the kernels are arbitrary functions of the operands' values, precision and rounding mode; proved for every expression tree and every aliasing of the target with the operands.")
c("C49","proved","rationalCoefficients_nf rationalCoefficients_injective rationalCoefficients_unique rationalCoefficients_rational numVector_exists","e-antic's vector of numerators is modelled by its contract; numVector_exists shows that the contract can be met for every number field.")
c("C51","proved","ids_distinct ids_wrap ids_fresh")
c("C54","proved","mul_overflow mul_no_overflow keyEq_no_overflow div_no_overflow hash_no_overflow deglex_no_overflow totalDegree_overflow squaring_overflows degree_overflows","mul_overflow and totalDegree_overflow characterize exactly when the behaviour is undefined; squaring_overflows and degree_overflows show that the bound is within reach of a client.")
c("C56","partial","cmp_self_partial refine_no_abort_partial refine_contained_no_abort_partial arb_no_abort_partial lt_no_abort_partial lt_arf_no_abort_partial arb_zero_debug arb_abort_fails","proved for all numbers that are neither zero nor a product; false for products (finding F28, arb_abort_fails) and undefined for zero (F18, arb_zero_debug).")
c("C57","proved","random_distinct random_arf_returns random_strictly_between random_lt_returns random_denominator random_not_dyadic random_lt_arf_returns rand48_documented","Boost's rand48 and uniform_int_distribution are modelled by their documented algorithm; rand48_documented checks it against the number printed in the project's documentation.")
c("C58","partial","independence_partial random_dependent independence_fails random_same_seed_dependent same_seed_fails zero_element_pending","the full claim is false: independence_fails (finding F29, distinct seeds: the digit streams are shifts of each other) and same_seed_fails (finding F15, the same seed for different intervals); zero_element_pending is the consequence (finding F24); proved for one random number and integer coefficients of up to 49 bits.")
c("C59","proved","arf_order arf_order_long arf_order_nan arf_hash arf_neg_abs arf_double_round_trip arf_to_double arf_floor_special","arf_order_nan shows that NaN has to be excluded (finding F30): NaN <= x and NaN >= x hold for every x although NaN == x does not. The two zeros of double are not distinguished.")
c("C60","partial","arf_print_fraction_partial arf_print_integer_fails arf_print_integer arf_print_default_fails stream_valid","proved for non-integers: what is printed for one is printed for no other value; false for integers beyond 2^53 (finding F31, arf_print_integer_fails). How doubles and integers are written is a parameter with the three properties XArf.Format.Valid; stream_valid: the streams of the C++ library (printf %g) have them. With the default precision already 1000000 and 1000001 are printed alike (arf_print_default_fails); integers with at most as many digits as the precision of the stream are printed exactly (arf_print_integer).")
c("C61","partial","print_denotes print_sorted print_separated_partial denotes_unique denotes_value print_injective print_zero_generator_fails","proved for generators that are not zero and differ by more than 2^-61 relative (print_separated_partial), and for any comparison that distinguishes the generators (print_denotes, print_sorted, print_injective); false for modules with the generator rational(0): printing never returns (print_zero_generator_fails, finding F32).")
c("C62","partial","threads_disjoint_partial threads_cached_partial threads_race threads_race_large threads_race_products","proved when no number is involved in the calls of two threads (threads_disjoint_partial), and when everything has been computed before (threads_cached_partial). False otherwise (finding F26): two threads that ask the same number for an approximation that has not been computed before have a data race in every complete execution (threads_race), also for different precisions (threads_race_large), and even for different products with a common factor (threads_race_products). Interleavings are sequentially consistent, which is enough to define data races.")
c("C64","partial","real_lt_sound real_lt_asymm real_lt_trans_partial real_lt_not_weak real_le_not_antisymm elt_lt_asymm elt_derived_exact elt_le_exact real_derived_rational real_derived_mpq","irreflexive and asymmetric for all numbers; transitive and positive answers right for numbers that are not products; not a strict weak order: real_lt_not_weak has a number that is equivalent to two numbers of which one is smaller (finding F33).")
c("C63","proved","xball_compare xball_compare_nan xball_compare_exact xball_equal xball_of_int xball_compare_int xball_neg xball_constants xball_finite_exact","FLINT's predicates are modelled by their documentation (balls are subintervals of the extended real line); the comparisons with rationals are in C29.")
c("C65","proved","ofCoefficients_value ofCoefficients_throws coefficient_spec gen_value zero_value default_value ofScalar_value convert_value_of convert_int_rat convert_int_field convert_rat_field convert_compose","number fields are subfields of the real algebraic numbers; coefficients passed to a constructor belong to the ring of the module.")
c("C66","partial","program_value_partial program_wf program_gensIn program_noZero program_queries program_value_fields sample_run","proved for all programs over the rationals and number fields (program_value_fields) and over the integers except for one thing that is false of the code: a scalar multiplication or division over the integers that throws may have changed the element (finding F7; Cmd.Failed says which calls; sample_run has such a run). program_queries needs that the program does not call rational(0) and that the random numbers are algebraically independent.")
c("C67","proved","program_builds queries_builds program_nocheck exec_build truediv_nocheck promote_depends_on_build","promote_depends_on_build shows that assertions do matter for calls outside of such programs (promote() to a module that misses a generator).")
c("C68","proved","program_progress program_division truediv_ends exec_outcomes one_undefined zero_div_zero","program_progress is about all calls but truediv, whose loop has a budget in the model; program_division says that there is a budget from which on the outcome does not depend on the budget. one_undefined shows that the restriction to positive rational numbers is needed (finding F13).")
c("C69","proved","storage_num_defined storage_num_value storage_num_leak storage_elt_defined storage_elt_value storage_elt_leak storage_add_self","the functions of FLINT and the smart pointer of spimpl (an absent submodule) are modelled by their contracts; copying an element whose value was moved out is left undefined.")
c("C70","proved","py_elements py_operations py_surjective py_eq py_eq_real py_rational","elements are those of Spec/Python.lean (Made); the default element Element() without a module is left out.")
c("C71","proved","py_div py_div_zero py_unit py_invert py_divides py_gcd","py_div_zero is for builds with argument checks (the default).")
c("C72","partial","py_compare_returns py_operators_agree py_order_exact py_order_partial py_abs","the order is exact if the approximations of the generators contain them (they need not: findings F1 and F25), and otherwise up to 2^-61 of the size of the operands; elt_lt_fails is the counterexample for the comparison of the C++ elements.")
c("C73","proved","py_algebraic","for every ring of numbers into which the base ring is mapped and that is mapped to the reals.")
c("C74","partial","py_expression_partial py_expression_progress_partial py_expression_alive py_neg_dangles py_neg_type_error py_number_operand_fails py_number_operand_value_partial py_number_operand_left","proved for all programs that do not negate a number outside of an expression; for those that do the claim is false of the code (finding F34, py_neg_dangles, py_neg_type_error); an operand that is a Python number is gone before the expression is evaluated (finding F40, py_number_operand_fails); as long as no object has been collected, all programs compute the right expressions (py_expression_alive).")
c("C75","partial","program_order_partial program_order_returns elt_sign_pos","signs are exact and all calls return; comparisons, floor, ceil, floordiv and double are right up to the error bounds of C20-C22 and C35, whose counterexamples (findings F22, F25) show that they are not exact.")
c("C76","partial","bounds_enclose_partial ofBounds_contains ofBounds_tight bounds_round_trip_partial bounds_undefined","the conversion to bounds is correct for balls with at least two accurate bits; for all others the code asks FLINT for a precision that is not valid (finding F18, bounds_undefined).")
c("C77","partial","archive_of_save archive_read_partial archive_unique archive_same element_read archive_single_fails element_count_fails","archives that do not describe a number are not rejected in release builds: a product with a single factor becomes a second object for the same number (finding F35, archive_single_fails), a wrong number of coefficients is accepted (element_count_fails).")
c("C78","proved","mpz_text mpq_text arf_text arb_text text_injective mpz_text_rejects mpz_text_space mpz_text_base text_fails","GMP's and FLINT's string functions are modelled after their sources. text_fails shows what happens to texts that the library does not write (finding F36).")
c("C79","partial","double_print double_print_int rational_print_partial random_print_partial real_print_injective module_print_injective constrained_print_fails","false for random numbers in an interval (finding F37, constrained_print_fails): ℝ(A + BpE) is printed for A + B * 2^(E-1). Proved for rationals (rational_print_partial), random numbers (random_print_partial; the dots suggest truncation but the digits are rounded), and for identification of products and modules (real_print_injective, module_print_injective).")
c("C80","partial","stream_read_partial stream_read_alive stream_write stream_address_fails","proved for archives that keep the objects alive that have been written (cereal since 1.3.1; or the program does); the #if branch for older versions confuses numbers (finding F38, stream_address_fails). The coefficients of elements belong to the same generators under the assumption of C44 (finding F9).")
c("C81","partial","random_bounds_finite random_bounds_rejected random_infinite_partial random_infinite_fails","finite bounds, rejected bounds and infinite intervals that contain numbers of both signs are right; (0, inf), (-inf, 0), (-inf, inf) end the process, and (-inf, b) with b < 0 fails an assertion or yields a positive number (finding F39, random_infinite_fails).")
c("C82","proved","program_in_process process_progress eq_in_process questions_in_process random_in_process of_value","proved for processes with at most 2^64 numbers created (the identities must not wrap). Factory calls are atomic steps, temporaries live until the call returns (DESIGN section 5). The exceptions of C66 and C30 (division by zero generators, one() with a nonpositive generator, F7) are part of the statements.")
c("C83","proved","reclaim_bounded reclaim_total reclaim_spares reclaim_complete reclaim_confluent reclaim_everything references_accounted","proved for processes with at most 2^64 numbers created. The contract of UniqueFactory (entries can be removed after their object is gone) is assumed; the up to 1024 references of KeepSetAlive and the references of an archive that is being read count as references that somebody holds.")
c("C84","partial","order_in_process_partial arb_in_process_partial num_order_in_process_partial order_returns_in_process question_deterministic question_keeps question_possible","partial for the same reason as C20-C22, C26 and C35: the documented exactness is false of the code (findings F1, F2, F22, F25, with counterexample theorems), so the answers are right up to the stated error; signs are exactly right. Determinism, independence of schedules and placement, possibility and harmlessness of questions are proved in full, for processes with at most 2^64 numbers created. The cache of approximations is the subject of C39 and C62 and not part of this model.")
c("C85","proved","threads_compute thread_run threads_progress threads_finish threads_finish_asking","for processes that create at most 2^64 numbers (hypothesis next <= 2^64, the counter of seeds and ids is a 64 bit integer). The atomic steps are those of C82 and C84: reads of objects, calls of factories (which hold a lock, C38). Data races on the memory of the approximation caches are C39 and C62.")
c("C86","partial","threads_answer_partial threads_finish_asking","partial for the same reason as C84: the documented exactness of the answers is false of the code, so they are right up to the stated error. Independence of the schedule, correct signs and termination when scheduled alone are proved in full.")
c("C87","proved","bytes_read bytes_cut file_recovered integer_exact rational_exact unit_exact","for processes whose objects hold values of their C++ types (Source.Typed: long and int exponents, texts and vectors shorter than 2^64), fewer than 2^31 objects in the archive and fewer than 2^64 objects in a process; number fields through the contract Codec.Exact")
c("C88","proved","real_lt_effort real_lt_arf_effort real_lt_rational_effort elt_arb_effort elt_lt_effort elt_ltRN_effort elt_ltQ_effort elt_floor_effort elt_floordiv_effort elt_double_effort real_lt_local elt_arb_local elt_lt_local elt_floor_local elt_double_local elt_floordiv_local elt_lt_long","under the contracts Arith.Lawful and CoeffLawful, and CoeffAccurate (coefficients are approximated with a few units in the last place: proved for integers and rationals, for number fields a property of e-antic).")
c("C89","proved","py_is_square py_is_square_integers py_is_square_rationals py_is_square_field","SageMath decides squares in K (hypothesis hs); for number fields K(x) is assumed to be the conversion of C73 (py_is_square covers any conversion that is right when it returns)")
c("C90","proved","real_lt_no_overflow elt_arb_no_overflow elt_lt_no_overflow elt_lt_other_no_overflow elt_floor_no_overflow elt_lt_machine moderate_of_atoms arb_overflow real_lt_other_no_overflow real_lt_arf_machine real_lt_rational_machine elt_double_no_overflow elt_floordiv_no_overflow elt_floor_machine elt_double_machine elt_floordiv_machine product_bits rank_bits rank_bits_inexact","the integers in the mantissas and exponents of FLINT's numbers are unbounded as in FLINT; the int of totalDegree() is C54; log2 of the C library is assumed to be off by less than 2^-33 and, for elements, exact for powers of two")
c("C91","proved","py_ball_compare py_ball_compare_nan py_program py_program_plain py_sorted","rationals (mpq_class) as operands are C29, where != is wrong (finding F4); cppyy's choice of an overload for a Python int is any integer type that holds it")
c("C92","partial","embed_arb embed_arb_terminates embed_lt_exact embed_lt_partial embed_lt_same embed_floor_exact embed_floor_partial embed_double embed_hash_partial embed_floordiv embed_lt_effort embed_ltRN_effort embed_ltQ_effort embed_floor_effort embed_double_effort embed_floordiv_effort","everything under the hypothesis that the balls of the generators contain the generators (or up to the stated relative error without it), because without it C20-C22, C35 and C36 are false of the code, see elt_lt_fails, elt_floor_fails, floordiv_fails and the hash counterexample there")
c("C93","partial","py_to_number py_number_roundtrip py_floordiv_multiple py_round_returns py_floor_integer py_rounding_partial py_floordiv_partial py_floordiv_mul_partial py_floordiv_zero py_hash_partial py_hash_example_partial py_an_element","(x*y) // y == x.floor() and equality of hashes are false in general since floordiv, floor and the conversion to double are (floordiv_fails, elt_floor_fails, findings of C20, C21, C36), so they are proved under the hypothesis that the balls of the generators contain the generators, for rational elements, and up to an error otherwise; 0 // 0 is 0 and x // 0 is undefined (finding F10)")
c("C94","proved","py_identity py_identity_complete py_domain py_characteristic py_not_field py_some_elements","powers are products (SageMath's generic power is not part of the repository)")
c("C95","proved","random_double_round_trip random_element_double py_random_element_float random_double_print random_between_double random_element_between","")
c("C96","proved","span_rank submodule_rank add_rank_eq add_rank mul_rank simplify_rank simplify_rank_minimal","")
c("C97","proved","program_provenance program_observations elt_observations real_observations elt_depends_iff simplify_involved","the state shared between numbers (caches of approximations, factories) is separated from the values here; that it does not change results is C39, C82 and C84; over number fields the shared state of the field is C92")
