# Axioms of the theorems in MANIFEST.json (output of `#print axioms`, see tools/axioms.py)

## none

* `ExactReal.Props.seeds_race`
* `ExactReal.Props.seeds_explicit`

## propext

* `ExactReal.Props.scale_keeps_module`
* `ExactReal.Props.py_neg_type_error`
* `ExactReal.Props.py_number_operand_left`
* `ExactReal.Props.unit_exact`

## propext, Classical.choice, Quot.sound

* `ExactReal.Props.mul_value`
* `ExactReal.Props.mul_mult`
* `ExactReal.Props.mul_throws_iff`
* `ExactReal.Props.mul_comm`
* `ExactReal.Props.mul_assoc`
* `ExactReal.Props.mul_assoc_defined`
* `ExactReal.Props.one_mul`
* `ExactReal.Props.cache_lookup_exact`
* `ExactReal.Props.cache_lookup_mult`
* `ExactReal.Props.hash_consistent`
* `ExactReal.Props.hash_spec`
* `ExactReal.Props.div_sound`
* `ExactReal.Props.div_value`
* `ExactReal.Props.div_complete`
* `ExactReal.Props.mul_div_cancel`
* `ExactReal.Props.deglex_never_throws`
* `ExactReal.Props.deglex_iff`
* `ExactReal.Props.deglex_strict_total`
* `ExactReal.Props.deglex_mul`
* `ExactReal.Props.rational_deglex`
* `ExactReal.Props.deglex_wellFounded`
* `ExactReal.Props.make_spec`
* `ExactReal.Props.make_order_irrelevant`
* `ExactReal.Props.make_any_sort`
* `ExactReal.Props.make_throws_iff`
* `ExactReal.Props.module_eq_iff`
* `ExactReal.Props.span_spec`
* `ExactReal.Props.span_least`
* `ExactReal.Props.span_comm`
* `ExactReal.Props.span_comm_gens`
* `ExactReal.Props.span_self`
* `ExactReal.Props.span_throws_iff`
* `ExactReal.Props.submodule_order`
* `ExactReal.Props.promote_partial`
* `ExactReal.Props.promote_general`
* `ExactReal.Props.promote_drops`
* `ExactReal.Props.add_value`
* `ExactReal.Props.add_fails_iff`
* `ExactReal.Props.add_module`
* `ExactReal.Props.add_comm_eq`
* `ExactReal.Props.add_assoc_eq`
* `ExactReal.Props.neg_value`
* `ExactReal.Props.sub_value`
* `ExactReal.Props.sub_defined_iff`
* `ExactReal.Props.sub_self_eq`
* `ExactReal.Props.elt_mul_value`
* `ExactReal.Props.elt_mul_module`
* `ExactReal.Props.elt_mul_fails_iff`
* `ExactReal.Props.elt_mul_unital`
* `ExactReal.Props.elt_mul_defined`
* `ExactReal.Props.elt_mul_comm_eq`
* `ExactReal.Props.elt_mul_assoc_eq`
* `ExactReal.Props.elt_mul_add_eq`
* `ExactReal.Props.imulZ_value`
* `ExactReal.Props.imulQ_value`
* `ExactReal.Props.imulR_value`
* `ExactReal.Props.idivZ_value`
* `ExactReal.Props.idivQ_value`
* `ExactReal.Props.idivR_value`
* `ExactReal.Props.field_scale_defined`
* `ExactReal.Props.integers_scale_defined`
* `ExactReal.Props.eq_iff`
* `ExactReal.Props.eq_sound`
* `ExactReal.Props.eq_throws_iff`
* `ExactReal.Props.eq_equivalence`
* `ExactReal.Props.eq_zero_generator`
* `ExactReal.Props.simplify_spec`
* `ExactReal.Props.simplify_idempotent`
* `ExactReal.Props.simplify_canonical`
* `ExactReal.Props.rational_sound`
* `ExactReal.Props.rational_iff`
* `ExactReal.Props.eqQ_iff`
* `ExactReal.Props.eqZ_iff`
* `ExactReal.Props.integer_iff`
* `ExactReal.Props.integer_rational_coefficients`
* `ExactReal.Props.rational_zero_generator`
* `ExactReal.Props.rn_bool_iff`
* `ExactReal.Props.bool_iff`
* `ExactReal.Props.bool_sound`
* `ExactReal.Props.bool_zero_generator`
* `ExactReal.Props.unit_iff_partial`
* `ExactReal.Props.unit_wrong`
* `ExactReal.Props.one_sound`
* `ExactReal.Props.one_complete_partial`
* `ExactReal.Props.one_complete_rings`
* `ExactReal.Props.one_wrong`
* `ExactReal.Props.scale_unchanged_partial`
* `ExactReal.Props.imulQ_corrupts`
* `ExactReal.Props.idivZ_corrupts`
* `ExactReal.Props.scale_int_outcome`
* `ExactReal.Props.rational_floor_partial`
* `ExactReal.Props.rational_floor_wrong`
* `ExactReal.Props.rational_floor_neg`
* `ExactReal.Props.nf_compositum`
* `ExactReal.Props.nf_mixed_sound`
* `ExactReal.Props.nf_mixed_defined`
* `ExactReal.Props.nf_mixed_throws`
* `ExactReal.Props.nf_compositum_order`
* `ExactReal.Props.exists_sqrt2`
* `ExactReal.Props.nf_imulR_leaves_ring`
* `ExactReal.Props.eqRN_iff`
* `ExactReal.Props.eqRN_throws_iff`
* `ExactReal.Props.truediv_sound`
* `ExactReal.Props.truediv_zero`
* `ExactReal.Props.truediv_mul_eq`
* `ExactReal.Props.mul_truediv_cancel`
* `ExactReal.Props.truediv_terminates`
* `ExactReal.Props.truediv_stable`
* `ExactReal.Props.truediv_complete`
* `ExactReal.Props.truediv_nonunital`
* `ExactReal.Props.truediv_ends`
* `ExactReal.Props.arf_mantissa_exponent`
* `ExactReal.Props.arf_of_mantissa_exponent`
* `ExactReal.Props.arf_shift`
* `ExactReal.Props.arf_floor`
* `ExactReal.Props.arf_ceil`
* `ExactReal.Props.arf_logb`
* `ExactReal.Props.arf_dyadic_closed`
* `ExactReal.Props.arf_round_spec`
* `ExactReal.Props.arf_round_nearest`
* `ExactReal.Props.arf_shift_machine_partial`
* `ExactReal.Props.arf_logb_machine_partial`
* `ExactReal.Props.arf_shift_fails`
* `ExactReal.Props.arf_logb_fails`
* `ExactReal.Props.random_arf`
* `ExactReal.Props.random_arf_append`
* `ExactReal.Props.random_arf_mono`
* `ExactReal.Props.random_value_mem`
* `ExactReal.Props.random_arf_all_zero`
* `ExactReal.Props.arf_relative_error_partial`
* `ExactReal.Props.arf_relative_error_product_partial`
* `ExactReal.Props.arf_relative_error_few_factors_partial`
* `ExactReal.Props.arf_relative_error_two_factors_partial`
* `ExactReal.Props.arf_relative_error_few_factors_interval_partial`
* `ExactReal.Props.arf_relative_error_fails`
* `ExactReal.Props.randomIn_mem`
* `ExactReal.Props.randomIn_throws_iff`
* `ExactReal.Props.random_bounds_finite`
* `ExactReal.Props.random_double_round_trip`
* `ExactReal.Props.randomNear_partial`
* `ExactReal.Props.randomDouble_infinite`
* `ExactReal.Props.random_double_builds`
* `ExactReal.Props.random_double_special`
* `ExactReal.Props.random_double_extreme_fails`
* `ExactReal.Props.toDouble_partial`
* `ExactReal.Props.toDouble_not_nearest`
* `ExactReal.Props.toDouble_rational_double`
* `ExactReal.Props.toDouble_few_factors_partial`
* `ExactReal.Props.toDouble_two_factors_partial`
* `ExactReal.Props.toDouble_faithful_partial`
* `ExactReal.Props.toDouble_rational_mono`
* `ExactReal.Props.toDouble_not_monotone`
* `ExactReal.Props.ball_lt`
* `ExactReal.Props.ball_gt`
* `ExactReal.Props.ball_le`
* `ExactReal.Props.ball_ge`
* `ExactReal.Props.ball_eq`
* `ExactReal.Props.ball_ne`
* `ExactReal.Props.ball_ne_eq`
* `ExactReal.Props.ball_rational_partial`
* `ExactReal.Props.ball_rational_ne_wrong`
* `ExactReal.Props.ball_rational_ne_fails`
* `ExactReal.Props.xball_rational_partial`
* `ExactReal.Props.xball_rational_exact`
* `ExactReal.Props.xball_rational_ne_wrong`
* `ExactReal.Props.arb_partial`
* `ExactReal.Props.refine_partial`
* `ExactReal.Props.arb_contains_fails`
* `ExactReal.Props.arb_random_contains_iff`
* `ExactReal.Props.cmp_partial`
* `ExactReal.Props.cmp_zero_partial`
* `ExactReal.Props.cmp_rational_partial`
* `ExactReal.Props.cmp_error_partial`
* `ExactReal.Props.cmp_fails`
* `ExactReal.Props.cmp_lower_end_fails`
* `ExactReal.Props.real_lt_partial`
* `ExactReal.Props.real_lt_opposite_signs`
* `ExactReal.Props.real_lt_rational`
* `ExactReal.Props.real_lt_terminates`
* `ExactReal.Props.real_lt_arf_partial`
* `ExactReal.Props.real_sign`
* `ExactReal.Props.real_lt_arf_terminates`
* `ExactReal.Props.real_lt_rational_partial`
* `ExactReal.Props.real_lt_rational_terminates`
* `ExactReal.Props.real_lt_random`
* `ExactReal.Props.real_lt_arf_random`
* `ExactReal.Props.real_lt_arf_two_bits`
* `ExactReal.Props.real_lt_arf_equal`
* `ExactReal.Props.real_lt_sound`
* `ExactReal.Props.real_lt_arf_fails`
* `ExactReal.Props.real_lt_fails`
* `ExactReal.Props.real_lt_integer_partial`
* `ExactReal.Props.real_lt_integer_fails`
* `ExactReal.Props.elt_arb_contains`
* `ExactReal.Props.elt_arb_partial`
* `ExactReal.Props.elt_arb_terminates`
* `ExactReal.Props.elt_arb_fails`
* `ExactReal.Props.elt_lt_exact`
* `ExactReal.Props.elt_lt_partial`
* `ExactReal.Props.elt_sign`
* `ExactReal.Props.elt_lt_terminates`
* `ExactReal.Props.elt_lt_returns`
* `ExactReal.Props.elt_gt_exact`
* `ExactReal.Props.elt_trichotomy`
* `ExactReal.Props.elt_lt_fails`
* `ExactReal.Props.good_case`
* `ExactReal.Props.elt_floor_exact`
* `ExactReal.Props.elt_floor_partial`
* `ExactReal.Props.elt_floor_terminates`
* `ExactReal.Props.elt_floor_returns`
* `ExactReal.Props.elt_floor_fails`
* `ExactReal.Props.elt_double_exact`
* `ExactReal.Props.elt_double_partial`
* `ExactReal.Props.elt_double_rational`
* `ExactReal.Props.elt_double_terminates`
* `ExactReal.Props.elt_double_returns`
* `ExactReal.Props.elt_double_subnormal_fails`
* `ExactReal.Props.elt_double_fails`
* `ExactReal.Props.good_double`
* `ExactReal.Props.elt_hash_partial`
* `ExactReal.Props.nearest_unique`
* `ExactReal.Props.elt_hash_fails`
* `ExactReal.Props.floordiv_exact`
* `ExactReal.Props.floordiv_partial`
* `ExactReal.Props.floordiv_multiple`
* `ExactReal.Props.floordiv_zero`
* `ExactReal.Props.floordiv_terminates`
* `ExactReal.Props.floordiv_returns`
* `ExactReal.Props.floordiv_fails`
* `ExactReal.Props.good_floordiv`
* `ExactReal.Props.unique`
* `ExactReal.Props.id_unique`
* `ExactReal.Props.id_never_reused`
* `ExactReal.Props.immutable`
* `ExactReal.Props.held_alive`
* `ExactReal.Props.mul_result`
* `ExactReal.Props.div_result`
* `ExactReal.Props.factory_result`
* `ExactReal.Props.unique_with_modules`
* `ExactReal.Props.random_same`
* `ExactReal.Props.random_digits`
* `ExactReal.Props.randomIn_result`
* `ExactReal.Props.randomIn_same`
* `ExactReal.Props.save_total`
* `ExactReal.Props.round_trip`
* `ExactReal.Props.round_trip_alive`
* `ExactReal.Props.element_round_trip_partial`
* `ExactReal.Props.element_round_trip_alive`
* `ExactReal.Props.element_round_trip_fails`
* `ExactReal.Props.module_unique`
* `ExactReal.Props.module_make_result`
* `ExactReal.Props.module_immutable`
* `ExactReal.Props.module_alive`
* `ExactReal.Props.seeds_distinct`
* `ExactReal.Props.seeds_wrap`
* `ExactReal.Props.cache_transparent`
* `ExactReal.Props.cache_bounded`
* `ExactReal.Props.inplace_mul_arf`
* `ExactReal.Props.rationalCoefficients_nf`
* `ExactReal.Props.rationalCoefficients_injective`
* `ExactReal.Props.rationalCoefficients_unique`
* `ExactReal.Props.numVector_exists`
* `ExactReal.Props.ids_distinct`
* `ExactReal.Props.ids_fresh`
* `ExactReal.Props.mul_overflow`
* `ExactReal.Props.mul_no_overflow`
* `ExactReal.Props.keyEq_no_overflow`
* `ExactReal.Props.div_no_overflow`
* `ExactReal.Props.hash_no_overflow`
* `ExactReal.Props.deglex_no_overflow`
* `ExactReal.Props.totalDegree_overflow`
* `ExactReal.Props.squaring_overflows`
* `ExactReal.Props.degree_overflows`
* `ExactReal.Props.cmp_self_partial`
* `ExactReal.Props.refine_no_abort_partial`
* `ExactReal.Props.refine_contained_no_abort_partial`
* `ExactReal.Props.arb_no_abort_partial`
* `ExactReal.Props.lt_no_abort_partial`
* `ExactReal.Props.lt_arf_no_abort_partial`
* `ExactReal.Props.arb_zero_debug`
* `ExactReal.Props.arb_abort_fails`
* `ExactReal.Props.random_distinct`
* `ExactReal.Props.random_arf_returns`
* `ExactReal.Props.random_strictly_between`
* `ExactReal.Props.random_lt_returns`
* `ExactReal.Props.random_denominator`
* `ExactReal.Props.random_not_dyadic`
* `ExactReal.Props.random_lt_arf_returns`
* `ExactReal.Props.rand48_documented`
* `ExactReal.Props.independence_partial`
* `ExactReal.Props.random_dependent`
* `ExactReal.Props.independence_fails`
* `ExactReal.Props.random_same_seed_dependent`
* `ExactReal.Props.same_seed_fails`
* `ExactReal.Props.zero_element_pending`
* `ExactReal.Props.arf_order`
* `ExactReal.Props.arf_order_long`
* `ExactReal.Props.arf_order_nan`
* `ExactReal.Props.arf_hash`
* `ExactReal.Props.arf_neg_abs`
* `ExactReal.Props.arf_double_round_trip`
* `ExactReal.Props.arf_to_double`
* `ExactReal.Props.arf_floor_special`
* `ExactReal.Props.arf_print_fraction_partial`
* `ExactReal.Props.arf_print_integer_fails`
* `ExactReal.Props.arf_print_integer`
* `ExactReal.Props.arf_print_default_fails`
* `ExactReal.Props.stream_valid`
* `ExactReal.Props.print_sorted`
* `ExactReal.Props.print_separated_partial`
* `ExactReal.Props.denotes_value`
* `ExactReal.Props.print_injective`
* `ExactReal.Props.print_zero_generator_fails`
* `ExactReal.Props.threads_disjoint_partial`
* `ExactReal.Props.threads_cached_partial`
* `ExactReal.Props.threads_race`
* `ExactReal.Props.threads_race_large`
* `ExactReal.Props.threads_race_products`
* `ExactReal.Props.real_lt_asymm`
* `ExactReal.Props.real_lt_trans_partial`
* `ExactReal.Props.real_lt_not_weak`
* `ExactReal.Props.real_le_not_antisymm`
* `ExactReal.Props.elt_lt_asymm`
* `ExactReal.Props.elt_derived_exact`
* `ExactReal.Props.elt_le_exact`
* `ExactReal.Props.real_derived_rational`
* `ExactReal.Props.real_derived_mpq`
* `ExactReal.Props.xball_compare`
* `ExactReal.Props.xball_compare_nan`
* `ExactReal.Props.xball_compare_exact`
* `ExactReal.Props.xball_equal`
* `ExactReal.Props.xball_of_int`
* `ExactReal.Props.xball_compare_int`
* `ExactReal.Props.xball_neg`
* `ExactReal.Props.xball_constants`
* `ExactReal.Props.xball_finite_exact`
* `ExactReal.Props.ofCoefficients_value`
* `ExactReal.Props.ofCoefficients_throws`
* `ExactReal.Props.coefficient_spec`
* `ExactReal.Props.gen_value`
* `ExactReal.Props.zero_value`
* `ExactReal.Props.default_value`
* `ExactReal.Props.ofScalar_value`
* `ExactReal.Props.convert_value_of`
* `ExactReal.Props.convert_int_rat`
* `ExactReal.Props.convert_int_field`
* `ExactReal.Props.convert_rat_field`
* `ExactReal.Props.convert_compose`
* `ExactReal.Props.program_value_partial`
* `ExactReal.Props.program_wf`
* `ExactReal.Props.program_gensIn`
* `ExactReal.Props.program_noZero`
* `ExactReal.Props.program_queries`
* `ExactReal.Props.program_value_fields`
* `ExactReal.Props.sample_run`
* `ExactReal.Props.program_builds`
* `ExactReal.Props.queries_builds`
* `ExactReal.Props.program_nocheck`
* `ExactReal.Props.exec_build`
* `ExactReal.Props.truediv_nocheck`
* `ExactReal.Props.promote_depends_on_build`
* `ExactReal.Props.program_progress`
* `ExactReal.Props.program_division`
* `ExactReal.Props.exec_outcomes`
* `ExactReal.Props.one_undefined`
* `ExactReal.Props.storage_num_defined`
* `ExactReal.Props.storage_num_value`
* `ExactReal.Props.storage_num_leak`
* `ExactReal.Props.storage_elt_defined`
* `ExactReal.Props.storage_elt_value`
* `ExactReal.Props.storage_elt_leak`
* `ExactReal.Props.storage_add_self`
* `ExactReal.Props.py_elements`
* `ExactReal.Props.py_operations`
* `ExactReal.Props.py_surjective`
* `ExactReal.Props.py_eq`
* `ExactReal.Props.py_eq_real`
* `ExactReal.Props.py_rational`
* `ExactReal.Props.py_div`
* `ExactReal.Props.py_div_zero`
* `ExactReal.Props.py_unit`
* `ExactReal.Props.py_invert`
* `ExactReal.Props.py_divides`
* `ExactReal.Props.py_gcd`
* `ExactReal.Props.py_compare_returns`
* `ExactReal.Props.py_operators_agree`
* `ExactReal.Props.py_order_exact`
* `ExactReal.Props.py_order_partial`
* `ExactReal.Props.py_abs`
* `ExactReal.Props.py_algebraic`
* `ExactReal.Props.py_expression_partial`
* `ExactReal.Props.py_expression_progress_partial`
* `ExactReal.Props.py_expression_alive`
* `ExactReal.Props.py_neg_dangles`
* `ExactReal.Props.py_number_operand_fails`
* `ExactReal.Props.py_number_operand_value_partial`
* `ExactReal.Props.program_order_partial`
* `ExactReal.Props.program_order_returns`
* `ExactReal.Props.elt_sign_pos`
* `ExactReal.Props.bounds_enclose_partial`
* `ExactReal.Props.ofBounds_contains`
* `ExactReal.Props.ofBounds_tight`
* `ExactReal.Props.bounds_round_trip_partial`
* `ExactReal.Props.bounds_undefined`
* `ExactReal.Props.archive_of_save`
* `ExactReal.Props.archive_read_partial`
* `ExactReal.Props.archive_unique`
* `ExactReal.Props.archive_same`
* `ExactReal.Props.element_read`
* `ExactReal.Props.archive_single_fails`
* `ExactReal.Props.element_count_fails`
* `ExactReal.Props.mpz_text`
* `ExactReal.Props.mpq_text`
* `ExactReal.Props.arf_text`
* `ExactReal.Props.arb_text`
* `ExactReal.Props.text_injective`
* `ExactReal.Props.mpz_text_rejects`
* `ExactReal.Props.mpz_text_space`
* `ExactReal.Props.mpz_text_base`
* `ExactReal.Props.text_fails`
* `ExactReal.Props.double_print`
* `ExactReal.Props.double_print_int`
* `ExactReal.Props.rational_print_partial`
* `ExactReal.Props.random_print_partial`
* `ExactReal.Props.real_print_injective`
* `ExactReal.Props.module_print_injective`
* `ExactReal.Props.constrained_print_fails`
* `ExactReal.Props.stream_read_partial`
* `ExactReal.Props.stream_read_alive`
* `ExactReal.Props.stream_write`
* `ExactReal.Props.stream_address_fails`
* `ExactReal.Props.random_bounds_rejected`
* `ExactReal.Props.random_infinite_partial`
* `ExactReal.Props.random_infinite_fails`
* `ExactReal.Props.program_in_process`
* `ExactReal.Props.process_progress`
* `ExactReal.Props.eq_in_process`
* `ExactReal.Props.questions_in_process`
* `ExactReal.Props.random_in_process`
* `ExactReal.Props.of_value`
* `ExactReal.Props.reclaim_bounded`
* `ExactReal.Props.reclaim_total`
* `ExactReal.Props.reclaim_spares`
* `ExactReal.Props.reclaim_complete`
* `ExactReal.Props.reclaim_confluent`
* `ExactReal.Props.reclaim_everything`
* `ExactReal.Props.references_accounted`
* `ExactReal.Props.order_in_process_partial`
* `ExactReal.Props.arb_in_process_partial`
* `ExactReal.Props.num_order_in_process_partial`
* `ExactReal.Props.order_returns_in_process`
* `ExactReal.Props.question_deterministic`
* `ExactReal.Props.question_keeps`
* `ExactReal.Props.question_possible`
* `ExactReal.Props.threads_compute`
* `ExactReal.Props.thread_run`
* `ExactReal.Props.threads_progress`
* `ExactReal.Props.threads_finish`
* `ExactReal.Props.threads_finish_asking`
* `ExactReal.Props.threads_answer_partial`
* `ExactReal.Props.bytes_read`
* `ExactReal.Props.bytes_cut`
* `ExactReal.Props.file_recovered`
* `ExactReal.Props.integer_exact`
* `ExactReal.Props.rational_exact`
* `ExactReal.Props.real_lt_effort`
* `ExactReal.Props.real_lt_arf_effort`
* `ExactReal.Props.real_lt_rational_effort`
* `ExactReal.Props.elt_arb_effort`
* `ExactReal.Props.elt_lt_effort`
* `ExactReal.Props.elt_ltRN_effort`
* `ExactReal.Props.elt_ltQ_effort`
* `ExactReal.Props.elt_floor_effort`
* `ExactReal.Props.elt_floordiv_effort`
* `ExactReal.Props.elt_double_effort`
* `ExactReal.Props.real_lt_local`
* `ExactReal.Props.elt_arb_local`
* `ExactReal.Props.elt_lt_local`
* `ExactReal.Props.elt_floor_local`
* `ExactReal.Props.elt_double_local`
* `ExactReal.Props.elt_floordiv_local`
* `ExactReal.Props.elt_lt_long`
* `ExactReal.Props.py_is_square`
* `ExactReal.Props.py_is_square_integers`
* `ExactReal.Props.py_is_square_rationals`
* `ExactReal.Props.py_is_square_field`
* `ExactReal.Props.real_lt_no_overflow`
* `ExactReal.Props.elt_arb_no_overflow`
* `ExactReal.Props.elt_lt_no_overflow`
* `ExactReal.Props.elt_lt_other_no_overflow`
* `ExactReal.Props.elt_floor_no_overflow`
* `ExactReal.Props.elt_lt_machine`
* `ExactReal.Props.moderate_of_atoms`
* `ExactReal.Props.arb_overflow`
* `ExactReal.Props.real_lt_other_no_overflow`
* `ExactReal.Props.real_lt_arf_machine`
* `ExactReal.Props.real_lt_rational_machine`
* `ExactReal.Props.elt_double_no_overflow`
* `ExactReal.Props.elt_floordiv_no_overflow`
* `ExactReal.Props.elt_floor_machine`
* `ExactReal.Props.elt_double_machine`
* `ExactReal.Props.elt_floordiv_machine`
* `ExactReal.Props.product_bits`
* `ExactReal.Props.rank_bits`
* `ExactReal.Props.rank_bits_inexact`
* `ExactReal.Props.py_ball_compare`
* `ExactReal.Props.py_ball_compare_nan`
* `ExactReal.Props.py_program`
* `ExactReal.Props.py_program_plain`
* `ExactReal.Props.py_sorted`
* `ExactReal.Props.embed_arb`
* `ExactReal.Props.embed_arb_terminates`
* `ExactReal.Props.embed_lt_exact`
* `ExactReal.Props.embed_lt_partial`
* `ExactReal.Props.embed_lt_same`
* `ExactReal.Props.embed_floor_exact`
* `ExactReal.Props.embed_floor_partial`
* `ExactReal.Props.embed_double`
* `ExactReal.Props.embed_hash_partial`
* `ExactReal.Props.embed_floordiv`
* `ExactReal.Props.embed_lt_effort`
* `ExactReal.Props.embed_ltRN_effort`
* `ExactReal.Props.embed_ltQ_effort`
* `ExactReal.Props.embed_floor_effort`
* `ExactReal.Props.embed_double_effort`
* `ExactReal.Props.embed_floordiv_effort`
* `ExactReal.Props.py_to_number`
* `ExactReal.Props.py_number_roundtrip`
* `ExactReal.Props.py_floordiv_multiple`
* `ExactReal.Props.py_round_returns`
* `ExactReal.Props.py_floor_integer`
* `ExactReal.Props.py_rounding_partial`
* `ExactReal.Props.py_floordiv_partial`
* `ExactReal.Props.py_floordiv_mul_partial`
* `ExactReal.Props.py_floordiv_zero`
* `ExactReal.Props.py_hash_partial`
* `ExactReal.Props.py_hash_example_partial`
* `ExactReal.Props.py_an_element`
* `ExactReal.Props.py_identity`
* `ExactReal.Props.py_identity_complete`
* `ExactReal.Props.py_domain`
* `ExactReal.Props.py_characteristic`
* `ExactReal.Props.py_not_field`
* `ExactReal.Props.py_some_elements`
* `ExactReal.Props.random_element_double`
* `ExactReal.Props.py_random_element_float`
* `ExactReal.Props.random_double_print`
* `ExactReal.Props.random_between_double`
* `ExactReal.Props.random_element_between`
* `ExactReal.Props.span_rank`
* `ExactReal.Props.submodule_rank`
* `ExactReal.Props.add_rank_eq`
* `ExactReal.Props.add_rank`
* `ExactReal.Props.mul_rank`
* `ExactReal.Props.simplify_rank`
* `ExactReal.Props.simplify_rank_minimal`
* `ExactReal.Props.program_provenance`
* `ExactReal.Props.program_observations`
* `ExactReal.Props.elt_observations`
* `ExactReal.Props.real_observations`
* `ExactReal.Props.elt_depends_iff`
* `ExactReal.Props.simplify_involved`

## propext, Quot.sound

* `ExactReal.Props.div_throws_iff`
* `ExactReal.Props.submodule_iff`
* `ExactReal.Props.assign_sound`
* `ExactReal.Props.assign_defined`
* `ExactReal.Props.inplace_sound`
* `ExactReal.Props.inplace_defined`
* `ExactReal.Props.rationalCoefficients_rational`
* `ExactReal.Props.ids_wrap`
* `ExactReal.Props.print_denotes`
* `ExactReal.Props.denotes_unique`
* `ExactReal.Props.zero_div_zero`

