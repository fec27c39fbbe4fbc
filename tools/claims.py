def c(id,status,thms,note=""):
    C[id]={"status":status,"theorems":["Stator."+t for t in thms.split()],"note":note}
c("C01","proved","C01_parse_terminates C01_parse_total C01_same_result C01_calls")
c("C02","proved","C02_roundtrip_iff C02_repr_injective C02_no_other_defect C02_power_ambiguous C02_power_fails C02_equation_fails C02_negative_base_fails C02_negative_divisor_fails C02_negated_constant_fails C02_abs_fails C02_dict_operand_fails","The round trip is characterised exactly (iff): it holds for the expressions Printable describes and for no other writable one; the _fails theorems show what each excluded case reads back as.")
c("C03","proved","C03_precedence C03_parens C03_unary_minus C03_postfix_rejected")
c("C04","proved","C04_whole_text C04_unbalanced")
c("C05","proved","C05_leading C05_trailing C05_repeat C05_between")
c("C06","proved","C06_literal C06_literal_or_error C06_longest")
c("C09","proved","C09_value C09_array_value C09_array_shape_lost","Scalar expressions and element-wise array arithmetic, over the reals; C09_array_shape_lost shows the case that fails (0 times an array).")
c("C10","proved","C10_scalar_terminates C10_terminates C10_meets C10_calm_terminates C10_array_terminates C10_deterministic C10_array_power_diverges","all expressions; the exact obstacle is a power of two arrays, which is proved to diverge for arrays of scalars and never to return in general.")
c("C11","proved","C11_ground C11_ground_value")
c("C12","proved","C12_simplify C12_sub C12_sub_dict C12_sub_all")
c("C13","proved","C13_substitution C13_value C13_rejects C13_dict_untouched")
c("C14","proved","C14_simultaneous C14_order C14_single")
c("C15","proved","C15_absent C15_absent_dict")
c("C16","proved","C16_derivative C16_derivative_strict C16_numeric C16_array C16_unsimplified_power C16_access_fails")
c("C17","proved","C17_absent")
c("C07","proved","C07_structural C07_refl C07_symm C07_trans C07_nan")
c("C08","proved","C08_equal_hash C08_equal_hash_small C08_dict_fails","The condition on the iteration order of dictionaries cannot be dropped: C08_dict_fails.")
c("C52","proved","C52_insert_and_simplify")
c("C51","proved","C51_change_shrinks C51_stabilises C51_limit_value C51_not_idempotent C51_settles C51_no_cycle","the single-call version is false (C51_not_idempotent); the bound by the number of nodes is for scalars without units, C51_settles and C51_no_cycle are for every expression")
c("C19","proved","Pol.C19_eval Pol.C19_eval_symbolic Pol.C19_null")
c("C20","proved","Pol.C20_pos_infinity Pol.C20_neg_infinity Pol.C20_neg_infinity_fails","At -infinity an exact characterisation of when the result is the limit, with a counterexample.")
c("C21","proved","Pol.C21_eval_derivatives Pol.C21_calculus")
c("C22","proved","Pol.C22_add Pol.C22_sub Pol.C22_neg Pol.C22_mul Pol.C22_div_const Pol.C22_mul_var Pol.C22_var_pow")
c("C23","proved","Pol.C23_derivative Pol.C23_calculus")
c("C24","proved","Pol.C24_division Pol.C24_unique Pol.C24_by_zero")
c("C25","proved","Pol.C25_shift Pol.C25_shift_one Pol.C25_invert_taylor_shift Pol.C25_invert_taylor_shift_at_neg_one Pol.C25_reflect Pol.C25_scale")
c("C26","proved","Pol.C26_deflate Pol.C26_deflate_safe Pol.C26_order_one_fails")
c("C33","proved","Pol.C33_coefficients Pol.C33_value Pol.C33_truncate Pol.C33_promote Pol.C33_range")
c("C28","proved","Pol.C28_sturm Pol.C28_get Pol.C28_all_roots Pol.C28_infinite Pol.C28_infinite_fails Pol.C28_multiple_root_end_fails","exact arithmetic over the reals; the theorem covers the chain computed by repeated division with whatever zero leading coefficients occur. Between -infinity and +infinity the count is right if the degree of every polynomial of the chain has the parity of its order (C28_infinite) and can be wrong otherwise (C28_infinite_fails), and a multiple root at an end gives a wrong count (C28_multiple_root_end_fails)")
c("C29","proved","Pol.C29_bound Pol.C29_zero Pol.C29_one")
c("C31","proved","Pol.C31_budan Pol.C31_budan_zero Pol.C31_budan_one Pol.C31_alesina_galuzzi Pol.C31_alesina_galuzzi_zero Pol.C31_alesina_galuzzi_one")
c("C27","proved","Pol.C27_constant Pol.C27_linear Pol.C27_quadratic Pol.C27_double_root Pol.C27_overflow")
c("C34","proved","Num.C34_bracket Num.C34_success Num.C34_rejects Num.C34_failure Num.C34_precision_ignored","Termination: at most the given number of iterations; C34_precision_ignored shows that the precision does not stop it.")
c("C35","proved","Num.C35_newton Num.C35_halley Num.C35_exact_root Num.C35_one_iteration Num.C35_false_success Num.C35_halley_false_success Num.C35_schroeder_wrong Num.C35_bisection_step Num.C35_monotone Num.C35_monotone_call Num.C35_residual","Bounds and convergence criterion proved; reported success does not imply a root, shown by the _false_success theorems.")
c("C53","proved","Pol.C53_cubic Pol.C53_degenerate Pol.C53_range_fails")
c("C30","proved","Pol.C30_upper Pol.C30_lower Pol.C30_zero")
c("C32","proved","Pol.C32_vas Pol.C32_vas_multiple_root Pol.C32_vas_terminates Pol.C32_vas_terminates_iff Pol.C32_vas_terminates_simple Pol.C32_vas_bracket Pol.C32_vca Pol.C32_vca_multiple_root Pol.C32_vca_terminates_iff Pol.C32_vca_terminates_simple Pol.C32_vca_loses_root","VAS: no positive root lost; terminates exactly when all positive roots are simple (both directions; the tolerance constant must satisfy 200(2n+1)eps <= 1), and then every interval is a bracket with a sign change. VCA: terminates exactly when every multiple positive root is a bisection point (proved in both directions); exact up to roots at bisection points, with a counterexample there.")
c("C54","proved","Pol.C54_solve_real_roots Pol.C54_sturm Pol.C54_vas Pol.C54_vas_complete Pol.C54_vas_solve_real_roots Pol.C54_vas_throws Pol.C54_vca Pol.C54_vca_complete Pol.C54_zero_root_lost Pol.C54_sturm_multiple Pol.C54_multiple_roots Pol.C54_multiple_root_lost Pol.C54_sturm_returns Pol.C54_returns Pol.C54_total","exact arithmetic; total correctness with the default (Sturm) bounder, with VAS it ends in the complete list or in the exception of a bisection that did not converge in a valid bracket; with VCA soundness in general and termination and completeness if no root is a bisection point. The code drops the root 0 (C54_zero_root_lost) and can lose a root when it divides an interval at a multiple root (C54_multiple_root_lost); multiple roots elsewhere are found (C54_multiple_roots). Whatever the polynomial, the solver returns a sorted list of at most as many numbers as there are roots (C54_total, C54_returns)")

c("C18","proved","C18_value C18_units_on_left C18_product C18_quotient C18_scalar_times_quantity_fails","quantities valued for every size of the units; the failing case (plain factor on the left, units.hpp:103) is characterised as exactly the excluded shape and refuted")

c("C36","proved","Ad.C36_taylor_coefficients Ad.C36_sound Ad.C36_order_zero Ad.C36_power_at_zero Ad.C36_negation_diverges","all orders, exact arithmetic; also shows that whenever numbers come back they are right. The domain excludes a zero base of a power, where the code yields NaN (C36_power_at_zero), and negation/abs, where it does not return")

c("C39","proved","Ct.C.C39_arithmetic Ct.C.C39_value Ct.C.C39_equality Ct.C.C39_neg_abs Ct.C.C39_factorial Ct.C.C39_toArithmetic","over unbounded integers: overflow of intmax_t is a compile error in C++ and is not modelled")
c("C40","proved","Ct.C.C40_result Ct.C.C40_sin Ct.C.C40_cos","exact characterisation of the (wrong) cases")
c("C55","proved","Ct.C.C55_accuracy")

c("C57","proved","Ct.C57_simplify Ct.C57_value Ct.C57_cube_root_fails Ct.C57_spurious_sign","overload resolution is over-approximated by a relation that allows every rule everywhere; polynomial operands are excluded; sin/cos of constants other than 0 are excluded (C40)")
c("C58","proved","Ct.C58_derivative Ct.C58_smooth Ct.C58_formed Ct.C58_constant_denominator")
c("C59","proved","Ct.C59_substitute Ct.C59_substitute_constant Ct.C59_unique Ct.C59_pi_fails")
c("C37","proved","Ct.C37_taylor Ct.C37_taylor_number Ct.C37_polynomial","for compile-time constants as expansion points the arguments of sin and cos must not become constants other than 0 (C40)")
c("C38","proved","Ct.C38_integrate Ct.C38_definite Ct.C38_inverse Ct.C38_differentiable Ct.C38_gaps","the integrand x itself and x^-1 do not compile (C38_gaps)")

c("C41","proved","Ds.C41_programs Ds.C41_history Ds.C41_initializer_list Ds.C41_copy Ds.C41_back Ds.C41_equality_fails","programs with any number of vectors, extended with each other and themselves, copied and constructed: C41_programs; equality compares the whole storage, not the contents (C41_equality_fails)")
c("C42","proved","Ds.C42_make Ds.C42_get Ds.C42_reverse Ds.C42_reverse_reverse Ds.C42_replace Ds.C42_replace_empty Ds.C42_concat Ds.C42_split Ds.C42_foreach")
c("C43","proved","Ds.C43_strip Ds.C43_unique Ds.C43_idempotent")
c("C44","proved","Ds.C44_search_replace Ds.C44_unique Ds.C44_length Ds.C44_same Ds.C44_empty_pattern_diverges")
c("C45","proved","Ds.C45_row_major Ds.C45_bijection Ds.C45_size Ds.C45_read_write Ds.C45_out_of_range_alias Ds.C45_accessor Ds.C45_push_back Ds.C45_push_back_fixed Ds.C45_push_back_rank Ds.C45_resize Ds.C45_resize_moves Ds.C45_resize_throws_too_late Ds.C45_initializer_unchecked Ds.C45_equality Ds.C45_equality_fixed_fails Ds.C45_linear_push_back Ds.C45_linear_resize")
c("C46","proved","Ds.C46_elementwise Ds.C46_elementwise_mismatch Ds.C46_scalar_right Ds.C46_scalar_left Ds.C46_mixed_storage_ub C46_literal C46_unique C46_mismatch C46_symbolic_operand_fails","compile-time (Ds) and runtime arrays; the failing cases are refuted")
c("C47","proved","Geo.C47_volume Geo.C47_area Geo.C47_area_only_3d","area is wrong in every dimension other than 3 (C47_area_only_3d)")
c("C48","proved","Geo.C48_volume Geo.C48_volume_zero Geo.C48_area Geo.C48_known")
c("C49","proved","C49_operator C49_operator_number C49_reflected_commutative C49_reflected_sub_swapped C49_reflected_div_swapped C49_value_unique C49_list_round_trip","the dispatch of Python and pybind11 is part of the model")
c("C50","proved","Ds.Xml.C50_path_unique Ds.Xml.C50_path_alone Ds.Xml.C50_path_index Ds.Xml.C50_path_index_wrong Ds.Xml.C50_hasNode Ds.Xml.C50_getNode Ds.Xml.C50_getNode_string_unchecked Ds.Xml.C50_invalid_throws Ds.Xml.C50_iteration Ds.Xml.C50_attribute Ds.Xml.C50_attribute_string_unchecked Ds.Xml.C50_add_attribute Ds.Xml.C50_mapped_attribute Ds.Xml.C50_value Ds.Xml.C50_append_parsed_wrong","RapidXML is not in the repository and is modelled from its documentation")
c("C56","proved","C56_keys_distinct C56_array C56_dictionary")
c("C60","proved","Ds.C60_first_argument_wins Ds.C60_default Ds.C60_order_of_others Ds.C60_present Ds.C60_valid")
c("C61","proved","Geo.C61_ball_point Geo.C61_point_ball Geo.C61_ball_ball Geo.C61_ball_half Geo.C61_half_ball")
c("C62","proved","Ds.Err.C62_report Ds.Err.C62_newline_no_report Ds.Err.C62_empty_first_line")
c("C64","proved","Pol.C64_near_factor Pol.C64_exact_factor Pol.C64_start_at_factor Pol.C64_guess_ignored","Exact arithmetic; the inverse of a singular matrix is modelled as the exception in which the NaN end.")
c("C65","proved","C65_reads C65_accepted C65_roundtrip_iff C65_extends_default C65_injective C65_same_value C65_negated_constant C65_abs_rejected C65_dict_operand","exact characterisation; the texts of numbers are a parameter as in C02.")
c("C66","proved","C66_wellformed_iff C66_text C66_text_number C66_printed_iff C66_number C66_log C66_log_inside C66_double_superscript C66_pm_glued C66_negative_base","false in the code: exact characterisation of the expressions for which the text is well-formed; the texts printf makes of numbers are a parameter.")
c("C63","proved","Ds.Err.C63_what Ds.Err.C63_stream_after_catch")

c("C67","proved","Fp.C67_exact Fp.C67_ground Fp.C67_insert Fp.C67_regroup_bound Fp.C67_regroup_fails","rounding to nearest with gradual underflow; overflow, infinities, NaN and the sign of zero are not modelled")
c("C68","proved","Fp.C68_bisection Fp.C68_best Fp.C68_iterations Fp.C68_root Fp.C68_ieee Fp.C68_ieee_iterations Fp.C68_overflow","rounding to nearest; the first four without a bound on the exponents, the others for the data type of IEEE 754 with NaN, infinities and signed zeros")
c("C69","proved","Fp.C69_error Fp.C69_sign Fp.C69_integers Fp.C69_sign_change Fp.C69_bisection","rounding to nearest; overflow not modelled; no fused multiply-add")

c("C70","proved","PExpr.C70_redundant_parentheses PExpr.C70_no_marks")
c("C71","proved","Ct.C71_value Ct.C71_variables Ct.C71_derivative Ct.C71_substitute Ct.C71_constant Ct.C71_pi Ct.C71_text Ct.C71_negative_base_fails","the text theorem excludes the defects of the printer (as C02)")

c("C72","proved","Pol.C72_text Pol.C72_injective Pol.C72_not_parsed","the texts of numbers are a parameter as in C02")
c("C73","proved","Fp.C73_no_subtraction Fp.C73_subtraction Fp.C73_sharp Fp.C73_larger_not_better Fp.C73_error Fp.C73_addition")
c("C74","proved","C74_succeeds C74_initial_memory C74_value C74_same_bits C74_nan_differs","fast_sub itself does not compile; the visitor is modelled")

c("C75","proved","Fp.C75_sign Fp.C75_accuracy Fp.C75_reads_back Fp.C75_constants Fp.C75_injective Fp.C75_writable Fp.C75_double Fp.C75_double_roundtrip Fp.C75_one_digit_less Fp.C75_decimal_survives Fp.C75_double_decimal","the conversions of the C library are modelled as correctly rounded; overflow, infinities, NaN and the sign of zero are not modelled")
c("C76","proved","C76_parsed C76_stable C76_default Fp.C76_double")

c("C77","proved","Ds.C77_fixed_rank Ds.C77_fixed_read_write Ds.C77_text Ds.C77_text_dynamic Ds.C77_text_fixed_fails Ds.C77_text_shape_fails Ds.C77_map Ds.C77_map_unused_fails Ds.C77_to_expr Ds.C77_to_expr_short Ds.C77_same_text")

c("C78","proved","Sh.C78_values Sh.C78_immutable Sh.C78_reached Sh.C78_no_leak Sh.C78_all_freed Sh.C78_counts Sh.C78_equality Sh.C78_shared_array_fails Sh.C78_cycle_fails","single-threaded; std::shared_ptr is modelled by its counts (no weak count, no overflow of the count, no stack overflow in nested destructors)")

c("C79","proved","Ct.Expand.C79_expand Ct.Expand.C79_twice Ct.Expand.C79_coefficients Ct.Expand.C79_integer_division Ct.Expand.C79_half_fails Ct.Expand.C79_two_variables Ct.Expand.C79_product_fails Ct.Expand.C79_sum_two_variables Ct.Expand.C79_sum_of_variables","exact arithmetic; int overflow not modelled")

c("C80","proved","Ds.Xml.C80_nodes_stay Ds.Xml.C80_found_again Ds.Xml.C80_path_changes Ds.Xml.C80_add_node Ds.Xml.C80_read_back Ds.Xml.C80_document Ds.Xml.C80_unchecked Ds.Xml.C80_forth_and_back Ds.Xml.C80_parent Ds.Xml.C80_climb Ds.Xml.C80_first_node_loop Ds.Xml.C80_growing_loop Ds.Xml.C80_write_tree","RapidXML is modelled by its documented behaviour: nodes are never moved, append_node and append_attribute add at the end")

c("C81","proved","Fp.C81_opposite_signs Fp.C81_same_sign Fp.C81_count Fp.C81_no_constant Fp.C81_linear","rounding to nearest with gradual underflow; overflow (and the branch for it) and the sign of zero are not modelled; the intermediate results must be clear of subnormal numbers; no fused multiply-add")

c("C82","proved","Sh.C82_any_schedule Sh.C82_finished Sh.C82_all_freed Sh.C82_reading Sh.C82_bounded","the atomicity of the counts of std::shared_ptr is assumed; changing an array in place is excluded; sequential consistency (nodes are published to other threads only by the start of the threads)")

c("C83","proved","Ds.Dict.C83_empty Ds.Dict.C83_set Ds.Dict.C83_insert Ds.Dict.C83_read Ds.Dict.C83_entries Ds.Dict.C83_equal Ds.Dict.C83_expressions Ds.Dict.C83_same_tree Ds.Dict.C83_dictionary_key_fails Ds.Dict.C83_nan_key_fails","std::unordered_map is modelled as chained buckets with an arbitrary growth policy")

c("C84","proved","Misc.C84_green Misc.C84_throwing Misc.C84_wraps Misc.C84_close Misc.C84_close_finite Misc.C84_close_order Misc.C84_small Misc.C84_close_integers","differences and quotients in check_close are not rounded; texts are not modelled")

c("C85","proved","Disp.C85_visit Disp.C85_visit_two Disp.C85_as Disp.C85_other_constants_fail Disp.C85_expr")

c("C86","proved","C86_higher C86_computed C86_ad C86_all_orders","exact real arithmetic as in C16, C36, C52")

c("C87","proved","Fp.C87_accuracy Fp.C87_text Fp.C87_exact Fp.C87_integers Fp.C87_relative","overflow, infinities and the sign of zero: see C91; powers with a base that may be negative only for exact natural exponents; the accuracy of the functions of the C library is a hypothesis")

c("C88","proved","Fp.C88_add Fp.C88_sub Fp.C88_derivative Fp.C88_mul Fp.C88_mul_integers Fp.C88_deflate Fp.C88_deflate_value Fp.C88_deflate_zero","overflow, infinities and the sign of zero are not modelled; deflation by a non-zero root needs order at least 2 (order 1 reads out of range: C26_order_one_fails)")

c("C89","proved","C89_read C89_print C89_sub C89_sub_bound C89_derivative C89_higher C89_text C89_simplify C89_simplify_grows","sizes of the trees; nodes that the implementation shares are counted as often as they occur; growth by simplify is bounded for scalar expressions only")

c("C90","proved","Fp.C90_newton Fp.C90_halley Fp.C90_terminates Fp.C90_monotone Fp.C90_monotone_success Fp.C90_zero_trap Fp.C90_residual","overflow, infinities and NaN in the computed values are not modelled (infinite bounds are); no fused multiply-add; the sign of a zero function value is taken as +0; C90_zero_trap is a counterexample to unconditional success")

c("C91","proved","Fp.C91_simplify Fp.C91_insert Fp.C91_accuracy Fp.C91_text Fp.C91_nan_lost Fp.C91_sign_lost Fp.C91_collect_overflows Fp.C91_minus_zero Fp.C91_eq Fp.C91_sign Fp.C91_add Fp.C91_mul Fp.C91_div Fp.C91_signs","a literal beyond the largest number is read as the largest number by the code; the theorems about texts exclude such literals; payloads and signs of NaN and the floating-point exceptions flags are not modelled")

c("C92","proved","Ct.C92_contains Ct.C92_range Ct.C92_exact Ct.C92_narrower Ct.C92_numbers_first Ct.C92_second_variable_fails Ct.C92_wider Ct.C92_fraction_power_fails Ct.C92_text","the operations of Boost.Interval are a parameter with the inclusion property as hypothesis (Ct.box_sound shows that it can be met); which overload the compiler chooses for an interval is modelled from the C++ rules; operations between two plain numbers are exact as in the other compile-time properties")

c("C93","proved","Fp.C93_newton Fp.C93_halley Fp.C93_nan_trap Fp.C93_log Fp.C93_agrees Fp.C93_success Fp.C93_halley_agrees Fp.C93_halley_success","all NaN have the same sign bit, which is a parameter")

c("C94","proved","Ds.Coll.C94_square Ds.Coll.C94_column Ds.Coll.C94_single Ds.Coll.C94_defined Ds.Coll.C94_injective Ds.Coll.C94_vector Ds.Coll.C94_pairs Ds.Coll.C94_tuples","access outside of an Eigen matrix counts as undefined behaviour (an assertion unless it is switched off); stream formatting flags are not modelled: the text of an element is a parameter")

c("C95","proved","Fp.C95_agrees Fp.C95_opposite_signs Fp.C95_nan Fp.C95_false_roots Fp.C95_overflow Fp.C95_scaling Fp.C95_linear","a NaN counts as not negative for copysign, which cannot be seen in the result; no fused multiply-add")

c("C96","proved","Fp.C96_agrees Fp.C96_error Fp.C96_double Fp.C96_not_nan Fp.C96_nan Fp.C96_infinity Fp.C96_infinity_const Fp.C96_bisection Fp.C96_bisection_iterations Fp.C96_overflow Fp.C96_wrong_sign Fp.C96_derivatives_infinity","no fused multiply-add")

c("C97","proved","Fp.C97_error Fp.C97_error_higher Fp.C97_agrees Fp.C97_ieee Fp.C97_double Fp.C97_newton Fp.C97_halley","the first coefficient (for halleys_method the first two) must not be a negative zero in the last two; no fused multiply-add")

c("C98","proved","Ct.Expand.C98_value Ct.Expand.C98_sums Ct.Expand.C98_collects Ct.Expand.C98_ambiguous Ct.Expand.C98_sum_of_sums","exact arithmetic; int overflow not modelled; overloads that lose the overload resolution are not looked at")

c("C99","proved","Ct.Expand.C99_sub Ct.Expand.C99_number Ct.Expand.C99_evaluate Ct.Expand.C99_derivative Ct.Expand.C99_higher Ct.Expand.C99_slope","exact arithmetic; int overflow not modelled")

c("C100","proved","Ct.Expand.C100_ends Ct.Expand.C100_equation Ct.Expand.C100_value Ct.Expand.C100_numbers Ct.Expand.C100_expand Ct.Expand.C100_total Ct.Expand.C100_again","exact arithmetic; that N leaves Unity for x / x is Ct.Expand.C100_quotient")

c("C101","proved","Ct.Expand.C101_taylor Ct.Expand.C101_expand Ct.Expand.C101_polynomial","exact arithmetic; the centre is a double")
c("C102","proved","Ct.C102_error Ct.C102_bound Ct.Expand.C102_polynomials","exact arithmetic")
c("C103","proved","C103_plain C103_keeps_value C103_what_is_read C103_product_read C103_conditions_needed Fp.C103_double Fp.C103_rounded Fp.C103_double_computed Fp.C103_regroup_fails","values in exact and in rounded arithmetic (no overflow); the text of a negative constant is a minus sign and the text of its negation, a literal, as for doubles")
c("C104","proved","Ad.C104_real Ad.C104_one_series Ad.C104_only Fp.C104_accuracy Fp.C104_integers","runtime expressions; no contraction of a product and a sum to one operation; the error bound has no overflow and is for polynomial expressions")
