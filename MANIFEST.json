{
 "claims": [
  {
   "property": "C01",
   "status": "proved",
   "theorems": [
    "Stator.C01_parse_terminates",
    "Stator.C01_parse_total",
    "Stator.C01_same_result",
    "Stator.C01_calls"
   ],
   "note": ""
  },
  {
   "property": "C02",
   "status": "proved",
   "theorems": [
    "Stator.C02_roundtrip_iff",
    "Stator.C02_repr_injective",
    "Stator.C02_no_other_defect",
    "Stator.C02_power_ambiguous",
    "Stator.C02_power_fails",
    "Stator.C02_equation_fails",
    "Stator.C02_negative_base_fails",
    "Stator.C02_negative_divisor_fails",
    "Stator.C02_negated_constant_fails",
    "Stator.C02_abs_fails",
    "Stator.C02_dict_operand_fails"
   ],
   "note": "The round trip is characterised exactly (iff): it holds for the expressions Printable describes and for no other writable one; the _fails theorems show what each excluded case reads back as."
  },
  {
   "property": "C03",
   "status": "proved",
   "theorems": [
    "Stator.C03_precedence",
    "Stator.C03_parens",
    "Stator.C03_unary_minus",
    "Stator.C03_postfix_rejected"
   ],
   "note": ""
  },
  {
   "property": "C04",
   "status": "proved",
   "theorems": [
    "Stator.C04_whole_text",
    "Stator.C04_unbalanced"
   ],
   "note": ""
  },
  {
   "property": "C05",
   "status": "proved",
   "theorems": [
    "Stator.C05_leading",
    "Stator.C05_trailing",
    "Stator.C05_repeat",
    "Stator.C05_between"
   ],
   "note": ""
  },
  {
   "property": "C06",
   "status": "proved",
   "theorems": [
    "Stator.C06_literal",
    "Stator.C06_literal_or_error",
    "Stator.C06_longest"
   ],
   "note": ""
  },
  {
   "property": "C09",
   "status": "proved",
   "theorems": [
    "Stator.C09_value",
    "Stator.C09_array_value",
    "Stator.C09_array_shape_lost"
   ],
   "note": "Scalar expressions and element-wise array arithmetic, over the reals; C09_array_shape_lost shows the case that fails (0 times an array)."
  },
  {
   "property": "C10",
   "status": "proved",
   "theorems": [
    "Stator.C10_scalar_terminates",
    "Stator.C10_terminates",
    "Stator.C10_meets",
    "Stator.C10_calm_terminates",
    "Stator.C10_array_terminates",
    "Stator.C10_deterministic",
    "Stator.C10_array_power_diverges"
   ],
   "note": "all expressions; the exact obstacle is a power of two arrays, which is proved to diverge for arrays of scalars and never to return in general."
  },
  {
   "property": "C11",
   "status": "proved",
   "theorems": [
    "Stator.C11_ground",
    "Stator.C11_ground_value"
   ],
   "note": ""
  },
  {
   "property": "C12",
   "status": "proved",
   "theorems": [
    "Stator.C12_simplify",
    "Stator.C12_sub",
    "Stator.C12_sub_dict",
    "Stator.C12_sub_all"
   ],
   "note": ""
  },
  {
   "property": "C13",
   "status": "proved",
   "theorems": [
    "Stator.C13_substitution",
    "Stator.C13_value",
    "Stator.C13_rejects",
    "Stator.C13_dict_untouched"
   ],
   "note": ""
  },
  {
   "property": "C14",
   "status": "proved",
   "theorems": [
    "Stator.C14_simultaneous",
    "Stator.C14_order",
    "Stator.C14_single"
   ],
   "note": ""
  },
  {
   "property": "C15",
   "status": "proved",
   "theorems": [
    "Stator.C15_absent",
    "Stator.C15_absent_dict"
   ],
   "note": ""
  },
  {
   "property": "C16",
   "status": "proved",
   "theorems": [
    "Stator.C16_derivative",
    "Stator.C16_derivative_strict",
    "Stator.C16_numeric",
    "Stator.C16_array",
    "Stator.C16_unsimplified_power",
    "Stator.C16_access_fails"
   ],
   "note": ""
  },
  {
   "property": "C17",
   "status": "proved",
   "theorems": [
    "Stator.C17_absent"
   ],
   "note": ""
  },
  {
   "property": "C07",
   "status": "proved",
   "theorems": [
    "Stator.C07_structural",
    "Stator.C07_refl",
    "Stator.C07_symm",
    "Stator.C07_trans",
    "Stator.C07_nan"
   ],
   "note": ""
  },
  {
   "property": "C08",
   "status": "proved",
   "theorems": [
    "Stator.C08_equal_hash",
    "Stator.C08_equal_hash_small",
    "Stator.C08_dict_fails"
   ],
   "note": "The condition on the iteration order of dictionaries cannot be dropped: C08_dict_fails."
  },
  {
   "property": "C52",
   "status": "proved",
   "theorems": [
    "Stator.C52_insert_and_simplify"
   ],
   "note": ""
  },
  {
   "property": "C51",
   "status": "proved",
   "theorems": [
    "Stator.C51_change_shrinks",
    "Stator.C51_stabilises",
    "Stator.C51_limit_value",
    "Stator.C51_not_idempotent",
    "Stator.C51_settles",
    "Stator.C51_no_cycle"
   ],
   "note": "the single-call version is false (C51_not_idempotent); the bound by the number of nodes is for scalars without units, C51_settles and C51_no_cycle are for every expression"
  },
  {
   "property": "C19",
   "status": "proved",
   "theorems": [
    "Stator.Pol.C19_eval",
    "Stator.Pol.C19_eval_symbolic",
    "Stator.Pol.C19_null"
   ],
   "note": ""
  },
  {
   "property": "C20",
   "status": "proved",
   "theorems": [
    "Stator.Pol.C20_pos_infinity",
    "Stator.Pol.C20_neg_infinity",
    "Stator.Pol.C20_neg_infinity_fails"
   ],
   "note": "At -infinity an exact characterisation of when the result is the limit, with a counterexample."
  },
  {
   "property": "C21",
   "status": "proved",
   "theorems": [
    "Stator.Pol.C21_eval_derivatives",
    "Stator.Pol.C21_calculus"
   ],
   "note": ""
  },
  {
   "property": "C22",
   "status": "proved",
   "theorems": [
    "Stator.Pol.C22_add",
    "Stator.Pol.C22_sub",
    "Stator.Pol.C22_neg",
    "Stator.Pol.C22_mul",
    "Stator.Pol.C22_div_const",
    "Stator.Pol.C22_mul_var",
    "Stator.Pol.C22_var_pow"
   ],
   "note": ""
  },
  {
   "property": "C23",
   "status": "proved",
   "theorems": [
    "Stator.Pol.C23_derivative",
    "Stator.Pol.C23_calculus"
   ],
   "note": ""
  },
  {
   "property": "C24",
   "status": "proved",
   "theorems": [
    "Stator.Pol.C24_division",
    "Stator.Pol.C24_unique",
    "Stator.Pol.C24_by_zero"
   ],
   "note": ""
  },
  {
   "property": "C25",
   "status": "proved",
   "theorems": [
    "Stator.Pol.C25_shift",
    "Stator.Pol.C25_shift_one",
    "Stator.Pol.C25_invert_taylor_shift",
    "Stator.Pol.C25_invert_taylor_shift_at_neg_one",
    "Stator.Pol.C25_reflect",
    "Stator.Pol.C25_scale"
   ],
   "note": ""
  },
  {
   "property": "C26",
   "status": "proved",
   "theorems": [
    "Stator.Pol.C26_deflate",
    "Stator.Pol.C26_deflate_safe",
    "Stator.Pol.C26_order_one_fails"
   ],
   "note": ""
  },
  {
   "property": "C33",
   "status": "proved",
   "theorems": [
    "Stator.Pol.C33_coefficients",
    "Stator.Pol.C33_value",
    "Stator.Pol.C33_truncate",
    "Stator.Pol.C33_promote",
    "Stator.Pol.C33_range"
   ],
   "note": ""
  },
  {
   "property": "C28",
   "status": "proved",
   "theorems": [
    "Stator.Pol.C28_sturm",
    "Stator.Pol.C28_get",
    "Stator.Pol.C28_all_roots",
    "Stator.Pol.C28_infinite",
    "Stator.Pol.C28_infinite_fails",
    "Stator.Pol.C28_multiple_root_end_fails"
   ],
   "note": "exact arithmetic over the reals; the theorem covers the chain computed by repeated division with whatever zero leading coefficients occur. Between -infinity and +infinity the count is right if the degree of every polynomial of the chain has the parity of its order (C28_infinite) and can be wrong otherwise (C28_infinite_fails), and a multiple root at an end gives a wrong count (C28_multiple_root_end_fails)"
  },
  {
   "property": "C29",
   "status": "proved",
   "theorems": [
    "Stator.Pol.C29_bound",
    "Stator.Pol.C29_zero",
    "Stator.Pol.C29_one"
   ],
   "note": ""
  },
  {
   "property": "C31",
   "status": "proved",
   "theorems": [
    "Stator.Pol.C31_budan",
    "Stator.Pol.C31_budan_zero",
    "Stator.Pol.C31_budan_one",
    "Stator.Pol.C31_alesina_galuzzi",
    "Stator.Pol.C31_alesina_galuzzi_zero",
    "Stator.Pol.C31_alesina_galuzzi_one"
   ],
   "note": ""
  },
  {
   "property": "C27",
   "status": "proved",
   "theorems": [
    "Stator.Pol.C27_constant",
    "Stator.Pol.C27_linear",
    "Stator.Pol.C27_quadratic",
    "Stator.Pol.C27_double_root",
    "Stator.Pol.C27_overflow"
   ],
   "note": ""
  },
  {
   "property": "C34",
   "status": "proved",
   "theorems": [
    "Stator.Num.C34_bracket",
    "Stator.Num.C34_success",
    "Stator.Num.C34_rejects",
    "Stator.Num.C34_failure",
    "Stator.Num.C34_precision_ignored"
   ],
   "note": "Termination: at most the given number of iterations; C34_precision_ignored shows that the precision does not stop it."
  },
  {
   "property": "C35",
   "status": "proved",
   "theorems": [
    "Stator.Num.C35_newton",
    "Stator.Num.C35_halley",
    "Stator.Num.C35_exact_root",
    "Stator.Num.C35_one_iteration",
    "Stator.Num.C35_false_success",
    "Stator.Num.C35_halley_false_success",
    "Stator.Num.C35_schroeder_wrong",
    "Stator.Num.C35_bisection_step",
    "Stator.Num.C35_monotone",
    "Stator.Num.C35_monotone_call",
    "Stator.Num.C35_residual"
   ],
   "note": "Bounds and convergence criterion proved; reported success does not imply a root, shown by the _false_success theorems."
  },
  {
   "property": "C53",
   "status": "proved",
   "theorems": [
    "Stator.Pol.C53_cubic",
    "Stator.Pol.C53_degenerate",
    "Stator.Pol.C53_range_fails"
   ],
   "note": ""
  },
  {
   "property": "C30",
   "status": "proved",
   "theorems": [
    "Stator.Pol.C30_upper",
    "Stator.Pol.C30_lower",
    "Stator.Pol.C30_zero"
   ],
   "note": ""
  },
  {
   "property": "C32",
   "status": "proved",
   "theorems": [
    "Stator.Pol.C32_vas",
    "Stator.Pol.C32_vas_multiple_root",
    "Stator.Pol.C32_vas_terminates",
    "Stator.Pol.C32_vas_terminates_iff",
    "Stator.Pol.C32_vas_terminates_simple",
    "Stator.Pol.C32_vas_bracket",
    "Stator.Pol.C32_vca",
    "Stator.Pol.C32_vca_multiple_root",
    "Stator.Pol.C32_vca_terminates_iff",
    "Stator.Pol.C32_vca_terminates_simple",
    "Stator.Pol.C32_vca_loses_root"
   ],
   "note": "VAS: no positive root lost; terminates exactly when all positive roots are simple (both directions; the tolerance constant must satisfy 200(2n+1)eps <= 1), and then every interval is a bracket with a sign change. VCA: terminates exactly when every multiple positive root is a bisection point (proved in both directions); exact up to roots at bisection points, with a counterexample there."
  },
  {
   "property": "C54",
   "status": "proved",
   "theorems": [
    "Stator.Pol.C54_solve_real_roots",
    "Stator.Pol.C54_sturm",
    "Stator.Pol.C54_vas",
    "Stator.Pol.C54_vas_complete",
    "Stator.Pol.C54_vas_solve_real_roots",
    "Stator.Pol.C54_vas_throws",
    "Stator.Pol.C54_vca",
    "Stator.Pol.C54_vca_complete",
    "Stator.Pol.C54_zero_root_lost",
    "Stator.Pol.C54_sturm_multiple",
    "Stator.Pol.C54_multiple_roots",
    "Stator.Pol.C54_multiple_root_lost",
    "Stator.Pol.C54_sturm_returns",
    "Stator.Pol.C54_returns",
    "Stator.Pol.C54_total"
   ],
   "note": "exact arithmetic; total correctness with the default (Sturm) bounder, with VAS it ends in the complete list or in the exception of a bisection that did not converge in a valid bracket; with VCA soundness in general and termination and completeness if no root is a bisection point. The code drops the root 0 (C54_zero_root_lost) and can lose a root when it divides an interval at a multiple root (C54_multiple_root_lost); multiple roots elsewhere are found (C54_multiple_roots). Whatever the polynomial, the solver returns a sorted list of at most as many numbers as there are roots (C54_total, C54_returns)"
  },
  {
   "property": "C18",
   "status": "proved",
   "theorems": [
    "Stator.C18_value",
    "Stator.C18_units_on_left",
    "Stator.C18_product",
    "Stator.C18_quotient",
    "Stator.C18_scalar_times_quantity_fails"
   ],
   "note": "quantities valued for every size of the units; the failing case (plain factor on the left, units.hpp:103) is characterised as exactly the excluded shape and refuted"
  },
  {
   "property": "C36",
   "status": "proved",
   "theorems": [
    "Stator.Ad.C36_taylor_coefficients",
    "Stator.Ad.C36_sound",
    "Stator.Ad.C36_order_zero",
    "Stator.Ad.C36_power_at_zero",
    "Stator.Ad.C36_negation_diverges"
   ],
   "note": "all orders, exact arithmetic; also shows that whenever numbers come back they are right. The domain excludes a zero base of a power, where the code yields NaN (C36_power_at_zero), and negation/abs, where it does not return"
  },
  {
   "property": "C39",
   "status": "proved",
   "theorems": [
    "Stator.Ct.C.C39_arithmetic",
    "Stator.Ct.C.C39_value",
    "Stator.Ct.C.C39_equality",
    "Stator.Ct.C.C39_neg_abs",
    "Stator.Ct.C.C39_factorial",
    "Stator.Ct.C.C39_toArithmetic"
   ],
   "note": "over unbounded integers: overflow of intmax_t is a compile error in C++ and is not modelled"
  },
  {
   "property": "C40",
   "status": "proved",
   "theorems": [
    "Stator.Ct.C.C40_result",
    "Stator.Ct.C.C40_sin",
    "Stator.Ct.C.C40_cos"
   ],
   "note": "exact characterisation of the (wrong) cases"
  },
  {
   "property": "C55",
   "status": "proved",
   "theorems": [
    "Stator.Ct.C.C55_accuracy"
   ],
   "note": ""
  },
  {
   "property": "C57",
   "status": "proved",
   "theorems": [
    "Stator.Ct.C57_simplify",
    "Stator.Ct.C57_value",
    "Stator.Ct.C57_cube_root_fails",
    "Stator.Ct.C57_spurious_sign"
   ],
   "note": "overload resolution is over-approximated by a relation that allows every rule everywhere; polynomial operands are excluded; sin/cos of constants other than 0 are excluded (C40)"
  },
  {
   "property": "C58",
   "status": "proved",
   "theorems": [
    "Stator.Ct.C58_derivative",
    "Stator.Ct.C58_smooth",
    "Stator.Ct.C58_formed",
    "Stator.Ct.C58_constant_denominator"
   ],
   "note": ""
  },
  {
   "property": "C59",
   "status": "proved",
   "theorems": [
    "Stator.Ct.C59_substitute",
    "Stator.Ct.C59_substitute_constant",
    "Stator.Ct.C59_unique",
    "Stator.Ct.C59_pi_fails"
   ],
   "note": ""
  },
  {
   "property": "C37",
   "status": "proved",
   "theorems": [
    "Stator.Ct.C37_taylor",
    "Stator.Ct.C37_taylor_number",
    "Stator.Ct.C37_polynomial"
   ],
   "note": "for compile-time constants as expansion points the arguments of sin and cos must not become constants other than 0 (C40)"
  },
  {
   "property": "C38",
   "status": "proved",
   "theorems": [
    "Stator.Ct.C38_integrate",
    "Stator.Ct.C38_definite",
    "Stator.Ct.C38_inverse",
    "Stator.Ct.C38_differentiable",
    "Stator.Ct.C38_gaps"
   ],
   "note": "the integrand x itself and x^-1 do not compile (C38_gaps)"
  },
  {
   "property": "C41",
   "status": "proved",
   "theorems": [
    "Stator.Ds.C41_programs",
    "Stator.Ds.C41_history",
    "Stator.Ds.C41_initializer_list",
    "Stator.Ds.C41_copy",
    "Stator.Ds.C41_back",
    "Stator.Ds.C41_equality_fails"
   ],
   "note": "programs with any number of vectors, extended with each other and themselves, copied and constructed: C41_programs; equality compares the whole storage, not the contents (C41_equality_fails)"
  },
  {
   "property": "C42",
   "status": "proved",
   "theorems": [
    "Stator.Ds.C42_make",
    "Stator.Ds.C42_get",
    "Stator.Ds.C42_reverse",
    "Stator.Ds.C42_reverse_reverse",
    "Stator.Ds.C42_replace",
    "Stator.Ds.C42_replace_empty",
    "Stator.Ds.C42_concat",
    "Stator.Ds.C42_split",
    "Stator.Ds.C42_foreach"
   ],
   "note": ""
  },
  {
   "property": "C43",
   "status": "proved",
   "theorems": [
    "Stator.Ds.C43_strip",
    "Stator.Ds.C43_unique",
    "Stator.Ds.C43_idempotent"
   ],
   "note": ""
  },
  {
   "property": "C44",
   "status": "proved",
   "theorems": [
    "Stator.Ds.C44_search_replace",
    "Stator.Ds.C44_unique",
    "Stator.Ds.C44_length",
    "Stator.Ds.C44_same",
    "Stator.Ds.C44_empty_pattern_diverges"
   ],
   "note": ""
  },
  {
   "property": "C45",
   "status": "proved",
   "theorems": [
    "Stator.Ds.C45_row_major",
    "Stator.Ds.C45_bijection",
    "Stator.Ds.C45_size",
    "Stator.Ds.C45_read_write",
    "Stator.Ds.C45_out_of_range_alias",
    "Stator.Ds.C45_accessor",
    "Stator.Ds.C45_push_back",
    "Stator.Ds.C45_push_back_fixed",
    "Stator.Ds.C45_push_back_rank",
    "Stator.Ds.C45_resize",
    "Stator.Ds.C45_resize_moves",
    "Stator.Ds.C45_resize_throws_too_late",
    "Stator.Ds.C45_initializer_unchecked",
    "Stator.Ds.C45_equality",
    "Stator.Ds.C45_equality_fixed_fails",
    "Stator.Ds.C45_linear_push_back",
    "Stator.Ds.C45_linear_resize"
   ],
   "note": ""
  },
  {
   "property": "C46",
   "status": "proved",
   "theorems": [
    "Stator.Ds.C46_elementwise",
    "Stator.Ds.C46_elementwise_mismatch",
    "Stator.Ds.C46_scalar_right",
    "Stator.Ds.C46_scalar_left",
    "Stator.Ds.C46_mixed_storage_ub",
    "Stator.C46_literal",
    "Stator.C46_unique",
    "Stator.C46_mismatch",
    "Stator.C46_symbolic_operand_fails"
   ],
   "note": "compile-time (Ds) and runtime arrays; the failing cases are refuted"
  },
  {
   "property": "C47",
   "status": "proved",
   "theorems": [
    "Stator.Geo.C47_volume",
    "Stator.Geo.C47_area",
    "Stator.Geo.C47_area_only_3d"
   ],
   "note": "area is wrong in every dimension other than 3 (C47_area_only_3d)"
  },
  {
   "property": "C48",
   "status": "proved",
   "theorems": [
    "Stator.Geo.C48_volume",
    "Stator.Geo.C48_volume_zero",
    "Stator.Geo.C48_area",
    "Stator.Geo.C48_known"
   ],
   "note": ""
  },
  {
   "property": "C49",
   "status": "proved",
   "theorems": [
    "Stator.C49_operator",
    "Stator.C49_operator_number",
    "Stator.C49_reflected_commutative",
    "Stator.C49_reflected_sub_swapped",
    "Stator.C49_reflected_div_swapped",
    "Stator.C49_value_unique",
    "Stator.C49_list_round_trip"
   ],
   "note": "the dispatch of Python and pybind11 is part of the model"
  },
  {
   "property": "C50",
   "status": "proved",
   "theorems": [
    "Stator.Ds.Xml.C50_path_unique",
    "Stator.Ds.Xml.C50_path_alone",
    "Stator.Ds.Xml.C50_path_index",
    "Stator.Ds.Xml.C50_path_index_wrong",
    "Stator.Ds.Xml.C50_hasNode",
    "Stator.Ds.Xml.C50_getNode",
    "Stator.Ds.Xml.C50_getNode_string_unchecked",
    "Stator.Ds.Xml.C50_invalid_throws",
    "Stator.Ds.Xml.C50_iteration",
    "Stator.Ds.Xml.C50_attribute",
    "Stator.Ds.Xml.C50_attribute_string_unchecked",
    "Stator.Ds.Xml.C50_add_attribute",
    "Stator.Ds.Xml.C50_mapped_attribute",
    "Stator.Ds.Xml.C50_value",
    "Stator.Ds.Xml.C50_append_parsed_wrong"
   ],
   "note": "RapidXML is not in the repository and is modelled from its documentation"
  },
  {
   "property": "C56",
   "status": "proved",
   "theorems": [
    "Stator.C56_keys_distinct",
    "Stator.C56_array",
    "Stator.C56_dictionary"
   ],
   "note": ""
  },
  {
   "property": "C60",
   "status": "proved",
   "theorems": [
    "Stator.Ds.C60_first_argument_wins",
    "Stator.Ds.C60_default",
    "Stator.Ds.C60_order_of_others",
    "Stator.Ds.C60_present",
    "Stator.Ds.C60_valid"
   ],
   "note": ""
  },
  {
   "property": "C61",
   "status": "proved",
   "theorems": [
    "Stator.Geo.C61_ball_point",
    "Stator.Geo.C61_point_ball",
    "Stator.Geo.C61_ball_ball",
    "Stator.Geo.C61_ball_half",
    "Stator.Geo.C61_half_ball"
   ],
   "note": ""
  },
  {
   "property": "C62",
   "status": "proved",
   "theorems": [
    "Stator.Ds.Err.C62_report",
    "Stator.Ds.Err.C62_newline_no_report",
    "Stator.Ds.Err.C62_empty_first_line"
   ],
   "note": ""
  },
  {
   "property": "C64",
   "status": "proved",
   "theorems": [
    "Stator.Pol.C64_near_factor",
    "Stator.Pol.C64_exact_factor",
    "Stator.Pol.C64_start_at_factor",
    "Stator.Pol.C64_guess_ignored"
   ],
   "note": "Exact arithmetic; the inverse of a singular matrix is modelled as the exception in which the NaN end."
  },
  {
   "property": "C65",
   "status": "proved",
   "theorems": [
    "Stator.C65_reads",
    "Stator.C65_accepted",
    "Stator.C65_roundtrip_iff",
    "Stator.C65_extends_default",
    "Stator.C65_injective",
    "Stator.C65_same_value",
    "Stator.C65_negated_constant",
    "Stator.C65_abs_rejected",
    "Stator.C65_dict_operand"
   ],
   "note": "exact characterisation; the texts of numbers are a parameter as in C02."
  },
  {
   "property": "C66",
   "status": "proved",
   "theorems": [
    "Stator.C66_wellformed_iff",
    "Stator.C66_text",
    "Stator.C66_text_number",
    "Stator.C66_printed_iff",
    "Stator.C66_number",
    "Stator.C66_log",
    "Stator.C66_log_inside",
    "Stator.C66_double_superscript",
    "Stator.C66_pm_glued",
    "Stator.C66_negative_base"
   ],
   "note": "false in the code: exact characterisation of the expressions for which the text is well-formed; the texts printf makes of numbers are a parameter."
  },
  {
   "property": "C63",
   "status": "proved",
   "theorems": [
    "Stator.Ds.Err.C63_what",
    "Stator.Ds.Err.C63_stream_after_catch"
   ],
   "note": ""
  },
  {
   "property": "C67",
   "status": "proved",
   "theorems": [
    "Stator.Fp.C67_exact",
    "Stator.Fp.C67_ground",
    "Stator.Fp.C67_insert",
    "Stator.Fp.C67_regroup_bound",
    "Stator.Fp.C67_regroup_fails"
   ],
   "note": "rounding to nearest with gradual underflow; overflow, infinities, NaN and the sign of zero are not modelled"
  },
  {
   "property": "C68",
   "status": "proved",
   "theorems": [
    "Stator.Fp.C68_bisection",
    "Stator.Fp.C68_best",
    "Stator.Fp.C68_iterations",
    "Stator.Fp.C68_root",
    "Stator.Fp.C68_ieee",
    "Stator.Fp.C68_ieee_iterations",
    "Stator.Fp.C68_overflow"
   ],
   "note": "rounding to nearest; the first four without a bound on the exponents, the others for the data type of IEEE 754 with NaN, infinities and signed zeros"
  },
  {
   "property": "C69",
   "status": "proved",
   "theorems": [
    "Stator.Fp.C69_error",
    "Stator.Fp.C69_sign",
    "Stator.Fp.C69_integers",
    "Stator.Fp.C69_sign_change",
    "Stator.Fp.C69_bisection"
   ],
   "note": "rounding to nearest; overflow not modelled; no fused multiply-add"
  },
  {
   "property": "C70",
   "status": "proved",
   "theorems": [
    "Stator.PExpr.C70_redundant_parentheses",
    "Stator.PExpr.C70_no_marks"
   ],
   "note": ""
  },
  {
   "property": "C71",
   "status": "proved",
   "theorems": [
    "Stator.Ct.C71_value",
    "Stator.Ct.C71_variables",
    "Stator.Ct.C71_derivative",
    "Stator.Ct.C71_substitute",
    "Stator.Ct.C71_constant",
    "Stator.Ct.C71_pi",
    "Stator.Ct.C71_text",
    "Stator.Ct.C71_negative_base_fails"
   ],
   "note": "the text theorem excludes the defects of the printer (as C02)"
  },
  {
   "property": "C72",
   "status": "proved",
   "theorems": [
    "Stator.Pol.C72_text",
    "Stator.Pol.C72_injective",
    "Stator.Pol.C72_not_parsed"
   ],
   "note": "the texts of numbers are a parameter as in C02"
  },
  {
   "property": "C73",
   "status": "proved",
   "theorems": [
    "Stator.Fp.C73_no_subtraction",
    "Stator.Fp.C73_subtraction",
    "Stator.Fp.C73_sharp",
    "Stator.Fp.C73_larger_not_better",
    "Stator.Fp.C73_error",
    "Stator.Fp.C73_addition"
   ],
   "note": ""
  },
  {
   "property": "C74",
   "status": "proved",
   "theorems": [
    "Stator.C74_succeeds",
    "Stator.C74_initial_memory",
    "Stator.C74_value",
    "Stator.C74_same_bits",
    "Stator.C74_nan_differs"
   ],
   "note": "fast_sub itself does not compile; the visitor is modelled"
  },
  {
   "property": "C75",
   "status": "proved",
   "theorems": [
    "Stator.Fp.C75_sign",
    "Stator.Fp.C75_accuracy",
    "Stator.Fp.C75_reads_back",
    "Stator.Fp.C75_constants",
    "Stator.Fp.C75_injective",
    "Stator.Fp.C75_writable",
    "Stator.Fp.C75_double",
    "Stator.Fp.C75_double_roundtrip",
    "Stator.Fp.C75_one_digit_less",
    "Stator.Fp.C75_decimal_survives",
    "Stator.Fp.C75_double_decimal"
   ],
   "note": "the conversions of the C library are modelled as correctly rounded; overflow, infinities, NaN and the sign of zero are not modelled"
  },
  {
   "property": "C76",
   "status": "proved",
   "theorems": [
    "Stator.C76_parsed",
    "Stator.C76_stable",
    "Stator.C76_default",
    "Stator.Fp.C76_double"
   ],
   "note": ""
  },
  {
   "property": "C77",
   "status": "proved",
   "theorems": [
    "Stator.Ds.C77_fixed_rank",
    "Stator.Ds.C77_fixed_read_write",
    "Stator.Ds.C77_text",
    "Stator.Ds.C77_text_dynamic",
    "Stator.Ds.C77_text_fixed_fails",
    "Stator.Ds.C77_text_shape_fails",
    "Stator.Ds.C77_map",
    "Stator.Ds.C77_map_unused_fails",
    "Stator.Ds.C77_to_expr",
    "Stator.Ds.C77_to_expr_short",
    "Stator.Ds.C77_same_text"
   ],
   "note": ""
  },
  {
   "property": "C78",
   "status": "proved",
   "theorems": [
    "Stator.Sh.C78_values",
    "Stator.Sh.C78_immutable",
    "Stator.Sh.C78_reached",
    "Stator.Sh.C78_no_leak",
    "Stator.Sh.C78_all_freed",
    "Stator.Sh.C78_counts",
    "Stator.Sh.C78_equality",
    "Stator.Sh.C78_shared_array_fails",
    "Stator.Sh.C78_cycle_fails"
   ],
   "note": "single-threaded; std::shared_ptr is modelled by its counts (no weak count, no overflow of the count, no stack overflow in nested destructors)"
  },
  {
   "property": "C79",
   "status": "proved",
   "theorems": [
    "Stator.Ct.Expand.C79_expand",
    "Stator.Ct.Expand.C79_twice",
    "Stator.Ct.Expand.C79_coefficients",
    "Stator.Ct.Expand.C79_integer_division",
    "Stator.Ct.Expand.C79_half_fails",
    "Stator.Ct.Expand.C79_two_variables",
    "Stator.Ct.Expand.C79_product_fails",
    "Stator.Ct.Expand.C79_sum_two_variables",
    "Stator.Ct.Expand.C79_sum_of_variables"
   ],
   "note": "exact arithmetic; int overflow not modelled"
  },
  {
   "property": "C80",
   "status": "proved",
   "theorems": [
    "Stator.Ds.Xml.C80_nodes_stay",
    "Stator.Ds.Xml.C80_found_again",
    "Stator.Ds.Xml.C80_path_changes",
    "Stator.Ds.Xml.C80_add_node",
    "Stator.Ds.Xml.C80_read_back",
    "Stator.Ds.Xml.C80_document",
    "Stator.Ds.Xml.C80_unchecked",
    "Stator.Ds.Xml.C80_forth_and_back",
    "Stator.Ds.Xml.C80_parent",
    "Stator.Ds.Xml.C80_climb",
    "Stator.Ds.Xml.C80_first_node_loop",
    "Stator.Ds.Xml.C80_growing_loop",
    "Stator.Ds.Xml.C80_write_tree"
   ],
   "note": "RapidXML is modelled by its documented behaviour: nodes are never moved, append_node and append_attribute add at the end"
  },
  {
   "property": "C81",
   "status": "proved",
   "theorems": [
    "Stator.Fp.C81_opposite_signs",
    "Stator.Fp.C81_same_sign",
    "Stator.Fp.C81_count",
    "Stator.Fp.C81_no_constant",
    "Stator.Fp.C81_linear"
   ],
   "note": "rounding to nearest with gradual underflow; overflow (and the branch for it) and the sign of zero are not modelled; the intermediate results must be clear of subnormal numbers; no fused multiply-add"
  },
  {
   "property": "C82",
   "status": "proved",
   "theorems": [
    "Stator.Sh.C82_any_schedule",
    "Stator.Sh.C82_finished",
    "Stator.Sh.C82_all_freed",
    "Stator.Sh.C82_reading",
    "Stator.Sh.C82_bounded"
   ],
   "note": "the atomicity of the counts of std::shared_ptr is assumed; changing an array in place is excluded; sequential consistency (nodes are published to other threads only by the start of the threads)"
  },
  {
   "property": "C83",
   "status": "proved",
   "theorems": [
    "Stator.Ds.Dict.C83_empty",
    "Stator.Ds.Dict.C83_set",
    "Stator.Ds.Dict.C83_insert",
    "Stator.Ds.Dict.C83_read",
    "Stator.Ds.Dict.C83_entries",
    "Stator.Ds.Dict.C83_equal",
    "Stator.Ds.Dict.C83_expressions",
    "Stator.Ds.Dict.C83_same_tree",
    "Stator.Ds.Dict.C83_dictionary_key_fails",
    "Stator.Ds.Dict.C83_nan_key_fails"
   ],
   "note": "std::unordered_map is modelled as chained buckets with an arbitrary growth policy"
  },
  {
   "property": "C84",
   "status": "proved",
   "theorems": [
    "Stator.Misc.C84_green",
    "Stator.Misc.C84_throwing",
    "Stator.Misc.C84_wraps",
    "Stator.Misc.C84_close",
    "Stator.Misc.C84_close_finite",
    "Stator.Misc.C84_close_order",
    "Stator.Misc.C84_small",
    "Stator.Misc.C84_close_integers"
   ],
   "note": "differences and quotients in check_close are not rounded; texts are not modelled"
  },
  {
   "property": "C85",
   "status": "proved",
   "theorems": [
    "Stator.Disp.C85_visit",
    "Stator.Disp.C85_visit_two",
    "Stator.Disp.C85_as",
    "Stator.Disp.C85_other_constants_fail",
    "Stator.Disp.C85_expr"
   ],
   "note": ""
  },
  {
   "property": "C86",
   "status": "proved",
   "theorems": [
    "Stator.C86_higher",
    "Stator.C86_computed",
    "Stator.C86_ad",
    "Stator.C86_all_orders"
   ],
   "note": "exact real arithmetic as in C16, C36, C52"
  },
  {
   "property": "C87",
   "status": "proved",
   "theorems": [
    "Stator.Fp.C87_accuracy",
    "Stator.Fp.C87_text",
    "Stator.Fp.C87_exact",
    "Stator.Fp.C87_integers",
    "Stator.Fp.C87_relative"
   ],
   "note": "overflow, infinities and the sign of zero: see C91; powers with a base that may be negative only for exact natural exponents; the accuracy of the functions of the C library is a hypothesis"
  },
  {
   "property": "C88",
   "status": "proved",
   "theorems": [
    "Stator.Fp.C88_add",
    "Stator.Fp.C88_sub",
    "Stator.Fp.C88_derivative",
    "Stator.Fp.C88_mul",
    "Stator.Fp.C88_mul_integers",
    "Stator.Fp.C88_deflate",
    "Stator.Fp.C88_deflate_value",
    "Stator.Fp.C88_deflate_zero"
   ],
   "note": "overflow, infinities and the sign of zero are not modelled; deflation by a non-zero root needs order at least 2 (order 1 reads out of range: C26_order_one_fails)"
  },
  {
   "property": "C89",
   "status": "proved",
   "theorems": [
    "Stator.C89_read",
    "Stator.C89_print",
    "Stator.C89_sub",
    "Stator.C89_sub_bound",
    "Stator.C89_derivative",
    "Stator.C89_higher",
    "Stator.C89_text",
    "Stator.C89_simplify",
    "Stator.C89_simplify_grows"
   ],
   "note": "sizes of the trees; nodes that the implementation shares are counted as often as they occur; growth by simplify is bounded for scalar expressions only"
  },
  {
   "property": "C90",
   "status": "proved",
   "theorems": [
    "Stator.Fp.C90_newton",
    "Stator.Fp.C90_halley",
    "Stator.Fp.C90_terminates",
    "Stator.Fp.C90_monotone",
    "Stator.Fp.C90_monotone_success",
    "Stator.Fp.C90_zero_trap",
    "Stator.Fp.C90_residual"
   ],
   "note": "overflow, infinities and NaN in the computed values are not modelled (infinite bounds are); no fused multiply-add; the sign of a zero function value is taken as +0; C90_zero_trap is a counterexample to unconditional success"
  },
  {
   "property": "C91",
   "status": "proved",
   "theorems": [
    "Stator.Fp.C91_simplify",
    "Stator.Fp.C91_insert",
    "Stator.Fp.C91_accuracy",
    "Stator.Fp.C91_text",
    "Stator.Fp.C91_nan_lost",
    "Stator.Fp.C91_sign_lost",
    "Stator.Fp.C91_collect_overflows",
    "Stator.Fp.C91_minus_zero",
    "Stator.Fp.C91_eq",
    "Stator.Fp.C91_sign",
    "Stator.Fp.C91_add",
    "Stator.Fp.C91_mul",
    "Stator.Fp.C91_div",
    "Stator.Fp.C91_signs"
   ],
   "note": "a literal beyond the largest number is read as the largest number by the code; the theorems about texts exclude such literals; payloads and signs of NaN and the floating-point exceptions flags are not modelled"
  },
  {
   "property": "C92",
   "status": "proved",
   "theorems": [
    "Stator.Ct.C92_contains",
    "Stator.Ct.C92_range",
    "Stator.Ct.C92_exact",
    "Stator.Ct.C92_narrower",
    "Stator.Ct.C92_numbers_first",
    "Stator.Ct.C92_second_variable_fails",
    "Stator.Ct.C92_wider",
    "Stator.Ct.C92_fraction_power_fails",
    "Stator.Ct.C92_text"
   ],
   "note": "the operations of Boost.Interval are a parameter with the inclusion property as hypothesis (Ct.box_sound shows that it can be met); which overload the compiler chooses for an interval is modelled from the C++ rules; operations between two plain numbers are exact as in the other compile-time properties"
  },
  {
   "property": "C93",
   "status": "proved",
   "theorems": [
    "Stator.Fp.C93_newton",
    "Stator.Fp.C93_halley",
    "Stator.Fp.C93_nan_trap",
    "Stator.Fp.C93_log",
    "Stator.Fp.C93_agrees",
    "Stator.Fp.C93_success",
    "Stator.Fp.C93_halley_agrees",
    "Stator.Fp.C93_halley_success"
   ],
   "note": "all NaN have the same sign bit, which is a parameter"
  },
  {
   "property": "C94",
   "status": "proved",
   "theorems": [
    "Stator.Ds.Coll.C94_square",
    "Stator.Ds.Coll.C94_column",
    "Stator.Ds.Coll.C94_single",
    "Stator.Ds.Coll.C94_defined",
    "Stator.Ds.Coll.C94_injective",
    "Stator.Ds.Coll.C94_vector",
    "Stator.Ds.Coll.C94_pairs",
    "Stator.Ds.Coll.C94_tuples"
   ],
   "note": "access outside of an Eigen matrix counts as undefined behaviour (an assertion unless it is switched off); stream formatting flags are not modelled: the text of an element is a parameter"
  },
  {
   "property": "C95",
   "status": "proved",
   "theorems": [
    "Stator.Fp.C95_agrees",
    "Stator.Fp.C95_opposite_signs",
    "Stator.Fp.C95_nan",
    "Stator.Fp.C95_false_roots",
    "Stator.Fp.C95_overflow",
    "Stator.Fp.C95_scaling",
    "Stator.Fp.C95_linear"
   ],
   "note": "a NaN counts as not negative for copysign, which cannot be seen in the result; no fused multiply-add"
  },
  {
   "property": "C96",
   "status": "proved",
   "theorems": [
    "Stator.Fp.C96_agrees",
    "Stator.Fp.C96_error",
    "Stator.Fp.C96_double",
    "Stator.Fp.C96_not_nan",
    "Stator.Fp.C96_nan",
    "Stator.Fp.C96_infinity",
    "Stator.Fp.C96_infinity_const",
    "Stator.Fp.C96_bisection",
    "Stator.Fp.C96_bisection_iterations",
    "Stator.Fp.C96_overflow",
    "Stator.Fp.C96_wrong_sign",
    "Stator.Fp.C96_derivatives_infinity"
   ],
   "note": "no fused multiply-add"
  },
  {
   "property": "C97",
   "status": "proved",
   "theorems": [
    "Stator.Fp.C97_error",
    "Stator.Fp.C97_error_higher",
    "Stator.Fp.C97_agrees",
    "Stator.Fp.C97_ieee",
    "Stator.Fp.C97_double",
    "Stator.Fp.C97_newton",
    "Stator.Fp.C97_halley"
   ],
   "note": "the first coefficient (for halleys_method the first two) must not be a negative zero in the last two; no fused multiply-add"
  },
  {
   "property": "C98",
   "status": "proved",
   "theorems": [
    "Stator.Ct.Expand.C98_value",
    "Stator.Ct.Expand.C98_sums",
    "Stator.Ct.Expand.C98_collects",
    "Stator.Ct.Expand.C98_ambiguous",
    "Stator.Ct.Expand.C98_sum_of_sums"
   ],
   "note": "exact arithmetic; int overflow not modelled; overloads that lose the overload resolution are not looked at"
  },
  {
   "property": "C99",
   "status": "proved",
   "theorems": [
    "Stator.Ct.Expand.C99_sub",
    "Stator.Ct.Expand.C99_number",
    "Stator.Ct.Expand.C99_evaluate",
    "Stator.Ct.Expand.C99_derivative",
    "Stator.Ct.Expand.C99_higher",
    "Stator.Ct.Expand.C99_slope"
   ],
   "note": "exact arithmetic; int overflow not modelled"
  },
  {
   "property": "C100",
   "status": "proved",
   "theorems": [
    "Stator.Ct.Expand.C100_ends",
    "Stator.Ct.Expand.C100_equation",
    "Stator.Ct.Expand.C100_value",
    "Stator.Ct.Expand.C100_numbers",
    "Stator.Ct.Expand.C100_expand",
    "Stator.Ct.Expand.C100_total",
    "Stator.Ct.Expand.C100_again"
   ],
   "note": "exact arithmetic; that N leaves Unity for x / x is Ct.Expand.C100_quotient"
  },
  {
   "property": "C101",
   "status": "proved",
   "theorems": [
    "Stator.Ct.Expand.C101_taylor",
    "Stator.Ct.Expand.C101_expand",
    "Stator.Ct.Expand.C101_polynomial"
   ],
   "note": "exact arithmetic; the centre is a double"
  },
  {
   "property": "C102",
   "status": "proved",
   "theorems": [
    "Stator.Ct.C102_error",
    "Stator.Ct.C102_bound",
    "Stator.Ct.Expand.C102_polynomials"
   ],
   "note": "exact arithmetic"
  },
  {
   "property": "C103",
   "status": "proved",
   "theorems": [
    "Stator.C103_plain",
    "Stator.C103_keeps_value",
    "Stator.C103_what_is_read",
    "Stator.C103_product_read",
    "Stator.C103_conditions_needed",
    "Stator.Fp.C103_double",
    "Stator.Fp.C103_rounded",
    "Stator.Fp.C103_double_computed",
    "Stator.Fp.C103_regroup_fails"
   ],
   "note": "values in exact and in rounded arithmetic (no overflow); the text of a negative constant is a minus sign and the text of its negation, a literal, as for doubles"
  },
  {
   "property": "C104",
   "status": "proved",
   "theorems": [
    "Stator.Ad.C104_real",
    "Stator.Ad.C104_one_series",
    "Stator.Ad.C104_only",
    "Stator.Fp.C104_accuracy",
    "Stator.Fp.C104_integers"
   ],
   "note": "runtime expressions; no contraction of a product and a sum to one operation; the error bound has no overflow and is for polynomial expressions"
  }
 ]
}