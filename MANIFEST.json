{
 "claims": [
  {
   "property": "C01",
   "status": "proved",
   "theorems": [
    "GATL.Props.C01_grade_counts_vectors"
   ],
   "note": ""
  },
  {
   "property": "C02",
   "status": "proved",
   "theorems": [
    "GATL.Props.C02_reordering_sign"
   ],
   "note": ""
  },
  {
   "property": "C03",
   "status": "proved",
   "theorems": [
    "GATL.Props.C03_op_exterior_algebra"
   ],
   "note": ""
  },
  {
   "property": "C04",
   "status": "proved",
   "theorems": [
    "GATL.Props.C04_op_assoc",
    "GATL.Props.C04_op_graded_comm",
    "GATL.Props.C04_op_alternating",
    "GATL.Props.C04_op_grade"
   ],
   "note": ""
  },
  {
   "property": "C05",
   "status": "proved",
   "theorems": [
    "GATL.Props.C05_gp_clifford_algebra"
   ],
   "note": ""
  },
  {
   "property": "C06",
   "status": "proved",
   "theorems": [
    "GATL.Props.C06_gp_assoc",
    "GATL.Props.C06_bilinear",
    "GATL.Props.C06_unit"
   ],
   "note": ""
  },
  {
   "property": "C07",
   "status": "proved",
   "theorems": [
    "GATL.Props.C07_anticommute",
    "GATL.Props.C07_square",
    "GATL.Props.C07_vector_square"
   ],
   "note": ""
  },
  {
   "property": "C08",
   "status": "proved",
   "theorems": [
    "GATL.Props.C08_signed_signature"
   ],
   "note": ""
  },
  {
   "property": "C09",
   "status": "proved",
   "theorems": [
    "GATL.Props.C09_grade_parts",
    "GATL.Props.C09_all_multivectors"
   ],
   "note": ""
  },
  {
   "property": "C10",
   "status": "proved",
   "theorems": [
    "GATL.Props.C10_vector_split",
    "GATL.Props.C10_derivation",
    "GATL.Props.C10_lcont_op",
    "GATL.Props.C10_sp_op"
   ],
   "note": ""
  },
  {
   "property": "C11",
   "status": "proved",
   "theorems": [
    "GATL.Props.C11_rcont_reverse",
    "GATL.Props.C11_sp_comm",
    "GATL.Props.C11_dot",
    "GATL.Props.C11_hip",
    "GATL.Props.C11_lcont_scalar"
   ],
   "note": ""
  },
  {
   "property": "C12",
   "status": "proved",
   "theorems": [
    "GATL.Props.C12_signs",
    "GATL.Props.C12_involutive",
    "GATL.Props.C12_gp",
    "GATL.Props.C12_op"
   ],
   "note": ""
  },
  {
   "property": "C13",
   "status": "proved",
   "theorems": [
    "GATL.Props.C13_complement_spec",
    "GATL.Props.C13_dual_to_op",
    "GATL.Props.C13_assoc",
    "GATL.Props.C13_bilinear",
    "GATL.Props.C13_unit",
    "GATL.Props.C13_grade"
   ],
   "note": ""
  },
  {
   "property": "C14",
   "status": "proved",
   "theorems": [
    "GATL.Props.C14_dual_undual"
   ],
   "note": ""
  },
  {
   "property": "C15",
   "status": "proved",
   "theorems": [
    "GATL.Props.C15_rnorm_sqr",
    "GATL.Props.C15_inverse",
    "GATL.Props.C15_igp",
    "GATL.Props.C15_null"
   ],
   "note": ""
  },
  {
   "property": "C16",
   "status": "proved",
   "theorems": [
    "GATL.Props.C16_orthogonal",
    "GATL.Props.C16_rotor",
    "GATL.Props.C16_compose",
    "GATL.Props.C16_reflection"
   ],
   "note": ""
  },
  {
   "property": "C17",
   "status": "proved",
   "theorems": [
    "GATL.Props.C17_op",
    "GATL.Props.C17_rp",
    "GATL.Props.C17_metric_products",
    "GATL.Props.C17_grade_63_undefined"
   ],
   "note": ""
  },
  {
   "property": "C18",
   "status": "partial",
   "theorems": [
    "GATL.Props.C18_terminates_partial",
    "GATL.Props.C18_clifford_partial",
    "GATL.Props.C18_clifford_small_partial",
    "GATL.Props.C18_grade_parts_partial",
    "GATL.Props.C18_vector_partial",
    "GATL.Props.C18_grade8_wrong",
    "GATL.Props.C18_grade9_wrong",
    "GATL.Props.C18_disagrees_with_euclidean"
   ],
   "note": "proved for min(r,s) <= 7 and s <= 8 (all spaces of up to seven dimensions); false beyond: C18_grade8_wrong, C18_grade9_wrong, C18_disagrees_with_euclidean"
  },
  {
   "property": "C19",
   "status": "proved",
   "theorems": [
    "GATL.Props.C19_point",
    "GATL.Props.C19_point_compiles",
    "GATL.Props.C19_distance",
    "GATL.Props.C19_null",
    "GATL.Props.C19_integers"
   ],
   "note": "floating-point and constant coordinates, D <= 60; the product is the general-metric product of the vectors stored in the points"
  },
  {
   "property": "C20",
   "status": "proved",
   "theorems": [
    "GATL.Props.C20_simplified_sum"
   ],
   "note": ""
  },
  {
   "property": "C21",
   "status": "proved",
   "theorems": [
    "GATL.Props.C21_simplified_product"
   ],
   "note": ""
  },
  {
   "property": "C22",
   "status": "partial",
   "theorems": [
    "GATL.Props.C22_simplified_power_partial",
    "GATL.Props.C22_sqrt_of_square_is_false",
    "GATL.Props.C22_sqrt_of_product_is_false",
    "GATL.Props.C22_rnorm_partial",
    "GATL.Props.C22_rnorm_is_false"
   ],
   "note": "false for roots of squares and of products (C22_sqrt_of_square_is_false, C22_sqrt_of_product_is_false, C22_rnorm_is_false); proved for integer exponents, for bases that are neither products nor powers, and for non-negative factors"
  },
  {
   "property": "C23",
   "status": "partial",
   "theorems": [
    "GATL.Props.C23_value_unique",
    "GATL.Props.C23_op",
    "GATL.Props.C23_rp",
    "GATL.Props.C23_metric_products_partial",
    "GATL.Props.C23_scalar_operand",
    "GATL.Props.C23_scalar_op",
    "GATL.Props.C23_involutions",
    "GATL.Props.C23_general_products_partial",
    "GATL.Props.C23_general_clifford_partial",
    "GATL.Props.C23_general_grade_parts_partial",
    "GATL.Props.C23_matrix_clifford_partial",
    "GATL.Props.C23_conformal_clifford_partial",
    "GATL.Props.C23_conformal_runtime_blade_is_false"
   ],
   "note": "proved for every space with a signature, and for spaces with any metric of up to seven dimensions; false for run-time blades of several possible grades in the conformal space (C23_conformal_runtime_blade_is_false)"
  },
  {
   "property": "C24",
   "status": "proved",
   "theorems": [
    "GATL.Props.C24_canonical",
    "GATL.Props.C24_compiles"
   ],
   "note": ""
  },
  {
   "property": "C25",
   "status": "partial",
   "theorems": [
    "GATL.Props.C25_arguments",
    "GATL.Props.C25_eval_partial",
    "GATL.Props.C25_eager",
    "GATL.Props.C25_lazy",
    "GATL.Props.C25_root_product_is_false"
   ],
   "note": "proved for static basis blades without quotients of two integers (those are rounded, see C44; false also for the products x * sqrt(x) and cbrt(x) * cbrt(x), C25_root_product_is_false); the shapes of coefficients are those of Evaluable"
  },
  {
   "property": "C26",
   "status": "partial",
   "theorems": [
    "GATL.Props.C26_storage_partial",
    "GATL.Props.C26_programs",
    "GATL.Props.C26_nested_is_false"
   ],
   "note": "false in nested contexts (C26_nested_is_false); proved for coefficients that belong to one context"
  },
  {
   "property": "C27",
   "status": "partial",
   "theorems": [
    "GATL.Props.C27_sum_is_false",
    "GATL.Props.C27_apart_partial"
   ],
   "note": "false for neighbouring run-time basis blades with the same possible grades (C27_sum_is_false); proved for all other sums"
  },
  {
   "property": "C28",
   "status": "partial",
   "theorems": [
    "GATL.Props.C28_nested_partial",
    "GATL.Props.C28_mixed_is_false"
   ],
   "note": "false for inputs that are already evaluated (C28_mixed_is_false) and for coefficients that mix contexts (C26_nested_is_false); proved otherwise"
  },
  {
   "property": "C29",
   "status": "partial",
   "theorems": [
    "GATL.Props.C29_trivial_copy_partial",
    "GATL.Props.C29_compiles",
    "GATL.Props.C29_narrowing_is_false"
   ],
   "note": "false for copies of non-integers to integer coefficients (C29_narrowing_is_false); proved otherwise"
  },
  {
   "property": "C30",
   "status": "partial",
   "theorems": [
    "GATL.Props.C30_throws_partial",
    "GATL.Props.C30_result_partial",
    "GATL.Props.C30_unchecked",
    "GATL.Props.C30_compiles"
   ],
   "note": "as C29: copies of non-integers to integer coefficients are excluded"
  },
  {
   "property": "C31",
   "status": "partial",
   "theorems": [
    "GATL.Props.C31_grade",
    "GATL.Props.C31_largest_grade",
    "GATL.Props.C31_runtime_blades_partial",
    "GATL.Props.C31_runtime_blades_is_false"
   ],
   "note": "proved for basis blades that are part of the type, and for run-time basis blades that differ; false for components with the same basis blade (C31_runtime_blades_is_false)"
  },
  {
   "property": "C32",
   "status": "partial",
   "theorems": [
    "GATL.Props.C32_take_grade",
    "GATL.Props.C32_take_largest_grade",
    "GATL.Props.C32_projections",
    "GATL.Props.C32_calls",
    "GATL.Props.C32_runtime_blades_partial",
    "GATL.Props.C32_runtime_blades_is_false"
   ],
   "note": "proved for basis blades that are part of the type; for run-time basis blades take_grade is proved if at most one of them may have the grade, otherwise it is false (C32_runtime_blades_is_false); missing there: the literal 0, take_largest_grade"
  },
  {
   "property": "C33",
   "status": "proved",
   "theorems": [
    "GATL.Props.C33_full_kvector",
    "GATL.Props.C33_full_multivector"
   ],
   "note": ""
  },
  {
   "property": "C34",
   "status": "proved",
   "theorems": [
    "GATL.Props.C34_for_each_basis_vector",
    "GATL.Props.C34_pseudoscalar"
   ],
   "note": ""
  },
  {
   "property": "C35",
   "status": "partial",
   "theorems": [
    "GATL.Props.C35_leftmost_partial",
    "GATL.Props.C35_leftmost_wrong"
   ],
   "note": "false from bit 8 on (C35_leftmost_wrong); proved below"
  },
  {
   "property": "C36",
   "status": "proved",
   "theorems": [
    "GATL.Props.C36_isqrt",
    "GATL.Props.C36_isqrt_neg",
    "GATL.Props.C36_gcd",
    "GATL.Props.C36_ipow",
    "GATL.Props.C36_ipow_neg",
    "GATL.Props.C36_iabs_sign"
   ],
   "note": ""
  },
  {
   "property": "C37",
   "status": "proved",
   "theorems": [
    "GATL.Props.C37_scalar",
    "GATL.Props.C37_exponential",
    "GATL.Props.C37_inverse"
   ],
   "note": "any type and tolerance; within the tolerance exp is 1 + B, as the second part of C37_exponential says"
  },
  {
   "property": "C38",
   "status": "proved",
   "theorems": [
    "GATL.Props.C38_commutator",
    "GATL.Props.C38_lie",
    "GATL.Props.C38_bivector"
   ],
   "note": ""
  },
  {
   "property": "C39",
   "status": "proved",
   "theorems": [
    "GATL.Props.C39_project_reject",
    "GATL.Props.C39_vector",
    "GATL.Props.C39_op"
   ],
   "note": ""
  },
  {
   "property": "C40",
   "status": "proved",
   "theorems": [
    "GATL.Props.C40_point",
    "GATL.Props.C40_op",
    "GATL.Props.C40_compose",
    "GATL.Props.C40_zero",
    "GATL.Props.C40_direction",
    "GATL.Props.C40_make_point",
    "GATL.Props.C40_make_direction",
    "GATL.Props.C40_objects"
   ],
   "note": ""
  },
  {
   "property": "C41",
   "status": "proved",
   "theorems": [
    "GATL.Props.C41_point",
    "GATL.Props.C41_point_compiles",
    "GATL.Props.C41_distance",
    "GATL.Props.C41_null"
   ],
   "note": "floating-point and constant coordinates, D <= 61"
  },
  {
   "property": "C42",
   "status": "partial",
   "theorems": [
    "GATL.Props.C42_is_zero_partial",
    "GATL.Props.C42_is_zero_components_partial",
    "GATL.Props.C42_is_null_partial",
    "GATL.Props.C42_is_unit_partial",
    "GATL.Props.C42_is_null",
    "GATL.Props.C42_is_unit",
    "GATL.Props.C42_rational_is_false"
   ],
   "note": "is_zero, is_null and is_unit are proved to compile and decide; false for rational literals with integer coefficient type (C42_rational_is_false)"
  },
  {
   "property": "C43",
   "status": "partial",
   "theorems": [
    "GATL.Props.C43_non_negative_partial",
    "GATL.Props.C43_even_partial",
    "GATL.Props.C43_reordering_sign_is_false",
    "GATL.Props.C43_power_is_false",
    "GATL.Props.C43_zero_power",
    "GATL.Props.C43_may_be_positive_is_false"
   ],
   "note": "false for reordering signs, for powers and for the sign of constant exponents of zero (C43_reordering_sign_is_false, C43_power_is_false, C43_may_be_positive_is_false); proved without them"
  },
  {
   "property": "C44",
   "status": "partial",
   "theorems": [
    "GATL.Props.C44_eval_partial",
    "GATL.Props.C44_defined_partial",
    "GATL.Props.C44_integer_type",
    "GATL.Props.C44_quotient_partial",
    "GATL.Props.C44_quotient_type",
    "GATL.Props.C44_floating_partial",
    "GATL.Props.C44_integer_quotient_rounds",
    "GATL.Props.C44_counterexample",
    "GATL.Props.C44_constant_fraction_rounds"
   ],
   "note": "false for quotients of two integers (C44_integer_quotient_rounds, C44_constant_fraction_rounds); proved otherwise"
  },
  {
   "property": "C45",
   "status": "proved",
   "theorems": [
    "GATL.Props.C45_add",
    "GATL.Props.C45_neg",
    "GATL.Props.C45_sub",
    "GATL.Props.C45_sub_self",
    "GATL.Props.C45_comm",
    "GATL.Props.C45_assoc"
   ],
   "note": ""
  },
  {
   "property": "C46",
   "status": "partial",
   "theorems": [
    "GATL.Props.C46_conformal_direction_partial",
    "GATL.Props.C46_vector_partial",
    "GATL.Props.C46_constant_partial",
    "GATL.Props.C46_constants_is_false",
    "GATL.Props.C46_const_scalar_is_false"
   ],
   "note": "false for constants in non-const variables and const stored scalars (C46_constants_is_false, C46_const_scalar_is_false); proved otherwise"
  },
  {
   "property": "C47",
   "status": "partial",
   "theorems": [
    "GATL.Props.C47_blades_partial",
    "GATL.Props.C47_irreflexive",
    "GATL.Props.C47_strict_order_on_leaves_partial",
    "GATL.Props.C47_leaves_commute_partial",
    "GATL.Props.C47_cycle_is_false",
    "GATL.Props.C47_asymmetry_is_false"
   ],
   "note": "false: cycles and failures of asymmetry (C47_cycle_is_false, C47_asymmetry_is_false); proved for variables, constants and stored entries; the order of basis blades is proved strict and total for bitsets of that kind (C47_blades_partial)"
  },
  {
   "property": "C48",
   "status": "partial",
   "theorems": [
    "GATL.Props.C48_branch_is_false",
    "GATL.Props.C48_product_is_false",
    "GATL.Props.C48_evaluated_partial"
   ],
   "note": "false in nested contexts (C48_branch_is_false, C48_product_is_false); proved for variables of the context"
  },
  {
   "property": "C49",
   "status": "partial",
   "theorems": [
    "GATL.Props.C49_dp_compiles_partial",
    "GATL.Props.C49_dp_partial",
    "GATL.Props.C49_runtime_blades_is_false"
   ],
   "note": "false for run-time blades (C49_runtime_blades_is_false); proved for static blades, and that the call compiles"
  },
  {
   "property": "C50",
   "status": "partial",
   "theorems": [
    "GATL.Props.C50_unit_constant",
    "GATL.Props.C50_unit_partial",
    "GATL.Props.C50_unit_is_false",
    "GATL.Props.C50_unit_scalar"
   ],
   "note": "scalars (C50_unit_scalar), multivectors whose squared norm is constant (C50_unit_constant, also with stored coefficients) and every type whose squared norm is not a non-negative multiple of one stored square are proved; a negative coefficient on a single basis blade flips the direction (C50_unit_is_false), otherwise single squares are right (C76_unit_sign_partial)"
  },
  {
   "property": "C51",
   "status": "partial",
   "theorems": [
    "GATL.Props.C51_folding_preserves_value_partial",
    "GATL.Props.C51_abs_of_constant_is_false",
    "GATL.Props.C51_equality_of_constants_is_false",
    "GATL.Props.C51_stored_comparison",
    "GATL.Props.C51_stored_logic",
    "GATL.Props.C51_stored_choice",
    "GATL.Props.C51_stored_bits"
   ],
   "note": "false for abs and equality of constants that are not literals (C51_abs_of_constant_is_false, C51_equality_of_constants_is_false); proved otherwise"
  },
  {
   "property": "C52",
   "status": "partial",
   "theorems": [
    "GATL.Props.C52_static_blades_partial",
    "GATL.Props.C52_dynamic_blades_is_false"
   ],
   "note": "false for run-time blades (C52_dynamic_blades_is_false); proved for static blades"
  },
  {
   "property": "C53",
   "status": "proved",
   "theorems": [
    "GATL.Props.C53_direction",
    "GATL.Props.C53_moment",
    "GATL.Props.C53_support"
   ],
   "note": ""
  },
  {
   "property": "C54",
   "status": "partial",
   "theorems": [
    "GATL.Props.C54_construct_partial",
    "GATL.Props.C54_catch_is_false"
   ],
   "note": "the object is proved; the exception cannot be caught (C54_catch_is_false)"
  },
  {
   "property": "C55",
   "status": "partial",
   "theorems": [
    "GATL.Props.C55_visits_partial",
    "GATL.Props.C55_compiles"
   ],
   "note": "proved except for rational literal coefficients in an object of integer coefficient type (see C42_rational_is_false)"
  },
  {
   "property": "C56",
   "status": "partial",
   "theorems": [
    "GATL.Props.C56_exceptions_is_false"
   ],
   "note": "false of the code: proved that the program is terminated"
  },
  {
   "property": "C57",
   "status": "partial",
   "theorems": [
    "GATL.Props.C57_state_is_false"
   ],
   "note": "false of the code: proved counterexample"
  },
  {
   "property": "C58",
   "status": "partial",
   "theorems": [
    "GATL.Props.C58_program_partial",
    "GATL.Props.C58_inverse_partial",
    "GATL.Props.C58_division_partial",
    "GATL.Props.C58_integer_division_is_false"
   ],
   "note": "false where two integers are divided (C58_integer_division_is_false); proved otherwise"
  },
  {
   "property": "C59",
   "status": "partial",
   "theorems": [
    "GATL.Props.C59_primal",
    "GATL.Props.C59_dual",
    "GATL.Props.C59_objects_partial",
    "GATL.Props.C59_integer_division_is_false"
   ],
   "note": "formulas proved for all objects of the geometry; calls proved unless two integers are divided (false there: C59_integer_division_is_false), up to 60 dimensions"
  },
  {
   "property": "C60",
   "status": "partial",
   "theorems": [
    "GATL.Props.C60_primal",
    "GATL.Props.C60_dual",
    "GATL.Props.C60_objects_partial"
   ],
   "note": "formulas proved for all objects of the geometry; calls proved unless two integers are divided (false there: C59_integer_division_is_false), up to 60 dimensions"
  },
  {
   "property": "C61",
   "status": "partial",
   "theorems": [
    "GATL.Props.C61_primal",
    "GATL.Props.C61_dual",
    "GATL.Props.C61_objects_partial"
   ],
   "note": "formulas proved for all objects of the geometry; calls proved unless two integers are divided (false there: C59_integer_division_is_false), up to 60 dimensions"
  },
  {
   "property": "C62",
   "status": "partial",
   "theorems": [
    "GATL.Props.C62_meet_and_join_partial",
    "GATL.Props.C62_line_or_all_partial",
    "GATL.Props.C62_zero",
    "GATL.Props.C62_division_by_zero_is_false"
   ],
   "note": "false: division by zero for some blades (C62_division_by_zero_is_false); every result is proved right, and that there is one if the blades share at most one direction or fill the space"
  },
  {
   "property": "C63",
   "status": "partial",
   "theorems": [
    "GATL.Props.C63_relation_partial",
    "GATL.Props.C63_higher_first_partial",
    "GATL.Props.C63_relation_is_false"
   ],
   "note": "false sign if the operands are swapped (C63_relation_is_false); proved otherwise"
  },
  {
   "property": "C64",
   "status": "partial",
   "theorems": [
    "GATL.Props.C64_fast_join",
    "GATL.Props.C64_fast_join_tolerance_partial",
    "GATL.Props.C64_zero",
    "GATL.Props.C64_zero_is_false",
    "GATL.Props.C64_fast_meet_and_join"
   ],
   "note": "proved for tolerance zero; with a tolerance the join is a blade of a subspace; false for zero operands (C64_zero_is_false)"
  },
  {
   "property": "C65",
   "status": "partial",
   "theorems": [
    "GATL.Props.C65_signed_spaces",
    "GATL.Props.C65_plunge_partial",
    "GATL.Props.C65_plunge_line_or_all_partial",
    "GATL.Props.C65_fast_plunge",
    "GATL.Props.C65_fast_plunge_null",
    "GATL.Props.C65_division_by_zero_is_false",
    "GATL.Props.C65_fast_plunge_euclidean"
   ],
   "note": "all symmetric metrics; fast_plunge proved for tolerance zero; plunge proved whenever meet_and_join has a result, which is not always (C65_division_by_zero_is_false)"
  },
  {
   "property": "C66",
   "status": "proved",
   "theorems": [
    "GATL.Props.C66_delta_product",
    "GATL.Props.C66_delta_product_metric",
    "GATL.Props.C66_null_vector"
   ],
   "note": ""
  },
  {
   "property": "C67",
   "status": "partial",
   "theorems": [
    "GATL.Props.C67_algebra",
    "GATL.Props.C67_conformal_programs_partial",
    "GATL.Props.C67_conformal_inverses_partial",
    "GATL.Props.C67_matrix_programs_partial",
    "GATL.Props.C67_matrix_inverses_partial",
    "GATL.Props.C67_signed"
   ],
   "note": "proved up to seven dimensions (five Euclidean ones for the conformal space), sharp by C18; integer quotients excluded (see C58)"
  },
  {
   "property": "C68",
   "status": "partial",
   "theorems": [
    "GATL.Props.C68_primal",
    "GATL.Props.C68_dual",
    "GATL.Props.C68_objects_partial",
    "GATL.Props.C68_integer_division_is_false"
   ],
   "note": "formulas and calls proved up to five dimensions (the bound of C18) unless two integers are divided (false there: C68_integer_division_is_false)"
  },
  {
   "property": "C69",
   "status": "partial",
   "theorems": [
    "GATL.Props.C69_primal",
    "GATL.Props.C69_dual",
    "GATL.Props.C69_objects_partial"
   ],
   "note": "formulas and calls proved up to five dimensions (the bound of C18) unless two integers are divided (false there: C68_integer_division_is_false)"
  },
  {
   "property": "C70",
   "status": "partial",
   "theorems": [
    "GATL.Props.C70_primal",
    "GATL.Props.C70_dual",
    "GATL.Props.C70_objects_partial"
   ],
   "note": "formulas and calls proved up to five dimensions (the bound of C18) unless two integers are divided (false there: C68_integer_division_is_false)"
  },
  {
   "property": "C71",
   "status": "proved",
   "theorems": [
    "GATL.Props.C71_text",
    "GATL.Props.C71_injective",
    "GATL.Props.C71_expression",
    "GATL.Props.C71_components",
    "GATL.Props.C71_undistributed",
    "GATL.Props.C71_names",
    "GATL.Props.C71_distributed",
    "GATL.Props.C71_plain_names"
   ],
   "note": ""
  },
  {
   "property": "C72",
   "status": "partial",
   "theorems": [
    "GATL.Props.C72_constant_partial",
    "GATL.Props.C72_grades",
    "GATL.Props.C72_order_is_false",
    "GATL.Props.C72_repeated_is_false",
    "GATL.Props.C72_empty_is_false"
   ],
   "note": "false for indices in another order, repeated indices and empty ranges (C72_order_is_false, C72_repeated_is_false, C72_empty_is_false); proved otherwise"
  },
  {
   "property": "C73",
   "status": "proved",
   "theorems": [
    "GATL.Props.C73_eager",
    "GATL.Props.C73_lazy",
    "GATL.Props.C73_operations",
    "GATL.Props.C73_overflow_is_rejected"
   ],
   "note": ""
  },
  {
   "property": "C74",
   "status": "proved",
   "theorems": [
    "GATL.Props.C74_programs",
    "GATL.Props.C74_inverses",
    "GATL.Props.C74_unique"
   ],
   "note": ""
  },
  {
   "property": "C75",
   "status": "proved",
   "theorems": [
    "GATL.Props.C75_pseudoscalar",
    "GATL.Props.C75_minkowski",
    "GATL.Props.C75_minkowski_products",
    "GATL.Props.C75_homogeneous",
    "GATL.Props.C75_conformal",
    "GATL.Props.C75_conformal_pseudoscalar",
    "GATL.Props.C75_conformal_products"
   ],
   "note": ""
  },
  {
   "property": "C76",
   "status": "partial",
   "theorems": [
    "GATL.Props.C76_rnorm_partial",
    "GATL.Props.C76_rnorm_constant",
    "GATL.Props.C76_rnorm_nonneg",
    "GATL.Props.C76_unit_normalised",
    "GATL.Props.C76_unit_partial",
    "GATL.Props.C76_unit_sign_partial",
    "GATL.Props.C76_unit_constant",
    "GATL.Props.C76_unit_floating_partial",
    "GATL.Props.C76_inverse_partial",
    "GATL.Props.C76_inverse_constant",
    "GATL.Props.C76_inverse_is_false"
   ],
   "note": "rnorm: proved for constant squared norms, for non-negative coefficients, and otherwise for squared norms that are not a multiple of one stored square (where it is false for negative coefficients); unit: for all floating-point coefficients up to the sign for single stored squares, where a negative coefficient flips it (C76_unit_floating_partial), and for all constant squared norms (C76_unit_constant; scalars are C50_unit_scalar); inv: for floating-point coefficients and squared norms that are not constant, and for all constant squared norms that are positive or -1 (C76_inverse_constant); false for inverses of some negative constants (C76_inverse_is_false), the other negative constants are missing"
  },
  {
   "property": "C77",
   "status": "proved",
   "theorems": [
    "GATL.Props.C77_divide"
   ],
   "note": ""
  },
  {
   "property": "C78",
   "status": "proved",
   "theorems": [
    "GATL.Props.C78_exponential"
   ],
   "note": ""
  },
  {
   "property": "C79",
   "status": "proved",
   "theorems": [
    "GATL.Props.C79_function",
    "GATL.Props.C79_function_of_constant",
    "GATL.Props.C79_sqrt",
    "GATL.Props.C79_cbrt",
    "GATL.Props.C79_pow_integer",
    "GATL.Props.C79_pow",
    "GATL.Props.C79_sqrt_of_constant"
   ],
   "note": ""
  },
  {
   "property": "C80",
   "status": "proved",
   "theorems": [
    "GATL.Props.C80_rotor",
    "GATL.Props.C80_rotation",
    "GATL.Props.C80_boost",
    "GATL.Props.C80_shear",
    "GATL.Props.C80_translation",
    "GATL.Props.C80_point_rotation",
    "GATL.Props.C80_scaling",
    "GATL.Props.C80_call",
    "GATL.Props.C80_exp_call",
    "GATL.Props.C80_exp_rotation",
    "GATL.Props.C80_exp_translation"
   ],
   "note": ""
  },
  {
   "property": "C81",
   "status": "partial",
   "theorems": [
    "GATL.Props.C81_even_partial",
    "GATL.Props.C81_odd_partial",
    "GATL.Props.C81_mirror_partial"
   ],
   "note": "Proved for calls whose type divides no integers by integers (NoIntegerDivision), as C58: integer division truncates, and C58_integer_division_is_false shows the claim fails there."
  },
  {
   "property": "C82",
   "status": "proved",
   "theorems": [
    "GATL.Props.C82_dual",
    "GATL.Props.C82_dual_value",
    "GATL.Props.C82_undual",
    "GATL.Props.C82_roundtrip"
   ],
   "note": "Spaces without null basis vectors for dual, all spaces for undual."
  },
  {
   "property": "C83",
   "status": "partial",
   "theorems": [
    "GATL.Props.C83_commutator_partial",
    "GATL.Props.C83_bivector_partial"
   ],
   "note": "Proved for calls whose type divides no integers by integers (NoIntegerDivision), as C58."
  }
 ]
}