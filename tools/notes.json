{
 "C18": {
  "note": "proved for min(r,s) <= 7 and s <= 8 (all spaces of up to seven dimensions); false beyond: C18_grade8_wrong, C18_grade9_wrong, C18_disagrees_with_euclidean"
 },
 "C19": {
  "note": "floating-point and constant coordinates, D <= 60; the product is the general-metric product of the vectors stored in the points"
 },
 "C22": {
  "note": "false for roots of squares and of products (C22_sqrt_of_square_is_false, C22_sqrt_of_product_is_false, C22_rnorm_is_false); proved for integer exponents, for bases that are neither products nor powers, and for non-negative factors"
 },
 "C23": {
  "note": "proved for every space with a signature, and for spaces with any metric of up to seven dimensions; false for run-time blades of several possible grades in the conformal space (C23_conformal_runtime_blade_is_false)"
 },
 "C25": {
  "note": "proved for static basis blades without quotients of two integers (those are rounded, see C44; false also for the products x * sqrt(x) and cbrt(x) * cbrt(x), C25_root_product_is_false); the shapes of coefficients are those of Evaluable"
 },
 "C26": {
  "note": "false in nested contexts (C26_nested_is_false); proved for coefficients that belong to one context"
 },
 "C27": {
  "note": "false for neighbouring run-time basis blades with the same possible grades (C27_sum_is_false); proved for all other sums"
 },
 "C28": {
  "note": "false for inputs that are already evaluated (C28_mixed_is_false) and for coefficients that mix contexts (C26_nested_is_false); proved otherwise"
 },
 "C29": {
  "note": "false for copies of non-integers to integer coefficients (C29_narrowing_is_false); proved otherwise"
 },
 "C30": {
  "note": "as C29: copies of non-integers to integer coefficients are excluded"
 },
 "C31": {
  "note": "proved for basis blades that are part of the type, and for run-time basis blades that differ; false for components with the same basis blade (C31_runtime_blades_is_false)"
 },
 "C32": {
  "note": "proved for basis blades that are part of the type; for run-time basis blades take_grade is proved if at most one of them may have the grade, otherwise it is false (C32_runtime_blades_is_false); missing there: the literal 0, take_largest_grade"
 },
 "C35": {
  "note": "false from bit 8 on (C35_leftmost_wrong); proved below"
 },
 "C37": {
  "note": "any type and tolerance; within the tolerance exp is 1 + B, as the second part of C37_exponential says"
 },
 "C41": {
  "note": "floating-point and constant coordinates, D <= 61"
 },
 "C42": {
  "note": "is_zero, is_null and is_unit are proved to compile and decide; false for rational literals with integer coefficient type (C42_rational_is_false)"
 },
 "C43": {
  "note": "false for reordering signs, for powers and for the sign of constant exponents of zero (C43_reordering_sign_is_false, C43_power_is_false, C43_may_be_positive_is_false); proved without them"
 },
 "C44": {
  "note": "false for quotients of two integers (C44_integer_quotient_rounds, C44_constant_fraction_rounds); proved otherwise"
 },
 "C46": {
  "note": "false for constants in non-const variables and const stored scalars (C46_constants_is_false, C46_const_scalar_is_false); proved otherwise"
 },
 "C47": {
  "note": "false: cycles and failures of asymmetry (C47_cycle_is_false, C47_asymmetry_is_false); proved for variables, constants and stored entries; the order of basis blades is proved strict and total for bitsets of that kind (C47_blades_partial)"
 },
 "C48": {
  "note": "false in nested contexts (C48_branch_is_false, C48_product_is_false); proved for variables of the context"
 },
 "C49": {
  "note": "false for run-time blades (C49_runtime_blades_is_false); proved for static blades, and that the call compiles"
 },
 "C50": {
  "note": "scalars (C50_unit_scalar), multivectors whose squared norm is constant (C50_unit_constant, also with stored coefficients) and every type whose squared norm is not a non-negative multiple of one stored square are proved; a negative coefficient on a single basis blade flips the direction (C50_unit_is_false), otherwise single squares are right (C76_unit_sign_partial)"
 },
 "C51": {
  "note": "false for abs and equality of constants that are not literals (C51_abs_of_constant_is_false, C51_equality_of_constants_is_false); proved otherwise"
 },
 "C52": {
  "note": "false for run-time blades (C52_dynamic_blades_is_false); proved for static blades"
 },
 "C54": {
  "note": "the object is proved; the exception cannot be caught (C54_catch_is_false)"
 },
 "C55": {
  "note": "proved except for rational literal coefficients in an object of integer coefficient type (see C42_rational_is_false)"
 },
 "C56": {
  "note": "false of the code: proved that the program is terminated",
  "status": "partial"
 },
 "C57": {
  "note": "false of the code: proved counterexample",
  "status": "partial"
 },
 "C58": {
  "note": "false where two integers are divided (C58_integer_division_is_false); proved otherwise"
 },
 "C59": {
  "note": "formulas proved for all objects of the geometry; calls proved unless two integers are divided (false there: C59_integer_division_is_false), up to 60 dimensions"
 },
 "C60": {
  "note": "formulas proved for all objects of the geometry; calls proved unless two integers are divided (false there: C59_integer_division_is_false), up to 60 dimensions"
 },
 "C61": {
  "note": "formulas proved for all objects of the geometry; calls proved unless two integers are divided (false there: C59_integer_division_is_false), up to 60 dimensions"
 },
 "C62": {
  "note": "false: division by zero for some blades (C62_division_by_zero_is_false); every result is proved right, and that there is one if the blades share at most one direction or fill the space"
 },
 "C63": {
  "note": "false sign if the operands are swapped (C63_relation_is_false); proved otherwise"
 },
 "C64": {
  "note": "proved for tolerance zero; with a tolerance the join is a blade of a subspace; false for zero operands (C64_zero_is_false)"
 },
 "C65": {
  "note": "all symmetric metrics; fast_plunge proved for tolerance zero; plunge proved whenever meet_and_join has a result, which is not always (C65_division_by_zero_is_false)"
 },
 "C67": {
  "note": "proved up to seven dimensions (five Euclidean ones for the conformal space), sharp by C18; integer quotients excluded (see C58)"
 },
 "C68": {
  "note": "formulas and calls proved up to five dimensions (the bound of C18) unless two integers are divided (false there: C68_integer_division_is_false)"
 },
 "C69": {
  "note": "formulas and calls proved up to five dimensions (the bound of C18) unless two integers are divided (false there: C68_integer_division_is_false)"
 },
 "C70": {
  "note": "formulas and calls proved up to five dimensions (the bound of C18) unless two integers are divided (false there: C68_integer_division_is_false)"
 },
 "C72": {
  "note": "false for indices in another order, repeated indices and empty ranges (C72_order_is_false, C72_repeated_is_false, C72_empty_is_false); proved otherwise"
 },
 "C76": {
  "note": "rnorm: proved for constant squared norms, for non-negative coefficients, and otherwise for squared norms that are not a multiple of one stored square (where it is false for negative coefficients); unit: for all floating-point coefficients up to the sign for single stored squares, where a negative coefficient flips it (C76_unit_floating_partial), and for all constant squared norms (C76_unit_constant; scalars are C50_unit_scalar); inv: for floating-point coefficients and squared norms that are not constant, and for all constant squared norms that are positive or -1 (C76_inverse_constant); false for inverses of some negative constants (C76_inverse_is_false), the other negative constants are missing"
 },
 "C81": {
  "note": "Proved for calls whose type divides no integers by integers (NoIntegerDivision), as C58: integer division truncates, and C58_integer_division_is_false shows the claim fails there."
 },
 "C82": {
  "note": "Spaces without null basis vectors for dual, all spaces for undual."
 },
 "C83": {
  "note": "Proved for calls whose type divides no integers by integers (NoIntegerDivision), as C58."
 }
}
