{"id": "C01", "title": "Grade of a basis blade counts its basis vectors", "statement": "The grade the library attributes to a basis blade is exactly the number of distinct basis vectors in it, for every possible set of basis vectors.", "quantifier": "all 2^64 basis-blade bitsets", "why_tests_cant": "2^64 bitsets cannot be enumerated by tests", "anchors": ["cpp/include/gatl/ga/core/constexpr.hpp: ones, _ones_impl_a, _ones_impl_b, _ones_impl_c"]}
{"id": "C02", "title": "Reordering sign is the parity of the sorting permutation", "statement": "Multiplying two basis blades introduces the sign (-1)^k where k is the number of pairs (i from left, j from right) with i > j; the run-time loop and the compile-time recursion agree.", "quantifier": "all pairs of basis-blade bitsets", "why_tests_cant": "2^128 pairs", "anchors": ["cpp/include/gatl/ga/core/constexpr.hpp: swaps_count", "cpp/include/gatl/ga/core/expression.hpp: reordering_sign, reordering_sign_t"]}
{"id": "C03", "title": "op is the exterior (Grassmann) product", "statement": "op / operator^ computes the product of the exterior algebra over the space's vectors: multivectors with op are isomorphic, as an algebra, to the exterior algebra of an n-dimensional free module.", "quantifier": "all dimensions n<=63, all coefficient rings, all multivectors", "why_tests_cant": "infinitely many multivectors, all n", "anchors": ["cpp/include/gatl/ga/core/exterior_product_mapping.hpp: multiply", "cpp/include/gatl/ga/core/outer_product.hpp: op"]}
{"id": "C04", "title": "op is associative, graded-commutative and alternating", "statement": "(A^B)^C = A^(B^C); for A of grade r and B of grade s, A^B = (-1)^(rs) B^A; v^v = 0 for every vector; the grade of A^B is r+s.", "quantifier": "all multivectors (blades/homogeneous where stated)", "why_tests_cant": "infinitely many operands", "anchors": ["cpp/include/gatl/ga/core/exterior_product_mapping.hpp", "cpp/include/gatl/ga/core/outer_product.hpp"]}
{"id": "C05", "title": "gp in an orthogonal metric is the Clifford product", "statement": "gp / operator* in signed_metric_space<P,Q,R> (and every metric derived from it) is the product of the Clifford algebra of the quadratic form with P plus ones, Q minus ones and R zeros: the library's multivectors and that Clifford algebra are isomorphic as algebras.", "quantifier": "all P,Q,R with P+Q+R<=63, all coefficient rings, all multivectors", "why_tests_cant": "infinitely many spaces and operands", "anchors": ["cpp/include/gatl/ga/core/orthogonal_metric_mapping.hpp: multiply", "cpp/include/gatl/ga/core/geometric_product.hpp: gp", "cpp/include/gatl/ga/model/signed/metric_space.hpp: metric_factor"]}
{"id": "C06", "title": "gp is associative, bilinear and has unit 1", "statement": "(A*B)*C = A*(B*C), A*(B+C)=A*B+A*C, (A+B)*C=A*C+B*C, 1*A = A*1 = A.", "quantifier": "all multivectors in any orthogonal metric", "why_tests_cant": "infinitely many operands", "anchors": ["cpp/include/gatl/ga/core/geometric_product.hpp", "cpp/include/gatl/ga/core/orthogonal_metric_mapping.hpp"]}
{"id": "C07", "title": "Basis vectors anticommute and square to the metric", "statement": "e(i)*e(j) = -e(j)*e(i) for i != j and e(i)*e(i) = metric(i); any vector squares to its quadratic form.", "quantifier": "all i,j, all orthogonal metrics, all vectors", "why_tests_cant": "all index pairs and metrics", "anchors": ["cpp/include/gatl/ga/core/orthogonal_metric_mapping.hpp", "cpp/include/gatl/ga/util/basis_vector.hpp: e"]}
{"id": "C08", "title": "signed_metric_space<P,Q,R> has the advertised signature", "statement": "The first P basis vectors square to +1, the next Q to -1, the next R to 0, and the metric factor of a blade is the product over its vectors; euclidean, homogeneous, minkowski and plane_based spaces have signatures (N,0,0), (D+1,0,0), (D+1,1,0), (D,0,1).", "quantifier": "all P,Q,R with P+Q+R<=63 and all blades", "why_tests_cant": "all signatures", "anchors": ["cpp/include/gatl/ga/model/signed/metric_space.hpp: negative, zero, metric_factor", "cpp/include/gatl/ga/core/constexpr.hpp: safe_rshift"]}
{"id": "C09", "title": "lcont, rcont, dot, hip and sp are the advertised grade parts of gp", "statement": "For A of grade r and B of grade s: lcont(A,B)=<AB>_{s-r}, rcont(A,B)=<AB>_{r-s}, dot(A,B)=<AB>_{|r-s|}, hip(A,B)=<AB>_{|r-s|} if r,s>0 and 0 otherwise, sp(A,B)=<AB>_0; op(A,B)=<AB>_{r+s}.", "quantifier": "all multivectors, all orthogonal metrics", "why_tests_cant": "infinitely many operands", "anchors": ["cpp/include/gatl/ga/core/left_contraction.hpp", "cpp/include/gatl/ga/core/right_contraction.hpp", "cpp/include/gatl/ga/core/dot_product.hpp", "cpp/include/gatl/ga/core/hestenes_inner_product.hpp", "cpp/include/gatl/ga/core/scalar_product.hpp"]}
{"id": "C10", "title": "Contraction identities", "statement": "For vectors a: a*B = lcont(a,B) + op(a,B); lcont(a, B^C) = lcont(a,B)^C + (-1)^r B^lcont(a,C); lcont(A^B, C) = lcont(A, lcont(B,C)); sp(A^B, C) = sp(A, lcont(B,C)).", "quantifier": "all multivectors, all orthogonal metrics", "why_tests_cant": "infinitely many operands", "anchors": ["cpp/include/gatl/ga/core/left_contraction.hpp", "cpp/include/gatl/ga/core/outer_product.hpp", "cpp/include/gatl/ga/core/geometric_product.hpp"]}
{"id": "C11", "title": "Left/right and symmetry relations between the inner products", "statement": "rcont(A,B) = reverse(lcont(reverse B, reverse A)); sp(A,B)=sp(B,A); dot = lcont + rcont - sp; hip agrees with dot when neither operand has a scalar part; lcont(scalar,B) = scalar*B.", "quantifier": "all multivectors, all orthogonal metrics", "why_tests_cant": "infinitely many operands", "anchors": ["cpp/include/gatl/ga/core/right_contraction.hpp", "cpp/include/gatl/ga/core/dot_product.hpp", "cpp/include/gatl/ga/core/hestenes_inner_product.hpp", "cpp/include/gatl/ga/core/scalar_product.hpp"]}
{"id": "C12", "title": "reverse, involute and conjugate are the canonical (anti)automorphisms", "statement": "reverse multiplies grade k by (-1)^(k(k-1)/2), involute by (-1)^k, conjugate by (-1)^(k(k+1)/2), for every grade up to 63; each is its own inverse; reverse(AB)=reverse(B)reverse(A), involute(AB)=involute(A)involute(B), conjugate(AB)=conjugate(B)conjugate(A) for gp and op.", "quantifier": "all grades, all multivectors, all orthogonal metrics", "why_tests_cant": "infinitely many operands", "anchors": ["cpp/include/gatl/ga/core/reversion.hpp", "cpp/include/gatl/ga/core/involution.hpp", "cpp/include/gatl/ga/core/conjugation.hpp", "cpp/include/gatl/ga/core/expression_graded_unary_minus.hpp"]}
{"id": "C13", "title": "rp is the regressive (meet) product", "statement": "rp is bilinear and associative, has the pseudoscalar as unit, the grade of rp(A_r,B_s) is r+s-n (zero if negative), and it is dual to op: complementing both operands turns rp into op up to the complement map.", "quantifier": "all n<=63, all multivectors", "why_tests_cant": "infinitely many operands", "anchors": ["cpp/include/gatl/ga/core/regressive_product_mapping.hpp: multiply", "cpp/include/gatl/ga/core/regressive_product.hpp: rp"]}
{"id": "C14", "title": "dual and undual are mutually inverse", "statement": "In a metric without null basis vectors undual(dual(A)) = A = dual(undual(A)) for every multivector; dual(A) = A * inverse pseudoscalar.", "quantifier": "all P,Q with P+Q<=63, all multivectors", "why_tests_cant": "infinitely many operands", "anchors": ["cpp/include/gatl/ga/extra/dualization.hpp: dual, undual", "cpp/include/gatl/ga/util/pseudoscalar.hpp"]}
{"id": "C15", "title": "inv inverts every invertible versor", "statement": "If V is a product of vectors none of which is null, then V*inv(V) = inv(V)*V = 1, rnorm_sqr(V) is the product of the squared norms, and igp(A,V) is the unique X with X*V = A.", "quantifier": "all versors of any length in any orthogonal metric over any field", "why_tests_cant": "all factor sequences", "anchors": ["cpp/include/gatl/ga/extra/versor_inverse.hpp: inv", "cpp/include/gatl/ga/extra/reverse_norm.hpp: rnorm_sqr", "cpp/include/gatl/ga/extra/inverse_geometric_product.hpp: igp"]}
{"id": "C16", "title": "Versor application is an orthogonal transformation", "statement": "apply_even_versor, apply_odd_versor and apply_rotor distribute over gp and op, preserve grade, preserve sp, and compose: applying V then W equals applying W*V; a unit vector applied as odd versor is the reflection v -> -n v n^-1.", "quantifier": "all versors, all multivectors, all orthogonal metrics", "why_tests_cant": "all versors and operands", "anchors": ["cpp/include/gatl/ga/extra/apply_versor.hpp: apply_even_versor, apply_odd_versor, apply_rotor"]}
{"id": "C17", "title": "The compile-time possible-grade sets never lose a component", "statement": "For every product and every pair of operands whose grades lie in the declared possible-grade sets, the grade of every nonzero term of the product lies in the result's declared possible-grade set, so no term is discarded.", "quantifier": "all possible-grade sets, all n<=62 (at n=63 the set that contains grade 63 cannot be iterated: signed overflow, stated separately), all pairs of blades", "why_tests_cant": "2^128 pairs of grade sets", "anchors": ["cpp/include/gatl/ga/core/geometric_product.hpp: possible_grades_result", "cpp/include/gatl/ga/core/left_contraction.hpp", "cpp/include/gatl/ga/core/dot_product.hpp", "cpp/include/gatl/ga/core/exterior_product_mapping.hpp", "cpp/include/gatl/ga/core/regressive_product_mapping.hpp"]}
{"id": "C18", "title": "Products in a general metric are the Clifford products", "statement": "For a space given by any symmetric metric matrix, gp (and its grade parts lcont, rcont, dot, hip, sp) equals the Clifford product for that bilinear form, in every dimension the type allows.", "quantifier": "all symmetric metric matrices, all n<=63, all multivectors", "why_tests_cant": "infinitely many metrics and operands", "anchors": ["cpp/include/gatl/ga/core/general_metric_mapping.hpp: determinant, general_metric_mapping", "cpp/include/gatl/ga/model/general/metric_space.hpp"]}
{"id": "C19", "title": "Conformal points are null and encode Euclidean distance", "statement": "In the conformal space, point(x) is null for every x and sp(point(x),point(y)) = -|x-y|^2/2.", "quantifier": "all D, all coordinates", "why_tests_cant": "all real coordinates", "anchors": ["cpp/include/gatl/ga/model/conformal/metric_space.hpp: entry", "cpp/include/gatl/ga/model/conformal/point.hpp"]}
{"id": "C20", "title": "Simplifying a sum of values preserves its value", "statement": "The type-level simplification of a sum denotes the same number as the sum of the operands whenever the operands are defined, whatever sequence of collection/merge/constant-folding rules fires.", "quantifier": "all expression trees, all values of the variables", "why_tests_cant": "infinitely many expression trees", "anchors": ["cpp/include/gatl/ga/core/expression_simplification_addition_values.hpp", "cpp/include/gatl/ga/core/rules.hpp"]}
{"id": "C21", "title": "Simplifying a product of values preserves its value", "statement": "The type-level simplification of a product of values denotes the product of the operands whenever the operands are defined.", "quantifier": "all expression trees, all values", "why_tests_cant": "infinitely many expression trees", "anchors": ["cpp/include/gatl/ga/core/expression_simplification_product_values.hpp"]}
{"id": "C22", "title": "Simplifying a power preserves its value", "statement": "pow, sqrt and cbrt of a lazy expression denote the power of the operand whenever that is defined; in particular sqrt(x*x) is |x| and rnorm(A) is never negative.", "quantifier": "all expression trees, all values", "why_tests_cant": "infinitely many expression trees", "anchors": ["cpp/include/gatl/ga/core/expression_simplification_power.hpp", "cpp/include/gatl/ga/core/math.hpp: sqrt, pow", "cpp/include/gatl/ga/extra/reverse_norm.hpp: rnorm"]}
{"id": "C23", "title": "Simplified multivector products denote the algebraic product", "statement": "The expression type computed for op, gp, lcont, rcont, dot, hip, sp or rp of two (sums of) components evaluates to that product of the operands' values: distribution, collection and sorting of components change nothing.", "quantifier": "all component expressions with static or run-time blades, all values, spaces with n<=62 (see C17 for n=63)", "why_tests_cant": "infinitely many expression trees", "anchors": ["cpp/include/gatl/ga/core/expression_simplification_product_components.hpp", "cpp/include/gatl/ga/core/expression_simplification_addition_components.hpp"]}
{"id": "C24", "title": "Sums of components are kept in canonical form", "statement": "Adding multivectors with statically known basis blades yields components in strictly increasing (grade, bitset) order, each basis blade at most once and none with constant-zero coefficient.", "quantifier": "all sums of components", "why_tests_cant": "infinitely many sums", "anchors": ["cpp/include/gatl/ga/core/expression_simplification_addition_components.hpp", "cpp/include/gatl/ga/core/expression_relational_operators.hpp: lt"]}
{"id": "C25", "title": "Lazy evaluation equals eager evaluation", "statement": "Evaluating a lazily built multivector expression over its inputs gives a multivector whose every coefficient equals the value of the corresponding lazy coefficient at those inputs.", "quantifier": "all expressions over statically known basis blades, all inputs", "why_tests_cant": "infinitely many expression trees", "anchors": ["cpp/include/gatl/ga/core/lazy_context.hpp: eval_clifford_expression, lazy_context"]}
{"id": "C26", "title": "Evaluation writes exactly the storage it allocated", "statement": "The number of values (and bitsets) written by an evaluation equals the size of the result's storage, so no slot is left unwritten and none is overrun.", "quantifier": "all expressions evaluated by a lazy context", "why_tests_cant": "infinitely many expression trees; overrun is undefined behaviour", "anchors": ["cpp/include/gatl/ga/core/lazy_context.hpp: _eval_clifford_expression_store_value", "cpp/include/gatl/ga/core/clifford_expression.hpp: count_stored_values, sequential_storage"]}
{"id": "C27", "title": "Run-time indexed basis vectors add correctly", "statement": "e(i) + e(j) with run-time indices i and j evaluates to the sum of the two basis vectors.", "quantifier": "all i,j", "why_tests_cant": "all index pairs", "anchors": ["cpp/include/gatl/ga/core/lazy_context.hpp", "cpp/include/gatl/ga/core/expression_simplification_addition_components.hpp: collect", "cpp/include/gatl/ga/util/basis_vector.hpp"]}
{"id": "C28", "title": "Lazy inputs may be mixed with already evaluated multivectors", "statement": "Evaluating an expression in an inner lazy context whose inputs are themselves lazy leaves the outer variables symbolic and gives the same value once the outer context is evaluated.", "quantifier": "all nestings of lazy contexts", "why_tests_cant": "infinitely many nestings", "anchors": ["cpp/include/gatl/ga/core/lazy_context.hpp", "cpp/include/gatl/ga/core/expression_simplification_addition_values.hpp: collect"]}
{"id": "C29", "title": "trivial_copy copies every representable component and nothing else", "statement": "After trivial_copy(input, result) every component of result equals the input's component with the same basis blade, or 0 if the input has none.", "quantifier": "all pairs of sorted component lists, all values", "why_tests_cant": "infinitely many layouts", "anchors": ["cpp/include/gatl/ga/core/trivial_copy.hpp: dispatch, trivial_copy"]}
{"id": "C30", "title": "checked_trivial_copy throws exactly when information would be lost", "statement": "checked_trivial_copy throws bad_checked_copy_exception iff some input component absent from the result type has |value| > tolerance; otherwise it acts as trivial_copy.", "quantifier": "all pairs of sorted component lists, all values and tolerances", "why_tests_cant": "infinitely many layouts", "anchors": ["cpp/include/gatl/ga/core/trivial_copy.hpp: check_zero_and_advance, checked_trivial_copy"]}
{"id": "C31", "title": "grade and largest_grade report the true grade", "statement": "grade(A) is k when all components above tolerance have grade k, UNDETERMINED when there are none, MIXED otherwise; largest_grade(A) is the greatest grade of a component above tolerance.", "quantifier": "all multivectors, all tolerances >= 0", "why_tests_cant": "infinitely many multivectors", "anchors": ["cpp/include/gatl/ga/extra/grade.hpp"]}
{"id": "C32", "title": "take_grade is the grade projection", "statement": "take_grade(A,k) keeps exactly the components of grade k; it is linear and idempotent, projections of different grades compose to 0, and A is the sum of its grade parts; take_largest_grade keeps the part of largest_grade.", "quantifier": "all multivectors, all k", "why_tests_cant": "infinitely many multivectors", "anchors": ["cpp/include/gatl/ga/extra/take_grade.hpp"]}
{"id": "C33", "title": "k-vector constructors enumerate every basis blade exactly once", "statement": "The components of a full k-vector / multivector of an n-dimensional space are exactly the C(n,k) subsets of size k, each once, in increasing bitset order.", "quantifier": "all n<=63 and k<=n", "why_tests_cant": "all (n,k)", "anchors": ["cpp/include/gatl/ga/util/multivector.hpp", "cpp/include/gatl/ga/core/constexpr.hpp: first_combination, next_combination"]}
{"id": "C34", "title": "for_each_basis_vector and pseudoscalar cover exactly the basis vectors", "statement": "for_each_basis_vector visits each basis vector of a blade once, in increasing index order, with its 1-based index; pseudoscalar(space) is the blade of all n basis vectors.", "quantifier": "all blades, all n<=63", "why_tests_cant": "2^64 blades", "anchors": ["cpp/include/gatl/ga/util/for_each_basis_vector.hpp", "cpp/include/gatl/ga/util/pseudoscalar.hpp", "cpp/include/gatl/ga/core/constexpr.hpp: rightmost_set_bit, set_bit_index"]}
{"id": "C35", "title": "leftmost_set_bit isolates the highest set bit", "statement": "The helper that finds the greatest possible grade returns the highest set bit of every non-zero bitset, so general-metric products and largest possible grades are computed over the full range.", "quantifier": "all non-zero 64-bit words", "why_tests_cant": "2^64 words", "anchors": ["cpp/include/gatl/ga/core/constexpr.hpp: leftmost_set_bit", "cpp/include/gatl/ga/core/general_metric_mapping.hpp", "cpp/include/gatl/ga/extra/grade.hpp: largest_possible_grade"]}
{"id": "C36", "title": "Integer helpers compute what they are named after", "statement": "isqrt is the floor square root (so a general metric of n*n entries has n dimensions), gcd is the greatest common divisor, ipow is the power, for every argument in range.", "quantifier": "all arguments in range", "why_tests_cant": "all 64-bit integers", "anchors": ["cpp/include/gatl/ga/core/constexpr.hpp: isqrt, gcd, ipow, sign, iabs", "cpp/include/gatl/ga/model/general/metric_space.hpp: vector_space_dimensions"]}
{"id": "C37", "title": "exp of a blade is the exponential series", "statement": "For a blade B whose square is a scalar s, exp(B, tol) is the sum of B^k/k!, in the elliptic, hyperbolic and null cases, whenever s is zero or |s| exceeds the tolerance; within the tolerance it is 1 + B. For a scalar it is always the exponential. exp(B)*exp(-B)=1 when s is zero or |s| exceeds the tolerance.", "quantifier": "all multivectors of any static type with scalar square, all real coefficients, all non-negative stored or constant tolerances, all signatures", "why_tests_cant": "all real inputs", "anchors": ["cpp/include/gatl/ga/extra/blade_exponential.hpp: exp"]}
{"id": "C38", "title": "cp is the commutator and a Lie bracket", "statement": "cp(A,B) = (AB-BA)/2; it is antisymmetric, satisfies the Jacobi identity, is a derivation of gp, and cp with a bivector preserves grade.", "quantifier": "all multivectors, all orthogonal metrics, fields of characteristic != 2", "why_tests_cant": "infinitely many operands", "anchors": ["cpp/include/gatl/ga/extra/commutator_product.hpp: cp"]}
{"id": "C39", "title": "project and reject split a multivector", "statement": "In Euclidean space with B an invertible blade, project(A,B)+reject(A,B)=A, projecting twice is projecting once, and the projection of a vector lies in B while its rejection is orthogonal to B.", "quantifier": "all vectors, all blades with non-zero norm", "why_tests_cant": "all real coefficients", "anchors": ["cpp/include/gatl/ga/model/signed/euclidean/orthogonal_projection.hpp", "cpp/include/gatl/ga/model/signed/euclidean/rejection.hpp"]}
{"id": "C40", "title": "Homogeneous translation acts on flats", "statement": "translate(d, point(p)) = point(p+d); translate(d, A^B) = translate(d,A)^translate(d,B) for directions d; translations compose additively and translate(0,.) is the identity.", "quantifier": "all directions and flats", "why_tests_cant": "all coefficients", "anchors": ["cpp/include/gatl/ga/model/signed/homogeneous/translation.hpp: translate", "cpp/include/gatl/ga/model/signed/homogeneous/point.hpp"]}
{"id": "C41", "title": "Minkowski-model points are null and encode Euclidean distance", "statement": "In the minkowski space, point(x) is null and sp(point(x),point(y)) = -|x-y|^2/2, as in the conformal model.", "quantifier": "all D, all coordinates", "why_tests_cant": "all real coordinates", "anchors": ["cpp/include/gatl/ga/model/signed/minkowski/point.hpp", "cpp/include/gatl/ga/model/signed/minkowski/metric_space.hpp"]}
{"id": "C42", "title": "Predicates is_zero, is_null, is_unit decide what they claim", "statement": "is_zero(A) iff every coefficient is within tolerance of 0; is_null(A) iff |rnorm_sqr(A)| <= tol; is_unit(A) iff ||rnorm_sqr(A)|-1| <= tol.", "quantifier": "all multivectors, all tolerances", "why_tests_cant": "infinitely many multivectors", "anchors": ["cpp/include/gatl/ga/extra/tests.hpp"]}
{"id": "C43", "title": "Sign and parity traits are sound", "statement": "When the library decides at compile time that an expression is non-negative (and drops abs) or even, every value of that expression is non-negative or even; when it replaces a power of zero by zero, the exponent is positive.", "quantifier": "all expression trees, all values", "why_tests_cant": "infinitely many expression trees", "anchors": ["cpp/include/gatl/ga/core/expression_traits.hpp: is_non_negative, is_even, may_be_positive", "cpp/include/gatl/ga/core/expression.hpp: absolute_t"]}
{"id": "C44", "title": "Division by an integer variable is exact", "statement": "Evaluating a lazy quotient a/b of numbers gives the real quotient, also when a and b are integers.", "quantifier": "all integer pairs with b != 0", "why_tests_cant": "all integers", "anchors": ["cpp/include/gatl/ga/core/expression.hpp: mul<L, power<R,-1>>::eval", "cpp/include/gatl/ga/core/arithmetic_operators.hpp: operator/"]}
{"id": "C45", "title": "Multivector addition and subtraction are componentwise", "statement": "A+B and A-B add and subtract coefficients of equal basis blades; + is commutative and associative, A-A=0, -A = c<-1>*A.", "quantifier": "all multivectors of spaces with n<=62", "why_tests_cant": "infinitely many operands", "anchors": ["cpp/include/gatl/ga/core/arithmetic_operators.hpp", "cpp/include/gatl/ga/core/expression_simplification_addition_components.hpp"]}
{"id": "C46", "title": "vector(...) places coordinates on the right basis vectors", "statement": "vector(space, x1,...,xn) has coefficient xi on e(i) and nothing else, whichever coordinates are compile-time constants.", "quantifier": "all n<=63, all coordinate lists, all choices of constant coordinates", "why_tests_cant": "all layouts", "anchors": ["cpp/include/gatl/ga/util/vector.hpp: vector, make_vector_sequential"]}
{"id": "C47", "title": "The canonical order on expressions is a strict order", "statement": "The ordering used to sort factors and summands is irreflexive and transitive, so equal products always reach the same normal form.", "quantifier": "all triples of expressions", "why_tests_cant": "infinitely many expression trees", "anchors": ["cpp/include/gatl/ga/core/expression_relational_operators.hpp: lt"]}
{"id": "C48", "title": "if_else survives partial evaluation", "statement": "Partially evaluating a conditional keeps both branches.", "quantifier": "all conditionals with unevaluated variables", "why_tests_cant": "infinitely many expression trees", "anchors": ["cpp/include/gatl/ga/core/lazy_context.hpp: eval_clifford_expression<if_else>"]}
{"id": "C49", "title": "dp selects the top grade part of the geometric product", "statement": "dp(A,B) is the highest-grade part of A*B that exceeds the tolerance, also for basis vectors chosen at run time.", "quantifier": "all multivectors, all tolerances", "why_tests_cant": "infinitely many operands", "anchors": ["cpp/include/gatl/ga/extra/delta_product.hpp: dp", "cpp/include/gatl/ga/extra/take_grade.hpp", "cpp/include/gatl/ga/extra/grade.hpp"]}
{"id": "C50", "title": "unit normalises without changing direction", "statement": "unit(A) is a positive multiple of A with |rnorm_sqr| = 1 whenever rnorm_sqr(A) != 0.", "quantifier": "all multivectors with non-zero norm", "why_tests_cant": "all real coefficients", "anchors": ["cpp/include/gatl/ga/extra/unit.hpp: unit", "cpp/include/gatl/ga/core/expression_simplification_power.hpp"]}
{"id": "C51", "title": "Folding of elementary, bitwise and logical functions preserves the value", "statement": "The type the library computes for abs, exp, log, trigonometric, comparison, logical, conditional and bitwise functions of expressions denotes the value of the function at the values of its arguments, whatever constant folding or cancellation takes place. Functions of two operands of the same type are left to run time if the type contains stored entries, which may hold different values.", "quantifier": "all functions, all argument expressions, all values of the variables", "why_tests_cant": "infinitely many expression trees", "anchors": ["cpp/include/gatl/ga/core/expression.hpp: *_t (nested type of each function)"]}
{"id": "C52", "title": "Adding two multivectors compiles", "statement": "The sum of any two multivector expressions the library itself produces is defined: one of the rewriting rules for sums of components always applies and the rewriting terminates, whether the basis blades are known at compile time or at run time.", "quantifier": "all pairs of multivector expressions", "why_tests_cant": "infinitely many pairs of expression types; the failure is a compile-time error in user code", "anchors": ["cpp/include/gatl/ga/core/expression_simplification_addition_components.hpp", "cpp/include/gatl/ga/core/rules.hpp: 'It should be impossible to reach this case'", "cpp/include/gatl/ga/core/expression_relational_operators.hpp"]}
{"id": "C53", "title": "Parameters of homogeneous flats", "statement": "For the flat X = point(x) ^ A through the point x with the (non-zero) direction blade A: flat_direction(X) = A, flat_moment(X) = x ^ A, flat_support_vector(X) is the vector s orthogonal to A whose difference from x lies in A, and flat_unit_support_point(X) = s + e(D+1), a point of the flat.", "quantifier": "all points, all direction blades, all dimensions up to 62", "why_tests_cant": "all real coefficients and all dimensions", "anchors": ["cpp/include/gatl/ga/model/signed/homogeneous/flat_direction.hpp", "cpp/include/gatl/ga/model/signed/homogeneous/flat_moment.hpp", "cpp/include/gatl/ga/model/signed/homogeneous/flat_support_vector.hpp", "cpp/include/gatl/ga/model/signed/homogeneous/flat_unit_support_point.hpp"]}
{"id": "C54", "title": "Constructing a multivector from another type reports loss", "statement": "Constructing a multivector variable from a multivector of another type copies every component the variable has a place for; if a component without a place exceeds the tolerance, an exception (bad_checked_copy_exception) is thrown that the program can catch.", "quantifier": "all pairs of multivector types, all values", "why_tests_cant": "infinitely many layouts and values", "anchors": ["cpp/include/gatl/ga/core/trivial_copy.hpp: clifford_expression::clifford_expression", "cpp/include/gatl/ga/core.hpp: GA_NOEXCEPT"]}
{"id": "C55", "title": "for_each_component visits every component once, in order", "statement": "for_each_component(A, f) calls f once for every component of A, in order, with its basis vectors, its value and where they come from, until f sets keep_going to false; it returns whether all components were visited.", "quantifier": "all evaluated multivectors (constant and stored coefficients, constant and stored basis blades), all function objects", "why_tests_cant": "all types, values and function objects", "anchors": ["cpp/include/gatl/ga/util/for_each_component.hpp: for_each_component"]}
{"id": "C56", "title": "Exceptions of the function object reach the caller of for_each_component", "statement": "If f throws when it is shown a component, the exception leaves for_each_component.", "quantifier": "all multivectors, all function objects, all positions of the throwing call", "why_tests_cant": "all multivectors and function objects", "anchors": ["cpp/include/gatl/ga/util/for_each_component.hpp: GA_NOEXCEPT(GA_NOEXCEPT(f))"]}
{"id": "C57", "title": "A function object keeps its state while visiting components", "statement": "for_each_component(A, f) uses one function object for all components, so that state kept in f by value is passed on from one component to the next.", "quantifier": "all multivectors, all function objects", "why_tests_cant": "all multivectors and function objects", "anchors": ["cpp/include/gatl/ga/util/for_each_component.hpp: _for_each_component_impl::run"]}
{"id": "C58", "title": "Inverses inside lazily evaluated programs", "statement": "A program of sums, differences, products, involutions and inverses evaluated in one lazy context returns the value that the formula has in the geometric algebra, whenever no multivector with vanishing squared norm is inverted; in particular inv(V) is the inverse of a versor V and igp(A, V) is the one X with X * V = A.", "quantifier": "all signatures, all programs, all input multivectors", "why_tests_cant": "all programs and inputs: the simplifier rewrites the expression differently for every combination of types", "anchors": ["cpp/include/gatl/ga/extra/versor_inverse.hpp: inv", "cpp/include/gatl/ga/extra/inverse_geometric_product.hpp: igp", "cpp/include/gatl/ga/core/lazy_context.hpp: lazy_context::eval"]}
{"id": "C59", "title": "Parameters of rounds in the Minkowski model", "statement": "For the round X = w p0 ^ ... ^ pk through affinely independent points: round_location gives the normalised point at the centre (the point of the affine hull at the same distance from all of them), round_size_sqr the square of that distance, and primal_round_direction the direction w (p1-p0) ^ ... ^ (pk-p0) ^ ni; the dual functions give the same location and size for dual(X).", "quantifier": "all dimensions D, all numbers of points, all affinely independent points, all weights w != 0, all pseudoscalars", "why_tests_cant": "all dimensions, grades and real coordinates", "anchors": ["cpp/include/gatl/ga/model/signed/minkowski/round_location.hpp: primal_round_location, dual_round_location", "cpp/include/gatl/ga/model/signed/minkowski/round_size_sqr.hpp: primal_round_size_sqr, dual_round_size_sqr", "cpp/include/gatl/ga/model/signed/minkowski/round_direction.hpp: primal_round_direction"]}
{"id": "C60", "title": "Parameters of flats in the Minkowski model", "statement": "For the flat X = w p0 ^ ... ^ pk ^ ni through affinely independent points: primal_flat_location gives no + c + |c|^2 ni where c is the point of the flat closest to the origin, primal_flat_direction gives w (p1-p0) ^ ... ^ (pk-p0) ^ ni, and dual_flat_location gives the same location for dual(X).", "quantifier": "all dimensions D, all numbers of points, all affinely independent points, all weights w != 0, all pseudoscalars", "why_tests_cant": "all dimensions, grades and real coordinates", "anchors": ["cpp/include/gatl/ga/model/signed/minkowski/flat_location.hpp: primal_flat_location, dual_flat_location", "cpp/include/gatl/ga/model/signed/minkowski/flat_direction.hpp: primal_flat_direction"]}
{"id": "C61", "title": "Parameters of tangents in the Minkowski model", "statement": "For the tangent X at a point p with linearly independent directions: tangent_location gives the normalised point p, primal_tangent_direction gives the direction with the weight of X, and dual_tangent_location gives the same location for dual(X).", "quantifier": "all dimensions D, all points, all numbers of linearly independent directions, all weights w != 0, all pseudoscalars", "why_tests_cant": "all dimensions, grades and real coordinates", "anchors": ["cpp/include/gatl/ga/model/signed/minkowski/tangent_location.hpp: primal_tangent_location, dual_tangent_location", "cpp/include/gatl/ga/model/signed/minkowski/tangent_direction.hpp: primal_tangent_direction"]}
{"id": "C62", "title": "Meet and join of blades", "statement": "For two blades A and B, meet_and_join returns a blade of the intersection of their subspaces and a blade of the sum of their subspaces; with zero it returns zero for both.", "quantifier": "all dimensions n <= 63, all pairs of real blades of any grades, all tolerances that separate the coefficients involved from zero (in particular 0), all orders in which components are stored", "why_tests_cant": "all dimensions, grades and real coordinates", "anchors": ["cpp/include/gatl/ga/extra/meet_and_join.hpp: meet_and_join, _meet_and_join_impl", "cpp/include/gatl/ga/extra/delta_product.hpp: dp"]}
{"id": "C63", "title": "Meet and join belong together", "statement": "The meet M and the join J that meet_and_join(A, B) returns satisfy J = rcont(A, inv(M)) ^ B, in either order of the grades of A and B.", "quantifier": "all dimensions n <= 63, all pairs of real blades, all tolerances as in C62", "why_tests_cant": "all dimensions, grades and real coordinates", "anchors": ["cpp/include/gatl/ga/extra/meet_and_join.hpp: _meet_and_join_impl, has_extra_sign_change"]}
{"id": "C64", "title": "Fast meet and join of blades", "statement": "fast_join of two blades returns a blade of norm one of the sum of their subspaces; fast_meet_and_join returns in addition a blade M of the intersection, with J = rcont(A, inv(M)) ^ B; fast_join with zero is zero.", "quantifier": "all dimensions n <= 63, all pairs of real blades, tolerance zero; for other tolerances, a subspace of the sum that contains one of the operands", "why_tests_cant": "all dimensions, grades and real coordinates", "anchors": ["cpp/include/gatl/ga/extra/fast_meet_and_join.hpp: fast_join, fast_meet_and_join, _fast_join_impl"]}
{"id": "C65", "title": "Plunge of blades", "statement": "plunge and fast_plunge of two blades return a blade of the directions in the sum of their subspaces that are orthogonal, in the metric of the space, to their intersection; if the metric is degenerate on the sum there is no such blade and they divide by zero.", "quantifier": "all dimensions n <= 63, all symmetric metrics, all pairs of real blades, tolerances as in C62 and C64", "why_tests_cant": "all dimensions, grades and real coordinates", "anchors": ["cpp/include/gatl/ga/extra/plunge.hpp: plunge", "cpp/include/gatl/ga/extra/fast_plunge.hpp: fast_plunge"]}
{"id": "C66", "title": "Delta product of blades", "statement": "The delta product of two blades of subspaces U and V whose intersection is regular in the metric of the space (always in Euclidean spaces) is a blade of the directions in U + V that are orthogonal to the intersection of U and V, and its grade is dim U + dim V - 2 dim(U and V).", "quantifier": "all dimensions n <= 63, all symmetric metrics, all pairs of real blades, all tolerances that separate the coefficients of the geometric product from zero", "why_tests_cant": "all dimensions, grades and real coordinates", "anchors": ["cpp/include/gatl/ga/extra/delta_product.hpp: dp", "cpp/include/gatl/ga/extra/take_grade.hpp: take_largest_grade"]}
{"id": "C67", "title": "Programs in spaces with any metric", "statement": "In conformal_metric_space<D> and general_metric_space<Entries...>, a program of sums, differences, products, involutions and inverses, run step by step or lazily, returns the value that its formula has in the geometric algebra of the metric.", "quantifier": "all programs, all metric matrices with integer entries, all input multivectors with real coefficients, all dimensions", "why_tests_cant": "all programs, metrics and coefficients; tests run single expressions in single spaces", "anchors": ["cpp/include/gatl/ga/core/general_metric_mapping.hpp: general_metric_mapping", "cpp/include/gatl/ga/model/general/metric_space.hpp: general_metric_space", "cpp/include/gatl/ga/model/conformal/metric_space.hpp: conformal_metric_space", "cpp/include/gatl/ga/core/lazy_context.hpp: lazy_context", "cpp/include/gatl/ga/extra/versor_inverse.hpp: inv"]}
{"id": "C68", "title": "Parameters of rounds in the conformal model", "statement": "For the round X = w p0 ^ ... ^ pk through affinely independent points: primal_round_location gives the normalised point at the centre, primal_round_size_sqr gives the square of the radius, primal_round_direction gives w (p1-p0) ^ ... ^ (pk-p0) ^ ni, and dual_round_location and dual_round_size_sqr give the same for dual(X).", "quantifier": "all dimensions D, all numbers of points, all affinely independent points with a centre, all weights w != 0, all pseudoscalars", "why_tests_cant": "all dimensions, grades and real coordinates", "anchors": ["cpp/include/gatl/ga/model/conformal/round_location.hpp: primal_round_location, dual_round_location", "cpp/include/gatl/ga/model/conformal/round_size_sqr.hpp: primal_round_size_sqr, dual_round_size_sqr", "cpp/include/gatl/ga/model/conformal/round_direction.hpp: primal_round_direction"]}
{"id": "C69", "title": "Parameters of flats in the conformal model", "statement": "For the flat X = w p0 ^ ... ^ pk ^ ni through affinely independent points: primal_flat_location gives no + c + |c|^2 ni where c is the point of the flat closest to the origin, primal_flat_direction gives w (p1-p0) ^ ... ^ (pk-p0) ^ ni, and dual_flat_location gives the same location for dual(X).", "quantifier": "all dimensions D, all numbers of points, all affinely independent points, all weights w != 0, all pseudoscalars", "why_tests_cant": "all dimensions, grades and real coordinates", "anchors": ["cpp/include/gatl/ga/model/conformal/flat_location.hpp: primal_flat_location, dual_flat_location", "cpp/include/gatl/ga/model/conformal/flat_direction.hpp: primal_flat_direction"]}
{"id": "C70", "title": "Parameters of tangents in the conformal model", "statement": "For the tangent X at a point p with linearly independent directions: primal_tangent_location gives the normalised point p, primal_tangent_direction gives the direction with the weight of X, and dual_tangent_location gives the same location for dual(X).", "quantifier": "all dimensions D, all points, all numbers of linearly independent directions, all weights w != 0, all pseudoscalars", "why_tests_cant": "all dimensions, grades and real coordinates", "anchors": ["cpp/include/gatl/ga/model/conformal/tangent_location.hpp: primal_tangent_location, dual_tangent_location", "cpp/include/gatl/ga/model/conformal/tangent_direction.hpp: primal_tangent_direction"]}
{"id": "C71", "title": "Multivectors as text", "statement": "The text that write (operator <<) produces determines what was written. For an evaluated multivector, reading the text gives back the coefficients and the basis blades of the components, in order, and two multivectors with the same text are equal. For a multivector whose coefficients are expressions, two multivectors with the same text have the same expressions and the same values.", "quantifier": "all multivectors with stored or integer coefficients and constant or stored basis blades, and all multivectors whose coefficients and basis blades are sums of products of any functions of such sums; all spaces of at most 63 dimensions with distinct names of basis vectors, all streams that write the stored numbers exactly", "why_tests_cant": "all types, stored values and names; a test compares a few strings", "anchors": ["cpp/include/gatl/ga/extra/write.hpp: write, operator<<", "cpp/include/gatl/ga/model/*/metric_space.hpp: basis_vectors"]}
{"id": "C72", "title": "Types of scaled basis blades", "statement": "scaled_constant_basis_blade_t<K, i1, ..., ik> and unit_constant_basis_blade_t<i1, ..., ik> are types of multiples of e(i1) ^ ... ^ e(ik), respectively of this blade. Objects of the types scaled_basis_blade_t<K, first, last> and unit_basis_blade_t<first, last> hold exactly the multiples of basis blades, respectively the basis blades, of grades between first and last.", "quantifier": "all lists of indices, all ranges of grades, all coefficients and basis blades", "why_tests_cant": "all indices, ranges and values", "anchors": ["cpp/include/gatl/ga/util/basis_blade.hpp: scaled_basis_blade_t, unit_basis_blade_t, scaled_constant_basis_blade_t, unit_constant_basis_blade_t"]}
{"id": "C73", "title": "Programs of sums and products compile", "statement": "An expression built from sums, differences, negation, multiplication by integers, the outer, regressive and all metric products (geometric, contractions, dot, Hestenes, scalar) and the involutions of evaluated multivectors is accepted by the compiler, given a deep enough template instantiation limit, unless an integer constant known at compile time overflows 64 bits: simplification of the types always ends, never gets stuck, and its result does not depend on the limit. The same holds when the expression is evaluated lazily in one step.", "quantifier": "all programs, all spaces with at most 62 basis vectors, all evaluated inputs (any mix of run-time and compile-time coefficients)", "why_tests_cant": "infinitely many expression types; each is a different instantiation of the mutually recursive simplification rules", "anchors": ["cpp/include/gatl/ga/core/expression_simplification_addition_values.hpp", "cpp/include/gatl/ga/core/expression_simplification_product_values.hpp", "cpp/include/gatl/ga/core/expression_simplification_addition_components.hpp", "cpp/include/gatl/ga/core/expression_simplification_product_components.hpp", "cpp/include/gatl/ga/core/lazy_context.hpp", "cpp/include/gatl/ga/core/arithmetic_operators.hpp"]}
{"id": "C74", "title": "The instantiation depth only decides whether a program compiles", "statement": "A program (sums, products, involutions, inverses and quotients of multivectors, evaluated step by step or lazily) that a compiler accepts with some limit on the depth of template instantiation has the same type, the same storage and the same values with every larger limit; two compilers that accept it agree.", "quantifier": "all programs, all inputs, all spaces with a signature, the conformal spaces and all spaces with a metric matrix, all pairs of limits", "why_tests_cant": "all programs and all limits", "anchors": ["cpp/include/gatl/ga/core/expression_simplification_addition_values.hpp", "cpp/include/gatl/ga/core/expression_simplification_product_values.hpp", "cpp/include/gatl/ga/core/expression_simplification_power.hpp", "cpp/include/gatl/ga/core/general_metric_mapping.hpp", "cpp/include/gatl/ga/core/lazy_context.hpp", "cpp/include/gatl/ga/extra/versor_inverse.hpp"]}
{"id": "C75", "title": "Constants of the predefined algebras", "statement": "The constants that the predefined algebras offer compile and are what their names say: I is the outer product of all basis vectors and Ie that of the Euclidean ones; in the Minkowski model no and ni are the points at the origin and at infinity, null vectors with product -1; in the conformal model ep and em have squares 1 and -1 and are orthogonal.", "quantifier": "all numbers of dimensions D of the Euclidean space (Minkowski, conformal ep and em: up to 60, homogeneous: up to 61, Ie of the conformal model: up to 7), all environments, all instantiation depths from 40", "why_tests_cant": "the headers instantiate a few dimensions; users define algebras of any dimension with the same macros", "anchors": ["cpp/include/gatl/ga/model/signed/minkowski/macro_for_algebra_definition.hpp", "cpp/include/gatl/ga/model/signed/homogeneous/macro_for_algebra_definition.hpp", "cpp/include/gatl/ga/model/conformal/macro_for_algebra_definition.hpp", "cpp/include/gatl/ga/util/pseudoscalar.hpp"]}
{"id": "C76", "title": "Norms, unit multivectors and inverses compile", "statement": "rnorm(A) of a multivector with a positive squared norm, unit(A) and inv(A) of one with a non-zero squared norm compile with any sufficiently large limit on the depth of template instantiation, and evaluate to the norm, to a positive multiple of A whose squared norm is 1 or -1, and to reverse(A) divided by the squared norm.", "quantifier": "all spaces with a signature of up to 62 dimensions, all evaluated multivectors (any stored and compile-time coefficients whose sizes add up to less than 2^31), all limits from some limit on", "why_tests_cant": "each type of multivector is a different program; tests compile a few of them", "anchors": ["cpp/include/gatl/ga/extra/versor_inverse.hpp", "cpp/include/gatl/ga/extra/reverse_norm.hpp", "cpp/include/gatl/ga/extra/unit.hpp", "cpp/include/gatl/ga/core/expression_simplification_product_values.hpp", "cpp/include/gatl/ga/core/expression_simplification_power.hpp"]}
{"id": "C77", "title": "Division by a number", "statement": "A / x compiles with any sufficiently large limit on the depth of template instantiation, for every evaluated multivector A and every floating-point number x other than zero, and evaluates to the multivector whose coefficients are those of A divided by x.", "quantifier": "all spaces of up to 62 dimensions, all evaluated multivectors with basis blades known at compile time (any stored and compile-time coefficients, integer or floating-point), all non-zero x, all limits from some limit on", "why_tests_cant": "each type of multivector is a different program; tests compile a few of them", "anchors": ["cpp/include/gatl/ga/extra/arithmetic_operators.hpp", "cpp/include/gatl/ga/extra/inverse_geometric_product.hpp", "cpp/include/gatl/ga/extra/versor_inverse.hpp", "cpp/include/gatl/ga/core/real_metric_space.hpp"]}
{"id": "C78", "title": "Exponentials of blades compile", "statement": "exp(B) and exp(B, tol) compile with any sufficiently large limit on the depth of template instantiation, for every evaluated multivector B without scalar component whose square is a scalar s, and every run-time tolerance; the result is the sum of the exponential series of B if s is zero or exceeds the tolerance, and 1 + B otherwise.", "quantifier": "all spaces with a signature of up to 62 dimensions, all evaluated multivectors (any stored and compile-time coefficients whose sizes add up to less than 2^31) whose square is a scalar, all non-negative tolerances, all limits from some limit on", "why_tests_cant": "each type of multivector is a different program; tests compile a few of them", "anchors": ["cpp/include/gatl/ga/extra/blade_exponential.hpp", "cpp/include/gatl/ga/core/expression_simplification_power.hpp", "cpp/include/gatl/ga/core/expression_simplification_product_values.hpp", "cpp/include/gatl/ga/core/lazy_context.hpp"]}
{"id": "C79", "title": "Functions of scalars", "statement": "abs, exp, log, cos, sin, tan, cosh, sinh, tanh, sqrt, cbrt and pow of scalar multivectors compile and return a scalar multivector with the value of the function, where the function is defined; of integers known at compile time they return a multivector without storage.", "quantifier": "all real values of the scalars (stored, floating-point or integer coefficient type), all integer constants for exponents and for the arguments of all functions but cbrt and pow", "why_tests_cant": "all real inputs, all constants", "anchors": ["cpp/include/gatl/ga/core/math.hpp: abs, exp, log, cos, sin, tan, cosh, sinh, tanh, sqrt, cbrt, pow"]}
{"id": "C80", "title": "Rotations by exponentials", "statement": "apply_rotor(exp(-θ/2 u^w), x), for orthogonal vectors u and w of square one, is x rotated by the angle θ from u to w; if w has square minus one it is the boost with rapidity θ. The reverse of the exponential is its inverse and applying it is an orthogonal transformation of all multivectors. In the Minkowski model apply_rotor(exp(-t^ni/2), point(x)) is the point x + t, exponentials of Euclidean planes turn points about the origin, and exponentials of e+^e- scale the space.", "quantifier": "all spaces with a signature of up to 62 dimensions, all orthogonal vectors u and w, all angles and translations, all vectors and points x, all tolerances below the square of the plane", "why_tests_cant": "real angles, vectors and points of all dimensions", "anchors": ["cpp/include/gatl/ga/extra/blade_exponential.hpp: exp", "cpp/include/gatl/ga/extra/apply_versor.hpp: apply_rotor", "cpp/include/gatl/ga/model/minkowski.hpp"]}
{"id": "C81", "title": "Applying versors to stored multivectors", "statement": "apply_even_versor(V, A) returns V A W and apply_odd_versor(V, A) returns V A' W, where V is a product of vectors with non-zero squares, W is its inverse and A' is the grade involution of A; for vectors apply_odd_versor(n, x) is the mirror image of x in the hyperplane orthogonal to n.", "quantifier": "all spaces with a signature of up to 62 dimensions, all evaluated multivectors A, all versors, all types of coefficients known at run time or at compile time", "why_tests_cant": "all versors and arguments of all dimensions, whose types are all different", "anchors": ["cpp/include/gatl/ga/extra/apply_versor.hpp: apply_even_versor, apply_odd_versor", "cpp/include/gatl/ga/extra/versor_inverse.hpp: inv", "cpp/include/gatl/ga/core/lazy_context.hpp"]}
{"id": "C82", "title": "Duals of stored multivectors", "statement": "dual(A) and undual(A) compile for every evaluated multivector A with statically known basis blades; dual(A) is the multivector whose geometric product with the pseudoscalar is A, undual(A) is the left contraction of A with the pseudoscalar, and undual(dual(A)) and dual(undual(A)) stand for A.", "quantifier": "all signatures (P, Q) without null basis vectors and P + Q <= 62 (all signatures for undual), all multivectors, all stored numbers", "why_tests_cant": "every signature and every set of components gives a different type to compile, and stored numbers range over the reals", "anchors": ["cpp/include/gatl/ga/extra/dualization.hpp: dual, undual", "cpp/include/gatl/ga/extra/macro_for_algebra_overload.hpp: dual, undual", "cpp/include/gatl/ga/extra/versor_inverse.hpp: inv"]}
{"id": "C83", "title": "Commutator product of stored multivectors", "statement": "cp(A, B) returns (A B - B A) / 2; for a bivector B, cp(B, A) has the grade of A.", "quantifier": "all spaces with a signature of up to 62 dimensions, all pairs of evaluated multivectors, all coefficients known at run time or at compile time", "why_tests_cant": "all pairs of multivectors of all dimensions, whose types are all different", "anchors": ["cpp/include/gatl/ga/extra/commutator_product.hpp: cp", "cpp/include/gatl/ga/extra/arithmetic_operators.hpp: operator/", "cpp/include/gatl/ga/core/lazy_context.hpp"]}
