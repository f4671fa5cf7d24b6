# Formal model of GATL in Lean 4 — design

Target: laffernandes/gatl, pinned commit, sources under `/repo/cpp/include/gatl/ga`
(all citations below are relative to that directory). The code is not run; the model is a
transcription made by reading it.

## 1. Layers of the model

| Layer | Lean modules | Code modelled |
|---|---|---|
| Bits | `Verif/Model/Bits.lean` | `core/constexpr.hpp`, run-time `reordering_sign` of `core/expression.hpp` |
| Enumeration | `Verif/Model/Enumerate.lean` | `util/multivector.hpp`, `util/for_each_basis_vector.hpp`, `util/pseudoscalar.hpp` |
| Possible grades | `Verif/Model/Grades.lean` | the compile-time possible-grade masks of every product mapping, run-time basis blades |
| Blade products | `Verif/Model/Products.lean` | exterior / regressive / orthogonal mappings, the graded-product predicates, signed metric |
| General metric | `Verif/Model/General.lean` | `core/general_metric_mapping.hpp`, general and conformal metrics |
| Multivectors | `Verif/Model/Multivector.lean` | bilinear extension of the blade products, grade-sign operations, everything in `extra/` |
| Expressions | `Verif/Model/Expr.lean`, `Simplify.lean`, `Functions.lean` | `core/expression*.hpp`, the simplification rules of values, the ordering, the traits |
| Components | `Verif/Model/Components.lean` | sums and products of components, the `multiply` templates of the mappings, sign changes, `operator-`, all at the level of types |
| General metric, types | `Verif/Model/GeneralTypes.lean` | the `multiply` template of `core/general_metric_mapping.hpp` on component types (constant and run-time blades), `entry` of the general and the conformal metric spaces |
| Run-time evaluation | `Verif/Model/Eval.lean` | the `eval` members of `core/expression.hpp`, with the types of the coefficients (integer or floating point) |
| Lazy contexts | `Verif/Model/Lazy.lean` | `core/lazy_context.hpp`, storage counting |
| Vectors and points | `Verif/Model/Vector.lean` | `util/vector.hpp`, `model/*/point.hpp`, `model/*/euclidean_vector.hpp` |
| Models of geometry | `Verif/Model/Spaces.lean` | projections, translations and parameters of flats, `model/signed/euclidean/*`, `model/signed/homogeneous/*` |
| Copies | `Model/Copy` | `core/trivial_copy.hpp` |
| Grades | `Model/Take` | `extra/grade.hpp`, `extra/take_grade.hpp`, `extra/delta_product.hpp` |
| Tests | `Model/Tests` | `util/for_each_component.hpp`, `extra/tests.hpp`, `extra/reverse_norm.hpp` (`rnorm_sqr`), `core/math.hpp` (`abs`) |
| Norms and exponentials | `Model/Unit` | `core/math.hpp` (`pow`, `sqrt`, `exp`), `extra/versor_inverse.hpp`, `extra/reverse_norm.hpp` (`rnorm`), `extra/unit.hpp`, `extra/blade_exponential.hpp` |
| Rotors | `Model/Rotor` | `extra/apply_versor.hpp`, as programs of the lazy context |
| Duals | `Model/Dual` | `extra/dualization.hpp` and the overloads of `extra/macro_for_algebra_overload.hpp`, as programs of the lazy context |
| Commutators | `Model/Commutator` | `extra/commutator_product.hpp`, as a program of the lazy context |
| Functions of scalars | `Model/Math` | `core/math.hpp` (the remaining functions) |
| Programs with inverses | `Model/Rational` | straight-line programs whose steps may call `inv`, evaluated in one lazy context (`core/lazy_context.hpp`, `extra/versor_inverse.hpp`, `extra/inverse_geometric_product.hpp`) |
| Meet and join | `Model/Meet` | `extra/meet_and_join.hpp`, `extra/fast_meet_and_join.hpp`, `extra/plunge.hpp`, `extra/fast_plunge.hpp`, on the values of multivectors |
| Minkowski model | `Model/Minkowski` | `model/signed/minkowski/*` (location, size and direction of rounds, flats and tangents) as programs with inverses |
| Any metric | `Model/Metric` | the programs of `Model/Lazy` and `Model/Rational` with the metric space as an argument (`core/mapping.hpp`, `model/conformal/metric_space.hpp`, `model/general/metric_space.hpp`) |
| Conformal model | `Model/Conformal` | `model/conformal/{round,flat,tangent}_*` (location, size and direction of rounds, flats and tangents) as programs with inverses |
| Text | `Model/Write` | `extra/write.hpp` |
| Blade types | `Model/BasisBlade` | `util/basis_blade.hpp` |

Specifications live in `Verif/Spec/*`, helper lemmas in `Verif/Proofs/*`, the property
theorems (one file per group of properties) in `Verif/Props/*`.

### Representation choices

* `bitset_t` is `BitVec 64` (the default configuration, `GA_MAX_BASIS_VECTOR_INDEX = 63`).
  Bit `i` is basis vector `e(i+1)`. Wrap-around is therefore modelled, not assumed away.
* A multivector value is a finitely supported function from bitsets to coefficients
  (`BitVec 64 →₀ K`). Coefficients are elements of an arbitrary commutative ring / field:
  **floating-point rounding is not modelled** (idealisation to exact arithmetic).
* A product of multivectors is the bilinear extension of the code's component product
  (`Mapping::multiply`). That the template machinery computes this extension is itself a
  theorem of the expression layer.
* Type-level expressions are an inductive type; the rewriting of types is a function with a
  fuel argument returning `Option` (out of fuel = the compiler would still be instantiating).
  Soundness theorems hold for every amount of fuel; C73 shows that for programs of polynomial operations enough fuel exists.
* Numeric meaning of an expression is partial (`Option`): inverse of zero, roots of negative
  numbers, … are "undefined", so a law never holds because of a totalised operation.

## 2. Properties and proof plan

(See `properties.jsonl` for the statements.)

| Id | What is modelled / how it is proved |
|---|---|
| C01 | SWAR popcount on `BitVec 64`; equality with the cardinality of the set of bits, byte-wise induction. |
| C02 | both sign computations; equality with the parity of the number of inversions between two finite sets. |
| C03–C07 | component product on bitsets; bilinear parity form over `ZMod 2`; associativity; algebra isomorphism with Mathlib's `ExteriorAlgebra` / `CliffordAlgebra` by universal property. |
| C08 | `negative`/`zero` masks and `metric_factor` as words; product formula by bit extensionality. |
| C09–C11 | grade filters of the orthogonal mapping against grade projections of gp. |
| C12 | bit patterns tested at the grade; (anti)automorphism via the parity form. |
| C13 | regressive mapping; complement duality. |
| C14–C16 | dual, inverse, versors: induction over the factor list. |
| C17 | recursive definition of the possible-grade masks; membership by induction. |
| C18 | cofactor determinant, order/columns/rows summations; Wick expansion against `CliffordAlgebra` with contraction. Expected partial: `leftmost_set_bit` is wrong above bit 7 (C35). |
| C19, C41 | `Model/Vector`: `conformalPoint`, `minkowskiPoint` build objects from coordinates; `C19_point`, `C41_point` say which vector is stored, `C19_distance`, `C41_distance` compute the products for all D. |
| C20–C22 | fuelled rewriting functions, soundness by induction on fuel with partial semantics. C22 expected false (`sqrt(x^2) → x`), negation with witness plus partial theorem. |
| C23–C24 | component sums and distribution of products (`Model/Components.lean`): soundness of each mapping's `multiply` on symbolic operands, then of distribution and collection by induction on the depth; sortedness invariant; a greater depth never changes a result. For general metrics (`Model/GeneralTypes`) the types denote, recursion by recursion, the sums of `Model/General`, whose value is the subject of C18. |
| C52 | the rules for sums of components; completeness for static blades, negation witness for run-time blades. |
| C25–C28, C48 | partial evaluator with storage (`compile`, `exec`); the result type and the values written are read back as a multivector (`Reads`), which is the denotation. Programs of operators, products and involutions are related to their value by induction, run eagerly and lazily. C27, C28, C48 are false in general, witnesses. |
| C29–C30, C54 | `Model/Copy`: merge of sorted component lists; induction on the recursion, with an outcome for reading past the end. The components written are read back and compared with the input's (`Spec/Copy`). C54 is false (`noexcept`). |
| C31–C32, C49 | `Model/Take`: the deduced grade is an expression of conditionals; its value is the grade of the set of significant blades (`Spec/Take`), by induction over the components, and the lazy context evaluates it. C49 is false for basis vectors chosen at run time. |
| C33–C36 | Gosper enumeration, bit loops, integer helpers, by induction. C35 expected false above bit 7. |
| C37 | the type computed by `exp` (the square is a sum of squares; its root and the two choices are evaluated in the lazy context), then the real series: even powers of a blade with scalar square are scalars, odd powers multiples of the blade; `cos`, `sin`, `cosh`, `sinh` from Mathlib. |
| C46 | `Model/Vector`: `makeVector` deduces the type and collects the storage; induction over the coordinates. |
| C42, C55–C57 | `Model/Tests`: visiting components with a function object that has a state reached by reference and a state of its own, and may throw; induction over the components. `is_null`, `is_unit` by the theorems on lazy programs (C25), and a typing theorem: expressions of integer type have integer values (`Proofs/TypesInt`). They compile by the theorem on programs (C73): the squared norm has the type of a scalar (`Proofs/ScalarType`), its absolute value compiles (`Proofs/TestsTotal`). |
| C58 | `Model/Rational`: induction over straight-line programs; every coefficient stays a quotient of polynomials of the stored values (`Proofs/Rational`), and the simplifier keeps the values of such expressions (C23), so evaluation (C44) gives the value of the formula. |
| C59–C61 | `Model/Minkowski`: a round is `ni = P + R` with `P` in the blade and `R` orthogonal to it, which determines all products in the formulas (`Proofs/Parameters`); the decomposition comes from the centre of the points (`Proofs/Minkowski`). The functions on objects by C58. |
| C62–C66 | `Model/Meet`: a blade of a subspace `U` of `EuclideanSpace ℝ (Fin n)` is an outer product of vectors that span `U` (`Spec/Meet`). Products of blades are related to `⊓`, `⊔`, `ᗮ` and orthogonal projections of Mathlib (`Proofs/Subspaces`, `Proofs/Delta`); the loops over the basis vectors by induction with the invariant that meet (join) is the outer product of the projections taken so far (`Proofs/MeetLoop`, `Proofs/FastJoin`). The contraction of any metric is the Euclidean contraction by the image under the outermorphism of the metric matrix (`Proofs/Plunge`), which carries C65 and C66 (`Proofs/DeltaMetric`) to all symmetric metrics. C62 is false for some pairs of blades, C63 for some signs: witnesses. |
| C67 | `Model/Metric`: the geometric algebra of a metric matrix is specified by Mathlib's Clifford algebra and the grade parts of its product (`Spec/Programs`), and proved to exist and to be unique (`Proofs/GeometricAlgebra`); the types of each operation denote its products (`Proofs/Metric`, from the theorems on `Model/GeneralTypes`), and programs follow by induction. Proved for at most seven dimensions (C18) and constant blades. |
| C68–C70 | `Model/Conformal`: the outermorphism of an isometry of vectors maps the conformal model to the Minkowski model (`Proofs/Outermorphism`, `Proofs/Conformal`), a program without regressive products has the image of its value as value (`Proofs/Transport`), and the values in the Minkowski model are computed as for C59–C61. The functions on objects by C67, for D ≤ 5. |
| C71 | `Model/Write`: the writer as a function from types and storage to characters; `Spec/Write` has a reader that knows only the format. Induction over the components. A stream cannot write all real numbers exactly, so the theorem is about a stream that does so for a set of numbers that contains the stored ones. Coefficients that are expressions are written with infix operators and without parentheses around the sums within a product (`C71_undistributed`); the text determines them when they are sums of products, the form to which the library simplifies them (`C71_distributed`), because the text of each entry is a prefix code whose separators are the spaces outside brackets. |
| C72 | `Model/BasisBlade`: arithmetic on words; the outer product of increasing basis vectors is one basis blade. False for decreasing or repeated indices and for empty ranges: witnesses. |
| C73 | The fuelled functions have a limit: with more fuel the answer never changes (`Proofs/Merge`, `Proofs/Limit`), so the equations of the simplifier hold without fuel. Canonical polynomials (sorted sums of sorted monomials) are closed under the simplification of sums and products, with bounds for coefficients and exponents (`Proofs/Monomials`, `Proofs/Sums`); then sums of components, mappings, partial evaluation and programs (`Proofs/Eventually` … `Proofs/RunTotal`). `Spec/Totality` bounds the integers of a program. |
| C74 | `Proofs/RunMono` follows every function of the model that takes the depth and shows that a result is kept at larger depths: `compileExpr`, mappings, products, the general metric's determinants, lazy contexts, programs. |
| C75 | `Model/Algebras` models the macros of the predefined algebras. The types of the constants are computed at depth 40 for each of the finitely many `D` that fit a 64-bit blade (`Proofs/AlgebraTypes`, whole tables by the kernel), lifted to larger depths by C74, and read as multivectors; the products of the vectors are derived from the specification of the metric. |
| C76 | The squared norm compiles by the theorem on programs (C73) and has the type of a scalar; its root, absolute value and reciprocal root are types that the rules of powers leave alone; products of these with the coefficients are single steps of the simplifier, and everything is evaluated because the powers are defined (`Proofs/UnitTotal`); for inverses the reciprocal of the squared norm likewise, and no quotient of integers occurs because the squared norm is a floating-point number (`Proofs/InverseTotal`); if it is a multiple of the square of one coefficient, it is the square or its negative, because the squared norm is a diagonal form with entries 0, 1 and -1 (`Proofs/NormForm`, `Proofs/InverseMonomial`), and its root is the coefficient itself (`Proofs/NormSquare`, `Proofs/UnitSquare`); if it does not depend on the stored coefficients, their basis blades square to zero, so that it is a constant in the type (`Proofs/ConstNorm`, `Proofs/UnitOne`), and the products of the coefficients with the inverse of its root, an inverse of an integer or of the root of one, are computed by a few rules and left alone by the evaluation (`Proofs/UnitConstTotal`), and likewise for inverses if it is positive or -1 (`Proofs/InverseConst`). False for inverses of some negative constants: negation with witness (`Proofs/NegativeQuotient`). |
| C77 | In the real space the inverse of a stored number `x` has the type `x ^ -1`; products with it leave the coefficients apart, so every product is one step of the simplifier, and the sum of the results keeps its order (`Proofs/DivideTotal`, with `scale_right_total`); the variable of the divisor has a floating-point type, so no two integers are divided. |
| C78 | The square of a blade is computed as a constant, as plus or minus the square of one stored coefficient, or as a sum (`ExpType`); in each case the absolute value, its root, the inverse of the root and the products with the sines exist (`root_abs_total`, `root_atom_total`, `root_const_total`; the integer root by `isqrtLoop_spec`), the choice is evaluated because its test is, and adding the scalar part keeps the order (`Proofs/ExpTotal`). |
| C79 | `Model/Math` with `Spec/Math` (values of the functions by textbook formulas): the call is one step of the context, whose type and stored number are computed directly; the integer root of a constant by `isqrtLoop_spec`. |
| C80 | `Spec/Rotor` (rotations, boosts and shears in coordinates); the exponential of the plane of orthogonal vectors is `c + k u w` with `c² + k² u² w² = 1` (`C37`), so conjugating by it is an isometry, computed on vectors; the Minkowski model by the scalar products of points; calls by `Model/Rotor` and `C25_lazy`. |
| C81 | `Model/Rotor` (`evenProgram`, `oddProgram`, programs with an inverse); their values are `applyEvenVersor` and `applyOddVersor` of `C16`, and `C58` says that calls have the values of the programs. Partial like `C58`: only types in which no integers are divided. |
| C82 | `Model/Dual` (`dualProgram`, `undualProgram`); the inverse of the pseudoscalar is a constant known at compile time (tables over all dimensions up to 62, and one over all signatures), so `dual(A)` has the type of `lcont(A, ±I)`; `C73` says that this compiles, `C25` that it has the value, `C14` that the value is the dual. Not covered: `dual` in spaces with null basis vectors, whose pseudoscalar has no inverse. |
| C83 | `Model/Commutator` (`commutatorProgram`); its value is `(A B - B A) / 2`, `C58` says that calls have the value of the program, `C38` that the commutator with a bivector keeps grades. Partial like `C58`. |
| C38, C45 | algebraic identities over the multivector layer. |
| C50 | the types computed by `unit` (squared norms are sums of squares, by induction on the simplifier), evaluated in the lazy context. Scalars take a different overload (`Proofs/UnitScalar`). Constant squared norms: the inverse of the norm is an integer, the inverse of one or of the root of one, and its product with an integer remains in the type, so that no quotient of integers is evaluated at run time (`Proofs/UnitConst`). False for multiples of one basis blade: negation with witness. |
| C39 | Gram–Schmidt turns an outer product of vectors into a product of orthogonal vectors; `lcont(lcont(A, inv(B)), B)` is then an outermorphism that is determined by its values at vectors. |
| C40, C53 | the homogeneous model over any commutative ring (C53: ordered field); contraction by the extra basis vector is an antiderivation. |
| C51 | nested `type` of each function template (`Model/Functions.lean`); soundness against the real-number semantics; negation witnesses for `abs` of constants and equality of constants. |
| C43, C44, C47 | traits, integer division and ordering: soundness of the sound part, negation witnesses. |

## 3. Trusted base

Lean's kernel; the axioms `propext`, `Classical.choice`, `Quot.sound`; Mathlib; the fidelity of
the transcription (each definition cites file and lines). Not modelled: floating-point rounding,
C++ overload resolution and template partial-ordering (a rule list is applied first-match, as
`rules.hpp` does), `std::map`-backed multivectors (the code throws "not supported yet"),
compile-time cost, iostream formatting flags.

## 4. Disagreements between the code and its documented behaviour found so far

* `leftmost_set_bit` (`core/constexpr.hpp:83-89`) shifts by one in every step instead of by the
  doubling `n`, so it only smears eight bits. `C35_leftmost_wrong` proves it wrong for every single
  bit from bit 8 on; `C35_leftmost_partial` proves it right below bit 8.
* `ipow` with a negative exponent never terminates (`C36_ipow_neg`), `isqrt` and `ipow` overflow
  near the end of the 64-bit range (the theorems carry the exact range).
* The possible-grade masks of a 63-dimensional space call `rightmost_set_bit(2^63)`, which negates
  `INT64_MIN` (`C17_grade_63_undefined`). C17 is proved for spaces of up to 62 dimensions.
* General metrics (C18): the number of contractions is bounded by
  `set_bit_index(leftmost_set_bit(1 << grade))`, which is 7 for every grade from 8 on, and the row
  subsets are enumerated below `leftmost_set_bit(1 << grade)`, which drops all but the first one from
  grade 9 on. `C18_grade8_wrong`, `C18_grade9_wrong` and `C18_disagrees_with_euclidean` prove the
  wrong results; the `C18_*_partial` theorems prove the products right for `min(r,s) <= 7, s <= 8`
  (in particular in every space of up to seven dimensions).
* Simplified powers (C22): `sqrt(x*x)` is simplified to `x` (`C22_sqrt_of_square_is_false`), and the
  root of a product is split into roots that may be undefined (`C22_sqrt_of_product_is_false`). Integer
  exponents, bases that are not products or powers, and non-negative factors are proved right.
* Sign and parity traits (C43): `is_non_negative` is true for reordering signs
  (`C43_reordering_sign_is_false`), `is_even` of a power asks for the exponent instead of the base
  (`C43_power_is_false`), `may_be_positive` is true for every cosine, so that `0^cos(2)`, which has no value,
  is replaced by zero (`C43_may_be_positive_is_false`).
* The canonical order (C47) has cycles (`C47_cycle_is_false`) and is not even asymmetric
  (`C47_asymmetry_is_false`), because argument lists are compared by "some position is smaller".
  Sums and products of equal values may therefore get different types; their values are still right
  (C20, C21).
* `abs` of a constant that is not known to be non-negative is its negation
  (`C51_abs_of_constant_is_false`); two constants with different types compare unequal
  (`C51_equality_of_constants_is_false`).
* Run-time blades: the order of expressions skips constant arguments
  (`core/expression_relational_operators.hpp:456-470`), so the blades of `e1 * e(i)` and `e2 * e(i)`
  with a run-time `i` are neither equal nor ordered, and their sum has no rule
  (`core/rules.hpp:63`: "It should be impossible to reach this case"). `(x*e1 + y*e2) * e(i)` does not
  compile (`C52_dynamic_blades_is_false`).
* Integer quotients (C44): `x / y` of two integer variables is rounded towards zero
  (`C44_integer_quotient_rounds`), and so is a constant fraction: `c<3> / c<2> + x` evaluates to
  `1 + x` (`C44_constant_fraction_rounds`). All other expressions evaluate to their mathematical
  value (`C44_eval_partial`), and to nothing where they have none, apart from tangents and cube roots
  (`C44_defined_partial`); what has an integer type is an integer (`C44_integer_type`).
* Run-time basis vectors (C27): `e(i) + e(j)` first has two components with the different bitset
  variables, but evaluation turns both into "stored bitset", and the sum of the two *types* collects
  equal terms: the result has the type of `2 * e(k)` with one stored bitset, and two bitsets are
  written into it (`C27_sum_is_false`). Sums in which neighbouring run-time blades have different possible grades
  are right (`C27_apart_partial`).
* Nested lazy contexts (C26, C28): the same collection loses `w*x + w*y`, where `w` belongs to an
  enclosing context: it becomes `2*w*stored` with two values written into the storage for one
  (`C26_nested_is_false`). `lazy.eval(x + y_)` with `x` already evaluated ignores the storage of its
  argument (`core/lazy_context.hpp:471-491`, the parameter is unnamed), `C28_mixed_is_false`.
  Coefficients that are entirely inner or entirely outer are right (`C28_nested_partial`).
* Conditionals (C48): `core/lazy_context.hpp:461-469` evaluates the first branch twice and never uses the
  second (`C48_branch_is_false`); as a consequence `op(s, op(E, E))` of a run-time basis vector in a
  nested context is not zero (`C48_product_is_false`). Conditionals over the variables of the context are
  evaluated as a whole and right (`C48_evaluated_partial`).
* Vectors (C46): `auto two = c<2>; vector(x, two)` does not compile: a constant in a variable that is not
  `const` is counted as a stored coordinate (`C46_constants_is_false`); neither does
  `auto const s = scalar(y); vector(x, s)` (`C46_const_scalar_is_false`). All other lists of coordinates
  give the right vector (`C46_vector_partial`, `C46_constant_partial`).
* Points (C19, C41): an integer variable as coordinate of a conformal point needs a narrowing conversion
  inside braces, which is ill-formed (`C19_integers`; some compilers only warn, and then compute the right
  point). The theorems are about floating-point numbers and constants `c<v>`.
* Copies (C29): `trivial_copy` of floating-point numbers to integer coefficients compiles and truncates
  (`C29_narrowing_is_false`); otherwise every component arrives (`C29_trivial_copy_partial`).
* Construction from another type (C54): the converting constructors call `checked_trivial_copy`, which throws
  if a component is lost, but are declared `noexcept` (`core/trivial_copy.hpp:476-490`, `core.hpp:32-45`), so the
  program is terminated instead (`C54_catch_is_false`, `C54_construct_partial`).
* Delta product (C49): reordering signs count as non-negative (`core/expression_traits.hpp`), so the absolute
  value around them is dropped and `dp(e(2), e(1))` with run-time indices is zero
  (`C49_runtime_blades_is_false`). With basis blades that are part of the type it is right (`C49_dp_partial`) and
  compiles (`C49_dp_compiles_partial`).
* Grades (C31): `grade` and `largest_grade` look at the components one by one; `e(1) - e1` with a run-time index
  is zero, but its grade is reported to be 1 (`C31_runtime_blades_is_false`). With different basis blades they
  are right (`C31_runtime_blades_partial`).
* Grade parts (C32): `take_grade(A, c<1>)` gives all run-time blades that may have grade 1 the same type, and
  their evaluation merges them as in C27 (`C32_runtime_blades_is_false`).
* `grade` and `largest_grade` do not compile for a literal coefficient of `-2^63` (its absolute value
  overflows); the theorems of C31 assume `Negatable`.
* `for_each_component` (C56): it is declared `noexcept(noexcept(f))`, and `noexcept(f)` asks whether *naming* `f`
  throws, which it never does; an exception of the function object terminates the program
  (`C56_exceptions_is_false`).
* `for_each_component` (C57) passes the function object by value to every step, so state kept in it by value is
  lost from one component to the next (`C57_state_is_false`).
* `is_zero` (C42): a literal coefficient is converted to the coefficient type of the object, so `is_zero(e1 / 2)`
  with the literal 1/2 and integer coefficients is true (`C42_rational_is_false`).
* Norms and units (C22, C50): the squared norm of `x e1` has the type `x^2`, which is known to be non-negative, and
  the root of `x^2` is simplified to `x`. So `rnorm(-3 e1)` is `-3` (`C22_rnorm_is_false`) and `unit(-3 e1)` is `e1`,
  which points the other way (`C50_unit_is_false`). If the squared norm involves more than one square, both are right
  (`C22_rnorm_partial`, `C50_unit_partial`). For a single square they are right up to the
  sign (`C76_unit_sign_partial`), and right if no coefficient is negative. `unit` of a scalar is right (`C50_unit_scalar`).
* Products of roots (C25): exponents are added at compile time and a constant exponent such as `3/2` is evaluated as a
  quotient of integers (see C44). So the lazy product `x * sqrt(x)` is evaluated as `pow(x, 1)`, i.e. `x`, and
  `cbrt(x) * cbrt(x)` as `pow(x, 0)`, i.e. `1`, for floating-point `x` (`C25_root_product_is_false`). Only the exponents
  `1/2`, `1/3` and their negatives are safe.
* Inverses of constants (C76): the quotient of two negative integers whose quotient is a unit fraction is simplified by
  naming the product of `constant_value<1>` and a power, which a static assertion forbids. So `inv(e1 - e2)` in the space
  with signature `(0, 2, 0)` does not compile (`C76_inverse_is_false`).
* Programs with inverses (C58): constants are divided as integers (see C44), so the lazily evaluated
  `x + (3 * x) * inv(2 * x)` returns `x + 1` for floating-point `x` (`C58_integer_division_is_false`); without
  quotients of two integers the result is right (`C58_program_partial`).
* Minkowski model (C59): with literal coefficients the constant quotients are again divided as integers; the
  squared size of a pair of points on the line whose positions have the product -3/2 is too small by 1/2
  (`C59_integer_division_is_false`).
* Conformal model (C68): the same with literal coefficients (`C68_integer_division_is_false`).
* Minkowski and conformal models (C60, C69): `primal_flat_location` and `dual_flat_location` return `no + c + |c|^2 ni`, not the point
  `no + c + (|c|^2 / 2) ni` that `round_location` and `tangent_location` return.
* Meet and join (C62): `_meet_and_join_impl` multiplies the projections of the basis vectors of the largest component
  of the dual of the delta product into the meet without asking whether they are independent. For the plane
  `(e1 + e2) ^ (e3 + e4)` and itself in four dimensions the projections of `e1` and `e2` are equal, their outer product
  is zero, and the inverse of this "meet" is a division by zero (`C62_division_by_zero_is_false`). If there is a result
  it is right (`C62_meet_and_join_partial`), and there is one if the blades have at most one direction in common or
  together fill the space (`C62_line_or_all_partial`). `plunge` inherits this (`C65_division_by_zero_is_false`).
* Meet and join (C63): if the operands are swapped, the sign change for the swap is applied to both the meet and the
  join, which leaves `(A ⌊ M⁻¹) ^ B = J` with the wrong sign: `meet_and_join(e1^e2^e3, e4)` returns `-1` and
  `e1^e2^e3^e4` (`C63_relation_is_false`).
* General metric (C23): if an operand is a run-time blade with several possible grades, `general_metric_mapping` sums over
  more rows than the blade has vectors; the missing vector is the empty bitset, whose index is 65, and the conformal metric
  gives it the coefficient -1 with the two null vectors. In `conformal_metric_space<1>`, `gp(e2, e1)` with `e1` declared
  as a blade of grade 1 or 2 is `-e1 - e1^e2` (`C23_conformal_runtime_blade_is_false`). Constant blades are right
  (`C23_conformal_clifford_partial`).
* `fast_meet_and_join` with zero divides by zero, `meet_and_join` returns zeros (`C64_zero_is_false`, `C62_zero`).
* `largest_possible_grade` (the types of the meet and the join) uses `leftmost_set_bit` and is wrong above grade 7
  (see C35); the values of C62–C66 are about results that fit their types.
* `dual_flat_direction`, `dual_round_direction` and `dual_tangent_direction` of the Minkowski and conformal models call
  `undual(x, mtr)`, and no such overload exists (`extra/dualization.hpp` has `undual(x, pseudoscalar, mtr)`), so they
  do not compile. They are not modelled.
* Types of basis blades (C72): the indices are added as powers of two, so `unit_constant_basis_blade_t<2, 1>` is
  `e1^e2` and not `e2^e1` (`C72_order_is_false`), and `unit_constant_basis_blade_t<1, 1>` is `e2`
  (`C72_repeated_is_false`); `scaled_basis_blade_t<K, 2, 0>`, an empty range of grades, has all grades but 0
  (`C72_empty_is_false`).
* Writing maps (`extra/write.hpp:146-170`) has `if (curr.second , 0)`, which is always false, but no object can have map
  storage. Not modelled.
