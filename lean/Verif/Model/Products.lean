import Mathlib.LinearAlgebra.Finsupp.LinearCombination
import Verif.Model.Bits

/-!
# Products of basis blades and of multivectors

Model of `core/exterior_product_mapping.hpp`, `core/regressive_product_mapping.hpp`,
`core/orthogonal_metric_mapping.hpp`, the graded-product predicates, the signed metric spaces and
the grade-based sign changes.  Citations are relative to `/repo/cpp/include/gatl/ga`.

The value of a multivector is a finitely supported function from basis blades (bitsets) to
coefficients in an arbitrary commutative ring `K`; this idealises floating-point coefficients.
The `static_assert`s about grades exceeding the number of dimensions are not modelled: the
definitions below are total on all 64-bit words, the theorems state the range they need.
-/

namespace GATL

/-- A multivector value: coefficient of every basis blade. -/
abbrev MV (K : Type*) [Zero K] := Word →₀ K

/-- The result of multiplying two basis blades: one component (coefficient, basis blade).
`component_t<Coefficient, BasisBlade>`, `core/expression.hpp:255-278`. -/
abbrev BladeMul (K : Type*) := Word → Word → K × Word

/-- `exterior_product_mapping::multiply`, `core/exterior_product_mapping.hpp:58-92`
(values of `test_type`, `reordering_sign_t` and `result_basis_vectors`; the possible-grade
bookkeeping of lines 39-54 and 64-80 is modelled separately in `Model/Grades.lean`). -/
def extMul (L R : Word) : Int × Word :=
  (if ones L + ones R = ones (L ||| R) then reorderingSign L R else 0, L ||| R)

/-- `regressive_product_mapping::multiply`, `core/regressive_product_mapping.hpp:87-121`. -/
def regMul (n : Nat) (L R : Word) : Int × Word :=
  let res := L &&& R
  (if (ones L : Int) + ones R + -1 * ones res = n then reorderingSign (L ^^^ res) (R ^^^ res) else 0,
   res)

/-- The graded products that share the metric mappings: `gp_mapping`
(`core/geometric_product.hpp:33-93`), `lcont_mapping`, `rcont_mapping`, `dot_mapping`,
`hip_mapping`, `sp_mapping`. -/
inductive GradedProduct
  | gp | lcont | rcont | dot | hip | sp
  deriving DecidableEq, Repr

/-- `are_valid_grades<LeftGrade, RightGrade, ResultGrade>` of each graded product:
`core/geometric_product.hpp:84-87`, `core/left_contraction.hpp:53-56`,
`core/right_contraction.hpp:53-56`, `core/dot_product.hpp:53-60`,
`core/hestenes_inner_product.hpp:53-64`, `core/scalar_product.hpp:34-37`.
Grades are signed 64-bit integers there; differences may be negative. -/
def areValidGrades : GradedProduct → Int → Int → Int → Bool
  | .gp, _, _, _ => true
  | .lcont, l, r, res => r + -1 * l = res
  | .rcont, l, r, res => l + -1 * r = res
  | .dot, l, r, res => if l ≤ r then res = r + -1 * l else res = l + -1 * r
  | .hip, l, r, res =>
    if l = 0 || r = 0 then false
    else if l ≤ r then res = r + -1 * l else res = l + -1 * r
  | .sp, _, _, res => res = 0

/-- `orthogonal_metric_mapping::multiply`, `core/orthogonal_metric_mapping.hpp:35-71`.
`factor` is the metric space's `metric_factor`. -/
def orthMul {K : Type*} [CommRing K] (factor : Word → K) (g : GradedProduct) (L R : Word) :
    K × Word :=
  (if areValidGrades g (ones L) (ones R) (ones (L ^^^ R)) then
      (reorderingSign L R : K) * factor (L &&& R)
    else 0,
   L ^^^ R)

/-- `real_metric_space::metric_factor`, `core/real_metric_space.hpp:42-45`: used for products with
a scalar or native operand. -/
def realFactor (_ : Word) : Int := 1

/-- `signed_metric_space<P,Q,R>::negative`, `model/signed/metric_space.hpp:41`. -/
def negativeMask (P Q _R : Nat) : Word :=
  if Q ≠ 0 then safeRshift (~~~0#64) (64 - Q) <<< P else 0

/-- `signed_metric_space<P,Q,R>::zero`, `model/signed/metric_space.hpp:42`. -/
def zeroMask (P Q R : Nat) : Word :=
  if R ≠ 0 then safeRshift (~~~0#64) (64 - R) <<< (P + Q) else 0

/-- `signed_metric_space<P,Q,R>::basis_vectors`, `model/signed/metric_space.hpp:36`. -/
def basisVectors (n : Nat) : Word := safeRshift (~~~0#64) (64 - n)

/-- `signed_metric_space<P,Q,R>::metric_factor`, `model/signed/metric_space.hpp:47-66`. -/
def signedFactor (P Q R : Nat) (b : Word) : Int :=
  if b &&& zeroMask P Q R = 0 then
    if ones (b &&& negativeMask P Q R) &&& 1 = 0 then 1 else -1
  else 0

/-- Bilinear extension of a product of basis blades: every component of the left operand is
multiplied by every component of the right operand, coefficients are multiplied and results added
(`_product_components_rule_multiply_or_distribute`,
`core/expression_simplification_product_components.hpp:77-128`). -/
noncomputable def bilin {K : Type*} [CommRing K] (mul : BladeMul K) : MV K →ₗ[K] MV K →ₗ[K] MV K :=
  Finsupp.linearCombination K fun l =>
    Finsupp.linearCombination K fun r => Finsupp.single (mul l r).2 (mul l r).1

/-- `op`, `core/outer_product.hpp:29-33`. -/
noncomputable def op {K : Type*} [CommRing K] (A B : MV K) : MV K :=
  bilin (fun L R => (((extMul L R).1 : K), (extMul L R).2)) A B

/-- `rp` in an `n`-dimensional space, `core/regressive_product.hpp`. -/
noncomputable def rp {K : Type*} [CommRing K] (n : Nat) (A B : MV K) : MV K :=
  bilin (fun L R => (((regMul n L R).1 : K), (regMul n L R).2)) A B

/-- The metric products in an orthogonal metric space: `gp`, `lcont`, `rcont`, `dot`, `hip`, `sp`
(`core/geometric_product.hpp:97-102` and the analogous functions of the other headers). -/
noncomputable def orthProd {K : Type*} [CommRing K] (factor : Word → K) (g : GradedProduct)
    (A B : MV K) : MV K :=
  bilin (orthMul factor g) A B

/-- The metric products of `signed_metric_space<P,Q,R>` (`model/signed/metric_space.hpp:27-68`);
`euclidean_metric_space<N>`, `homogeneous_metric_space<D>`, `minkowski_metric_space<D>` and
`plane_based_metric_space<D>` derive from it (see `Model/Spaces.lean`). -/
noncomputable def signedProd {K : Type*} [CommRing K] (P Q R : Nat) (g : GradedProduct)
    (A B : MV K) : MV K :=
  orthProd (fun b => ((signedFactor P Q R b : Int) : K)) g A B

/-- `graded_unary_minus`, `core/expression_graded_unary_minus.hpp:38-75`: negate the components
whose grade has its bit set in the pattern. -/
noncomputable def gradedUnaryMinus {K : Type*} [CommRing K] (pattern : Word) : MV K →ₗ[K] MV K :=
  Finsupp.linearCombination K fun b =>
    Finsupp.single b (if pattern &&& ((1 : Word) <<< ones b) = 0 then (1 : K) else -1)

/-- `reverse`, `core/reversion.hpp:28-33`. -/
noncomputable def reverse {K : Type*} [CommRing K] (A : MV K) : MV K :=
  gradedUnaryMinus 0xCCCCCCCCCCCCCCCC#64 A

/-- `involute`, `core/involution.hpp:28-33`. -/
noncomputable def involute {K : Type*} [CommRing K] (A : MV K) : MV K :=
  gradedUnaryMinus 0xAAAAAAAAAAAAAAAA#64 A

/-- `conjugate`, `core/conjugation.hpp:28-33`. -/
noncomputable def conjugate {K : Type*} [CommRing K] (A : MV K) : MV K :=
  gradedUnaryMinus 0x6666666666666666#64 A

end GATL
