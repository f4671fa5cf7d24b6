import Mathlib.Algebra.Field.Basic
import Verif.Model.Products

/-!
# Derived operations on multivectors

Model of `extra/reverse_norm.hpp`, `extra/versor_inverse.hpp`,
`extra/inverse_geometric_product.hpp`, `extra/dualization.hpp`, `extra/apply_versor.hpp` and
`extra/commutator_product.hpp`.  Citations are relative to `/repo/cpp/include/gatl/ga`.

Each function evaluates an expression in a lazy context; here its value is modelled (that lazy
evaluation yields the value of the expression is the subject of the expression layer).
Division by zero is an explicit outcome: functions that divide return `Option` and are `none` when
the divisor vanishes (the C++ code would produce an infinity, a NaN or an integer division trap).
-/

namespace GATL

/-- A metric space as seen by the derived operations: the products it defines
(`metric_space<MetricSpaceType> const &mtr` argument of every function below). -/
abbrev Metric (K : Type*) [Zero K] := GradedProduct → MV K → MV K → MV K

/-- The products of scalars and native values, `core/real_metric_space.hpp:32-46`. -/
noncomputable def realProd {K : Type*} [CommRing K] : Metric K :=
  orthProd fun b => ((realFactor b : Int) : K)

/-- `rnorm_sqr`, `extra/reverse_norm.hpp:29-33`: the coefficient of the scalar expression
`sp(arg, reverse(arg), mtr)`. -/
noncomputable def rnormSqr {K : Type*} [CommRing K] (m : Metric K) (A : MV K) : K :=
  m .sp A (reverse A) 0

variable {K : Type*} [Field K] [DecidableEq K]

/-- `inv` of a scalar expression, `extra/versor_inverse.hpp:35-38`: `pow(arg, c<-1>)`. -/
def invScalar (a : K) : Option K := if a = 0 then none else some a⁻¹

/-- `inv`, `extra/versor_inverse.hpp:29-33`: `gp(reverse(arg), inv(rnorm_sqr(arg, mtr)))`; the
second factor is a scalar, so the product needs no metric. -/
noncomputable def inv (m : Metric K) (A : MV K) : Option (MV K) :=
  (invScalar (rnormSqr m A)).map fun s => realProd .gp (reverse A) (Finsupp.single 0 s)

/-- `igp`, `extra/inverse_geometric_product.hpp:29-33`: `gp(lhs, inv(rhs, mtr), mtr)`. -/
noncomputable def igp (m : Metric K) (A B : MV K) : Option (MV K) :=
  (inv m B).map fun B' => m .gp A B'

/-- `dual`, `extra/dualization.hpp:29-33`: `lcont(arg, inv(pseudoscalar, mtr), mtr)`. -/
noncomputable def dual (m : Metric K) (I A : MV K) : Option (MV K) :=
  (inv m I).map fun I' => m .lcont A I'

/-- `undual`, `extra/dualization.hpp:40-44`: `lcont(arg, pseudoscalar, mtr)`. -/
noncomputable def undual (m : Metric K) (I A : MV K) : MV K := m .lcont A I

/-- `apply_even_versor`, `extra/apply_versor.hpp:30-34`. -/
noncomputable def applyEvenVersor (m : Metric K) (V A : MV K) : Option (MV K) :=
  (inv m V).map fun V' => m .gp (m .gp V A) V'

/-- `apply_odd_versor`, `extra/apply_versor.hpp:52-56`. -/
noncomputable def applyOddVersor (m : Metric K) (V A : MV K) : Option (MV K) :=
  (inv m V).map fun V' => m .gp (m .gp V (involute A)) V'

/-- `apply_rotor`, `extra/apply_versor.hpp:74-78`. -/
noncomputable def applyRotor {K : Type*} [CommRing K] (m : Metric K) (V A : MV K) : MV K :=
  m .gp (m .gp V A) (reverse V)

/-- `cp`, `extra/commutator_product.hpp:29-33`: `(gp(lhs,rhs) - gp(rhs,lhs)) / c<2>`. -/
noncomputable def cp (m : Metric K) (A B : MV K) : Option (MV K) :=
  (invScalar (2 : K)).map fun h => realProd .gp (m .gp A B - m .gp B A) (Finsupp.single 0 h)

end GATL
