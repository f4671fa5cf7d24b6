import Verif.Model.Metric
import Verif.Model.Minkowski

/-!
# The functions of the conformal model

Model of `model/conformal/{flat,round,tangent}_*.hpp`.  Citations are relative to `/repo/cpp/include/gatl/ga`.  The metric
is that of `conformal_metric_space<D>`, `model/conformal/metric_space.hpp:31-54`.

Each function is a program whose inputs are the multivector, `no = e(c<D + 1>)` and `ni = e(c<D + 2>)`; the two basis
vectors have no storage, so making them arguments of the lazy context changes nothing.  The functions that call `undual`
with two arguments (`dual_flat_direction`, `dual_round_direction`, `dual_tangent_direction`) do not compile and are not
modelled.
-/

namespace GATL

open Expr Spec

namespace ConformalModel

/-- `dual_round_location` and `primal_round_location`, `model/conformal/round_location.hpp:31-36`, `:40-45`. -/
def roundLocation : Rational :=
  .bind (.graded .lcont (.input 2) (.input 0))
    (.inv (.graded .gp (.lit (-2)) (.graded .sp (.input 3) (.input 3)))
      (.ret (.graded .gp (.graded .gp (.graded .gp (.input 0) (.input 2)) (.input 0)) (.input 4))))

/-- `primal_round_size_sqr`, `model/conformal/round_size_sqr.hpp:40-45`. -/
def primalRoundSizeSqr : Rational :=
  .bind (.graded .lcont (.input 2) (.input 0))
    (.inv (.graded .sp (.input 3) (.input 3))
      (.ret (.graded .sp (.graded .sp (.input 0) (.involute (.input 0))) (.input 4))))

/-- `dual_round_size_sqr`, `model/conformal/round_size_sqr.hpp:31-36`. -/
def dualRoundSizeSqr : Rational :=
  .bind (.graded .lcont (.input 2) (.input 0))
    (.inv (.graded .sp (.input 3) (.input 3))
      (.ret (.neg (.graded .sp (.graded .sp (.input 0) (.involute (.input 0))) (.input 4)))))

/-- `primal_round_direction` and `primal_tangent_direction`, `model/conformal/round_direction.hpp:39-43`,
`model/conformal/tangent_direction.hpp:39-43`. -/
def primalDirection : Rational :=
  .ret (.op (.graded .lcont (.neg (.input 2)) (.input 0)) (.input 2))

/-- `primal_flat_direction`, `model/conformal/flat_direction.hpp:38-41`. -/
def primalFlatDirection : Rational :=
  .ret (.graded .lcont (.neg (.input 2)) (.input 0))

/-- `primal_flat_location`, `model/conformal/flat_location.hpp:39-43`: the quotient is a left contraction. -/
def primalFlatLocation : Rational :=
  .inv (.input 0) (.ret (.graded .lcont (.graded .lcont (.input 1) (.input 0)) (.input 3)))

/-- `dual_flat_location`, `model/conformal/flat_location.hpp:31-35`: the quotient is a right contraction. -/
def dualFlatLocation : Rational :=
  .inv (.input 0) (.ret (.graded .rcont (.op (.input 1) (.input 0)) (.input 3)))

/-- `dual_tangent_location` and `primal_tangent_location`, `model/conformal/tangent_location.hpp:31-35`, `:39-43`. -/
def tangentLocation : Rational :=
  .inv (.graded .lcont (.neg (.input 2)) (.input 0)) (.ret (.graded .gp (.input 0) (.input 3)))

/-- A call of one of the functions with the argument `M`.  `primal_flat_direction` is not written with a lazy
context; a lone product makes the same context itself, `core/left_contraction.hpp:66-69`. -/
noncomputable def call (D n : Nat) (τ : Types) (outer : Env) (f : Rational) (M : Object) : Option Object :=
  f.runLazyIn (conformalSpace D) n τ outer [M, MinkowskiModel.basisObject (D + 1), MinkowskiModel.basisObject (D + 2)]

end ConformalModel

end GATL
