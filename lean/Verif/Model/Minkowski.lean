import Verif.Model.Rational

/-!
# The functions of the Minkowski model

Model of `model/signed/minkowski/*.hpp`.  Citations are relative to `/repo/cpp/include/gatl/ga`.  The metric is that of
`minkowski_metric_space<D>`, the space with signature `(D + 1, 1, 0)`, `model/signed/minkowski/metric_space.hpp:31-33`.

Each function is a program whose inputs are the multivector, `e(c<D + 1>)` and `e(c<D + 2>)`; the two basis vectors
have no storage, so making them arguments of the lazy context changes nothing.  The functions that call `undual` with
two arguments (`dual_flat_direction`, `dual_round_direction`, `dual_tangent_direction`) do not compile and are not
modelled.  The type of the division by `c<2>` is computed with the metric of the model instead of the real metric;
the factors are a vector and a scalar.
-/

namespace GATL

open Expr Spec

namespace MinkowskiModel

/-- `e(c<k>)`, `util/basis_vector.hpp:51-54`: no storage. -/
def basisObject (k : Nat) : Object := ⟨false, [⟨.const 1, .const ((1 : Word) <<< (k - 1))⟩], [], []⟩

/-- `ni = e(c<D + 1>) + e(c<D + 2>)`. -/
def ni : Program := .add (.input 1) (.input 2)

/-- `no = (e(c<D + 2>) - e(c<D + 1>)) / c<2>`: the quotient is the last input of the program that follows,
`extra/inverse_geometric_product.hpp:29-33`. -/
def withOrigin (rest : Rational) : Rational :=
  .inv (.lit 2) (.bind (.graded .gp (.sub (.input 2) (.input 1)) (.input 3)) rest)

/-- `dual_round_location` and `primal_round_location`, `model/signed/minkowski/round_location.hpp:31-36`, `:40-45`. -/
def roundLocation : Rational :=
  .bind ni (.bind (.graded .lcont (.input 3) (.input 0))
    (.inv (.graded .gp (.lit (-2)) (.graded .sp (.input 4) (.input 4)))
      (.ret (.graded .gp (.graded .gp (.graded .gp (.input 0) (.input 3)) (.input 0)) (.input 5)))))

/-- `primal_round_size_sqr`, `model/signed/minkowski/round_size_sqr.hpp:40-45`. -/
def primalRoundSizeSqr : Rational :=
  .bind ni (.bind (.graded .lcont (.input 3) (.input 0))
    (.inv (.graded .sp (.input 4) (.input 4))
      (.ret (.graded .sp (.graded .sp (.input 0) (.involute (.input 0))) (.input 5)))))

/-- `dual_round_size_sqr`, `model/signed/minkowski/round_size_sqr.hpp:31-36`. -/
def dualRoundSizeSqr : Rational :=
  .bind ni (.bind (.graded .lcont (.input 3) (.input 0))
    (.inv (.graded .sp (.input 4) (.input 4))
      (.ret (.neg (.graded .sp (.graded .sp (.input 0) (.involute (.input 0))) (.input 5))))))

/-- `primal_round_direction` and `primal_tangent_direction`, `model/signed/minkowski/round_direction.hpp:39-43`,
`model/signed/minkowski/tangent_direction.hpp:39-43`. -/
def primalDirection : Rational :=
  .bind ni (.ret (.op (.graded .lcont (.neg (.input 3)) (.input 0)) (.input 3)))

/-- `primal_flat_direction`, `model/signed/minkowski/flat_direction.hpp:38-41`. -/
def primalFlatDirection : Rational :=
  .bind ni (.ret (.graded .lcont (.neg (.input 3)) (.input 0)))

/-- `primal_flat_location`, `model/signed/minkowski/flat_location.hpp:39-43`. -/
def primalFlatLocation : Rational :=
  withOrigin (.inv (.input 0) (.ret (.graded .gp (.graded .lcont (.input 4) (.input 0)) (.input 5))))

/-- `dual_flat_location`, `model/signed/minkowski/flat_location.hpp:31-35`. -/
def dualFlatLocation : Rational :=
  withOrigin (.inv (.input 0) (.ret (.graded .gp (.op (.input 4) (.input 0)) (.input 5))))

/-- `dual_tangent_location` and `primal_tangent_location`, `model/signed/minkowski/tangent_location.hpp:31-35`,
`:39-43`. -/
def tangentLocation : Rational :=
  .bind ni (.inv (.graded .lcont (.neg (.input 3)) (.input 0)) (.ret (.graded .gp (.input 0) (.input 4))))

/-- A call of one of the functions with the argument `M`.  `primal_flat_direction` is not written with a lazy
context; a lone product makes the same context itself, `core/left_contraction.hpp:66-69`. -/
noncomputable def call (D n : Nat) (τ : Types) (outer : Env) (f : Rational) (M : Object) : Option Object :=
  f.runLazy (D + 1) 1 0 n τ outer [M, basisObject (D + 1), basisObject (D + 2)]

end MinkowskiModel

end GATL
