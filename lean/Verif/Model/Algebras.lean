import Verif.Model.Enumerate
import Verif.Model.Metric
import Verif.Model.Minkowski

/-!
# The constants of the predefined algebras

Model of the macros that define `no`, `ni`, `ep`, `em`, `e0`, `I` and `Ie` for a model of geometry with `D` Euclidean
dimensions, `model/signed/{euclidean,homogeneous,minkowski,plane_based}/macro_for_algebra_definition.hpp` and
`model/conformal/macro_for_algebra_definition.hpp`; the headers `ga1e.hpp` to `ga5e.hpp`, `ga1h.hpp` to `ga4h.hpp`,
`ga1m.hpp` to `ga3m.hpp`, `ga1p.hpp` to `ga4p.hpp` and `ga1c.hpp` to `ga3c.hpp` use them.  Citations are relative to
`/repo/cpp/include/gatl/ga`.  `none` means that the constant does not compile.
-/

namespace GATL

open Expr Spec MinkowskiModel

/-- `real_metric_space`, `core/real_metric_space.hpp:28-47`. -/
def realSpace : SpaceType := ⟨63, orthMapping 63 mkRealFactor⟩

/-- `lhs / rhs` for a scalar `rhs`, `extra/arithmetic_operators.hpp:29-32`: `igp` in the real space,
`extra/inverse_geometric_product.hpp:29-33`. -/
noncomputable def divideBy (n : Nat) (τ : Types) (outer : Env) (M M' : Object) : Option Object :=
  Rational.divideProgram.runLazyIn realSpace n τ outer [M, M']

/-- `pseudoscalar(mtr)` for a space with `n` dimensions, `util/pseudoscalar.hpp:35-41`. -/
def pseudoscalarObject (n : Nat) : Option Object := do
  some ⟨false, [⟨.const 1, .const (← pseudoscalarBlade n)⟩], [], []⟩

namespace Algebra

variable (D n : Nat) (τ : Types) (outer : Env)

/-- `rcont(I, op(a, b, SPACE), SPACE)`, `model/signed/minkowski/macro_for_algebra_definition.hpp:44`,
`model/conformal/macro_for_algebra_definition.hpp:44`, with the mappings of the space `S`. -/
noncomputable def euclidean (S : SpaceType) (a b : Object) : Option Object := do
  let I ← pseudoscalarObject S.dims
  call2 n τ outer (mulC (S.mapping .rcont) n) I (← call2 n τ outer (mulC (extMapping S.dims) n) a b)

/-- `no` of the Minkowski model, `model/signed/minkowski/macro_for_algebra_definition.hpp:33-36`. -/
noncomputable def minkowskiNo : Option Object := do
  divideBy n τ outer (← call2 n τ outer (subC n) (basisObject (D + 2)) (basisObject (D + 1))) (constObject 2)

/-- `ni` of the Minkowski model, `model/signed/minkowski/macro_for_algebra_definition.hpp:37`. -/
noncomputable def minkowskiNi : Option Object :=
  call2 n τ outer (addC n) (basisObject (D + 1)) (basisObject (D + 2))

/-- `Ie` of the Minkowski model, `model/signed/minkowski/macro_for_algebra_definition.hpp:43-44`. -/
noncomputable def minkowskiIe : Option Object :=
  euclidean n τ outer (signedSpace (D + 1) 1 0) (basisObject (D + 1)) (basisObject (D + 2))

/-- `ep` of the conformal model, where `no` is `e(c<D + 1>)` and `ni` is `e(c<D + 2>)`,
`model/conformal/macro_for_algebra_definition.hpp:33-36`. -/
noncomputable def conformalEp : Option Object := do
  call2 n τ outer (subC n) (← divideBy n τ outer (basisObject (D + 2)) (constObject 2)) (basisObject (D + 1))

/-- `em` of the conformal model, `model/conformal/macro_for_algebra_definition.hpp:37`. -/
noncomputable def conformalEm : Option Object := do
  call2 n τ outer (addC n) (← divideBy n τ outer (basisObject (D + 2)) (constObject 2)) (basisObject (D + 1))

/-- `Ie` of the conformal model, `model/conformal/macro_for_algebra_definition.hpp:43-44`. -/
noncomputable def conformalIe : Option Object :=
  euclidean n τ outer (conformalSpace D) (basisObject (D + 1)) (basisObject (D + 2))

/-- `Ie` of the homogeneous model, where `ep` is `e(c<D + 1>)` and the metric is that of the space with signature
`(D + 1, 0, 0)`, `model/signed/homogeneous/macro_for_algebra_definition.hpp:33-40`. -/
noncomputable def homogeneousIe : Option Object := do
  let I ← pseudoscalarObject (D + 1)
  call2 n τ outer (mulC ((signedSpace (D + 1) 0 0).mapping .rcont) n) I (basisObject (D + 1))

end Algebra

end GATL
