import Verif.Model.Multivector
import Verif.Spec.Multivector

/-!
# The functions of the models of geometry

Model of `model/signed/euclidean/*.hpp` and `model/signed/homogeneous/*.hpp`.  Citations are relative to
`/repo/cpp/include/gatl/ga`.  As in `Verif/Model/Multivector.lean`, the values of the functions are
modelled; `none` is a division by zero.
-/

namespace GATL

open Spec

section metric
variable {K : Type*} [Field K] [DecidableEq K]

/-- `project`, `model/signed/euclidean/orthogonal_projection.hpp:31-34`:
`lcont(lcont(lhs, inv(rhs, mtr), mtr), rhs, mtr)`. -/
noncomputable def project (m : Metric K) (A B : MV K) : Option (MV K) :=
  (inv m B).map fun B' => m .lcont (m .lcont A B') B

/-- `reject`, `model/signed/euclidean/rejection.hpp:31-34`: `lhs - project(lhs, rhs, mtr)`. -/
noncomputable def reject (m : Metric K) (A B : MV K) : Option (MV K) :=
  (project m A B).map fun X => A - X

end metric

namespace HomogeneousModel

section ring
variable {K : Type*} [CommRing K] (D : Nat)

/-- The metric of `homogeneous_metric_space<D>`, `model/signed/homogeneous/metric_space.hpp:31-33`. -/
noncomputable def metric : Metric K := signedProd (D + 1) 0 0

/-- `flat_direction`, `model/signed/homogeneous/flat_direction.hpp:31-34`: `ep` is `e(c<D + 1>)`. -/
noncomputable def flatDirection (F : MV K) : MV K := metric D .lcont (e K D) F

/-- `flat_moment`, `model/signed/homogeneous/flat_moment.hpp:31-35`. -/
noncomputable def flatMoment (F : MV K) : MV K := metric D .lcont (e K D) (op (e K D) F)

/-- `translate`, `model/signed/homogeneous/translation.hpp:31-35`. -/
noncomputable def translate (d F : MV K) : MV K := F + op d (metric D .lcont (e K D) F)

end ring

section field
variable {K : Type*} [Field K] [DecidableEq K] (D : Nat)

/-- `flat_support_vector`, `model/signed/homogeneous/flat_support_vector.hpp:31-35`. -/
noncomputable def flatSupportVector (F : MV K) : Option (MV K) :=
  (inv (metric D) (metric D .lcont (e K D) F)).map fun X =>
    metric D .gp (metric D .lcont (e K D) (op (e K D) F)) X

/-- `flat_unit_support_point`, `model/signed/homogeneous/flat_unit_support_point.hpp:31-35`. -/
noncomputable def flatUnitSupportPoint (F : MV K) : Option (MV K) :=
  (inv (metric D) (metric D .lcont (e K D) F)).map fun X => metric D .gp F X

end field

end HomogeneousModel

end GATL
