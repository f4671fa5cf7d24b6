import Verif.Spec.Multivector
import Verif.Model.Products

/-!
# Specification vocabulary for the models of geometry
-/

namespace GATL.Spec

variable {K : Type*} [CommRing K]

/-- The outer product of a list of vectors: a blade. -/
noncomputable def outerOf (vs : List (MV K)) : MV K := vs.foldr op (scalar 1)

/-- The vector of the Euclidean space with coordinates `x`, in a model with more dimensions: the
other coordinates are zero. -/
noncomputable def direction {D : Nat} (x : Fin D → K) : MV K := vectorOf x

/-- The point at `x` in the homogeneous model. -/
noncomputable def homogeneousPointAt {D : Nat} (x : Fin D → K) : MV K := vectorOf x + e K D

end GATL.Spec
