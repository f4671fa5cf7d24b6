import Verif.Spec.Multivector
import Verif.Model.Multivector

/-!
# Specification vocabulary for versors
-/

namespace GATL.Spec
variable {K : Type*} [CommRing K]

/-- The geometric product `v₁ v₂ … vₖ` of a list (one for the empty list). -/
noncomputable def productOf (m : Metric K) (vs : List (MV K)) : MV K :=
  vs.foldr (m .gp) (scalar 1)

/-- The factors of an invertible versor: vectors, none of which is null. -/
def VersorFactors (m : Metric K) (vs : List (MV K)) : Prop :=
  ∀ v ∈ vs, Homogeneous 1 v ∧ m .gp v v ≠ 0

end GATL.Spec
