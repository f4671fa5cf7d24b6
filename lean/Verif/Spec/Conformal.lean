import Verif.Spec.Minkowski

/-!
# Specification vocabulary for rounds, flats and tangents of the conformal model

`D` is the number of dimensions of the Euclidean space; the model has the two basis vectors `e(D+1)`, the point at the
origin, and `e(D+2)`, the point at infinity, in addition.
-/

namespace GATL.Spec

variable {D k : Nat}

/-- The conformal point at `x`: `x + e(D+1) + |x|²/2 e(D+2)`. -/
noncomputable def conformalPointAt (x : Fin D → ℝ) : MV ℝ := vectorOf (conformalCoords x)

/-- The round (a point, a pair of points, a circle, a sphere) through points. -/
noncomputable def conformalRound (x : Fin (k + 1) → Fin D → ℝ) : MV ℝ :=
  outerOf (List.ofFn fun i => conformalPointAt (x i))

/-- The flat (a flat point, a line, a plane) through points. -/
noncomputable def conformalFlat (x : Fin (k + 1) → Fin D → ℝ) : MV ℝ := op (conformalRound x) (e ℝ (D + 1))

/-- The tangent at the point `x` with the directions `d`. -/
noncomputable def conformalTangent (x : Fin D → ℝ) (d : Fin k → Fin D → ℝ) : MV ℝ :=
  op (conformalPointAt x)
    (outerOf (List.ofFn fun i => direction (d i) + (∑ j, d i j * x j) • e ℝ (D + 1)))

/-- The direction spanned by the vectors `d`. -/
noncomputable def conformalDirection (d : Fin k → Fin D → ℝ) : MV ℝ :=
  op (outerOf (List.ofFn fun i => direction (d i))) (e ℝ (D + 1))

end GATL.Spec
