import Mathlib.LinearAlgebra.AffineSpace.Independent
import Verif.Spec.Spaces
import Verif.Spec.Vector

/-!
# Specification vocabulary for rounds, flats and tangents of the Minkowski model

`D` is the number of dimensions of the Euclidean space; the model has the two basis vectors `e(D+1)`, of square 1,
and `e(D+2)`, of square -1, in addition.
-/

namespace GATL.Spec

variable {D k : Nat}

/-- The point at `x`. -/
noncomputable def minkowskiPointAt (x : Fin D → ℝ) : MV ℝ := vectorOf (minkowskiCoords x)

/-- The point at infinity: `e(D+1) + e(D+2)`. -/
noncomputable def infinity (D : Nat) : MV ℝ := e ℝ D + e ℝ (D + 1)

/-- The point at the origin: `(e(D+2) - e(D+1)) / 2`. -/
noncomputable def origin (D : Nat) : MV ℝ := (1 / 2 : ℝ) • (e ℝ (D + 1) - e ℝ D)

/-- The round (a point, a pair of points, a circle, a sphere) through points. -/
noncomputable def roundThrough (x : Fin (k + 1) → Fin D → ℝ) : MV ℝ :=
  outerOf (List.ofFn fun i => minkowskiPointAt (x i))

/-- The flat (a flat point, a line, a plane) through points. -/
noncomputable def flatThrough (x : Fin (k + 1) → Fin D → ℝ) : MV ℝ := op (roundThrough x) (infinity D)

/-- The tangent at the point `x` with the directions `d`. -/
noncomputable def tangentAt (x : Fin D → ℝ) (d : Fin k → Fin D → ℝ) : MV ℝ :=
  op (minkowskiPointAt x)
    (outerOf (List.ofFn fun i => direction (d i) + (∑ j, d i j * x j) • infinity D))

/-- The direction spanned by the vectors `d`. -/
noncomputable def directionOf (d : Fin k → Fin D → ℝ) : MV ℝ :=
  op (outerOf (List.ofFn fun i => direction (d i))) (infinity D)

end GATL.Spec
