import Mathlib.Analysis.SpecialFunctions.Trigonometric.Basic
import Verif.Model.Multivector
import Verif.Model.Metric

/-!
# Rotations, boosts and shears

`u` and `w` are orthogonal vectors; the transformations leave the vectors orthogonal to both as they are.
-/

namespace GATL.Spec

variable (P Q R : Nat)

/-- The scalar product of vectors in the space with signature `(P, Q, R)`. -/
noncomputable def vecDot (a b : MV ℝ) : ℝ := signedProd P Q R .sp a b 0

/-- The rotation by the angle `θ` from the unit vector `u` towards the unit vector `w`: the part `a u + b w` of `x` in
their plane becomes `(a cos θ - b sin θ) u + (a sin θ + b cos θ) w`. -/
noncomputable def rotated (θ : ℝ) (u w x : MV ℝ) : MV ℝ :=
  let a := vecDot P Q R u x
  let b := vecDot P Q R w x
  x - (a • u + b • w) + ((a * Real.cos θ - b * Real.sin θ) • u + (a * Real.sin θ + b * Real.cos θ) • w)

/-- The boost with rapidity `θ` in the plane of `u`, of square `1`, and `w`, of square `-1`: the part `a u + b w` of `x`
becomes `(a cosh θ + b sinh θ) u + (a sinh θ + b cosh θ) w`. -/
noncomputable def boosted (θ : ℝ) (u w x : MV ℝ) : MV ℝ :=
  let a := vecDot P Q R u x
  let b := -vecDot P Q R w x
  x - (a • u + b • w) + ((a * Real.cosh θ + b * Real.sinh θ) • u + (a * Real.sinh θ + b * Real.cosh θ) • w)

/-- The transformation of the plane of `u`, of any square, and the null vector `w`. -/
noncomputable def sheared (θ : ℝ) (u w x : MV ℝ) : MV ℝ :=
  x + θ • (vecDot P Q R u x • w - vecDot P Q R w x • u)
    - (θ ^ 2 / 2 * vecDot P Q R u u * vecDot P Q R w x) • w

/-- The rotation of the Euclidean space by the angle `θ` from `u` to `w`. -/
noncomputable def turned {D : Nat} (θ : ℝ) (u w x : Fin D → ℝ) : Fin D → ℝ :=
  let a := ∑ i, u i * x i
  let b := ∑ i, w i * x i
  x - (a • u + b • w) + ((a * Real.cos θ - b * Real.sin θ) • u + (a * Real.sin θ + b * Real.cos θ) • w)

end GATL.Spec
