import Verif.Model.Vector
import Verif.Spec.Lazy

/-!
# Specification vocabulary for making vectors
-/

namespace GATL.Spec

open Expr

/-- The number `x` that a coordinate stands for, and the ways to give it: a native number of the type
`f` (floating point or integer), a `const` scalar without stored entries (like `c<v>`), or a
non-`const` scalar that stores one number of the type `f`. -/
inductive CoordReads (ρ : Env) (f : Bool) : Coord → ℝ → Prop
  | native (x) : CoordReads ρ f (.native f x) x
  | symbolic (c x) (hs : hasStored c = false) (hb : Built c) (hd : Denotes ρ c x) :
      CoordReads ρ f (.scalar true false c []) x
  | stored (x) : CoordReads ρ f (.scalar false f .stored [x]) x

/-- The coordinates of a point in a program: floating-point numbers and integer constants `c<v>`. -/
inductive PointCoord : Coord → ℝ → Prop
  | native (x) : PointCoord (.native true x) x
  | const (v : Int) : PointCoord (constCoord v) v

/-- The coordinates of the conformal point at `x`: `x + e(D+1) + |x|²/2 e(D+2)`. -/
noncomputable def conformalCoords {D : Nat} (x : Fin D → ℝ) : Fin (D + 2) → ℝ :=
  Fin.snoc (Fin.snoc x 1 : Fin (D + 1) → ℝ) ((∑ i, x i ^ 2) / 2)

/-- The coordinates of the point at `x` in the Minkowski model:
`x + (|x|² - 1)/2 e(D+1) + (|x|² + 1)/2 e(D+2)`. -/
noncomputable def minkowskiCoords {D : Nat} (x : Fin D → ℝ) : Fin (D + 2) → ℝ :=
  Fin.snoc (Fin.snoc x ((∑ i, x i ^ 2 - 1) / 2) : Fin (D + 1) → ℝ) ((∑ i, x i ^ 2 + 1) / 2)

/-- The coordinates of the homogeneous point at `x`: `x + e(D+1)`. -/
noncomputable def homogeneousCoords {D : Nat} (x : Fin D → ℝ) : Fin (D + 1) → ℝ :=
  Fin.snoc x 1

end GATL.Spec
