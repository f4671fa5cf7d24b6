import Mathlib.Analysis.InnerProductSpace.PiL2
import Verif.Spec.Spaces

/-!
# Specification vocabulary for meet and join
-/

namespace GATL.Spec

/-- The blade `A` spans the subspace `U` of the `n`-dimensional Euclidean space: it is not zero and it is a multiple of
the outer product of vectors that span `U`. -/
structure Spans {n : Nat} (A : MV ℝ) (U : Submodule ℝ (EuclideanSpace ℝ (Fin n))) : Prop where
  ne : A ≠ 0
  blade : ∃ (c : ℝ) (xs : List (EuclideanSpace ℝ (Fin n))),
    Submodule.span ℝ {x | x ∈ xs} = U ∧
      A = c • outerOf (xs.map fun x : EuclideanSpace ℝ (Fin n) => vectorOf x)

/-- The tolerance separates the coefficients of `A` from zero: each is zero or larger than the tolerance. -/
def Sharp (tol : ℝ) (A : MV ℝ) : Prop := ∀ b, A b = 0 ∨ tol < |A b|

/-- What the tests of `meet_and_join` on two blades see is what there is: the tolerances separate from zero the coefficients
of the blades (of the subspaces `U` and `V`), of their geometric product `P`, and of the parts of the basis vectors inside
the intersection and orthogonal to the sum.  Tolerances of zero always do. -/
structure Visible {n : Nat} (tol dtol : ℝ) (A B P : MV ℝ) (U V : Submodule ℝ (EuclideanSpace ℝ (Fin n))) : Prop where
  pos : 0 ≤ tol
  dpos : 0 ≤ dtol
  left : Sharp tol A
  right : Sharp tol B
  product : Sharp dtol P
  product' : Sharp tol P
  inside : ∀ i : Fin n, Sharp tol (vectorOf ((U ⊓ V).starProjection (EuclideanSpace.single i 1)))
  outside : ∀ i : Fin n, Sharp tol (vectorOf ((U ⊔ V)ᗮ.starProjection (EuclideanSpace.single i 1)))

/-- The vectors that are orthogonal to the subspace `W` in the metric `M`. -/
def orthogonalIn {n : Nat} (M : Matrix (Fin n) (Fin n) ℝ) (W : Submodule ℝ (EuclideanSpace ℝ (Fin n))) :
    Submodule ℝ (EuclideanSpace ℝ (Fin n)) where
  carrier := {x | ∀ y ∈ W, ∑ i, ∑ j, x i * M i j * y j = 0}
  zero_mem' := fun y _ => by simp
  add_mem' := fun {a b} ha hb y hy => by
    have := congrArg₂ (· + ·) (ha y hy) (hb y hy)
    simpa only [PiLp.add_apply, add_mul, Finset.sum_add_distrib, add_zero] using this
  smul_mem' := fun c x hx y hy => by
    have := congrArg (c * ·) (hx y hy)
    simpa only [PiLp.smul_apply, smul_eq_mul, Finset.mul_sum, mul_zero, mul_assoc] using this

/-- No vector of the subspace `S` is orthogonal to all of `S` in the metric `M`, except zero. -/
def Regular {n : Nat} (M : Matrix (Fin n) (Fin n) ℝ) (S : Submodule ℝ (EuclideanSpace ℝ (Fin n))) : Prop :=
  S ⊓ orthogonalIn M S = ⊥

end GATL.Spec
