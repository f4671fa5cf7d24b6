import Mathlib.Algebra.BigOperators.Group.Finset.Basic
import Mathlib.Algebra.Ring.Defs
import Verif.Spec.Blades

/-!
# Specification vocabulary: diagonal metrics

`q i` is the square of basis vector `e(i+1)`; a blade's metric factor is the product of the squares
of its vectors.
-/

namespace GATL.Spec

/-- The product of the squares of the basis vectors of a blade. -/
def diagFactor {K : Type*} [CommRing K] (q : Fin 64 → K) (b : Word) : K := ∏ i ∈ vecs b, q i

/-- Squares of the basis vectors in a space of signature (P,Q,R): `+1` for the first `P` basis
vectors, `-1` for the next `Q`, `0` for the next `R`. Basis vectors beyond the dimension of the
space do not occur in valid blades; the library treats them as squaring to `+1`. -/
def signature (P Q R : Nat) (i : Fin 64) : Int :=
  if i.val < P then 1
  else if i.val < P + Q then -1
  else if i.val < P + Q + R then 0
  else 1

end GATL.Spec
