import Mathlib.LinearAlgebra.Finsupp.Supported
import Verif.Model.Products
import Verif.Spec.Metric

/-!
# Specification vocabulary for multivectors

A multivector is a function from basis blades to coefficients; the notions below (grade parts,
homogeneous multivectors, the multivectors of an `n`-dimensional space, vectors) are independent of
the library's algorithms.
-/

namespace GATL.Spec
variable {K : Type*} [CommRing K]

/-- The number of basis vectors of a blade. -/
def gradeOf (b : Word) : Nat := (vecs b).card

/-- The part of grade `k` (zero when `k` is negative). -/
noncomputable def gradePart (k : Int) (A : MV K) : MV K :=
  Finsupp.filter (fun b => (gradeOf b : Int) = k) A

/-- `A` has only components of grade `k`. -/
def Homogeneous (k : Nat) (A : MV K) : Prop := ∀ b, A b ≠ 0 → gradeOf b = k

/-- Multivectors of an `n`-dimensional space: only basis vectors `e(1), …, e(n)` occur. -/
def space (K : Type*) [CommRing K] (n : Nat) : Submodule K (MV K) :=
  Finsupp.supported K K {b | ∀ i ∈ vecs b, i.val < n}

/-- A scalar as a multivector. -/
noncomputable def scalar (a : K) : MV K := Finsupp.single 0 a

/-- The basis blade with bitset `b`. -/
noncomputable def blade (K : Type*) [CommRing K] (b : Word) : MV K := Finsupp.single b 1

/-- The 0-based basis vector `i`, i.e. the library's `e(i+1)`. -/
noncomputable def e (K : Type*) [CommRing K] (i : Nat) : MV K := Finsupp.single ((1 : Word) <<< i) 1

/-- The vector with the given coordinates. -/
noncomputable def vectorOf {n : Nat} (v : Fin n → K) : MV K := ∑ i : Fin n, v i • e K i

/-- The blade of all `n` basis vectors. -/
noncomputable def pseudoscalarOf (K : Type*) [CommRing K] (n : Nat) : MV K :=
  Finsupp.single (BitVec.ofNat 64 (2 ^ n - 1)) 1

/-- The (right) complement: the linear map that sends a basis blade `b` to `± b'`, where `b'` is
the blade of the basis vectors of the `n`-dimensional space that are not in `b`, and the sign is
the one that sorts `b` followed by `b'`; so `b ∧ complement b` is the pseudoscalar. -/
noncomputable def complement (n : Nat) : MV K →ₗ[K] MV K :=
  Finsupp.linearCombination K fun b =>
    let b' := BitVec.ofNat 64 (2 ^ n - 1) ^^^ b
    Finsupp.single b' ((-1) ^ (inversions (vecs b) (vecs b')).card)

end GATL.Spec
