import Verif.Proofs.Homog
import Mathlib.LinearAlgebra.ExteriorAlgebra.Basic

/-!
Properties C03–C07: the outer and the geometric product of the library are the products of the
exterior algebra and of the Clifford algebra.
-/

namespace GATL.Props
open Spec

variable {K : Type*} [CommRing K]

/-- helper: the isomorphism for a quadratic form given up to equality -/
private theorem iso_of_eq (q : Fin 64 → K) {n : Nat} (hn : n ≤ 64)
    (Q : QuadraticForm K (Fin n → K)) (hQ : Q = QF q hn) :
    ∃ Φ : CliffordAlgebra Q ≃ₗ[K] space K n,
      (Φ 1 : MV K) = scalar 1 ∧
      (∀ x y, (Φ (x * y) : MV K) = orthProd (diagFactor q) .gp (Φ x) (Φ y)) ∧
      (∀ v, (Φ (CliffordAlgebra.ι Q v) : MV K) = vectorOf v) := by
  subst hQ
  refine ⟨clEquiv q hn, ?_, ?_, ?_⟩
  · rw [clEquiv_apply, map_one]; rfl
  · intro x y; rw [clEquiv_apply, map_mul]; rfl
  · intro v; rw [clEquiv_apply, psi_ι, vecLin_eq]

/-- **C03** The multivectors of an `n`-dimensional space with `op` are the exterior algebra: there
is a linear bijection with Mathlib's `ExteriorAlgebra` of the free module of rank `n` that maps
products to `op`, one to the scalar one and vectors to vectors. -/
theorem C03_op_exterior_algebra (n : Nat) (hn : n ≤ 63) :
    ∃ Φ : ExteriorAlgebra K (Fin n → K) ≃ₗ[K] space K n,
      (Φ 1 : MV K) = scalar 1 ∧
      (∀ x y, (Φ (x * y) : MV K) = op (Φ x : MV K) (Φ y)) ∧
      (∀ v, (Φ (ExteriorAlgebra.ι K v) : MV K) = vectorOf v) := by
  have h := iso_of_eq (fun _ => (0 : K)) (n := n) (by omega) 0 (by
    ext v; simp [QuadraticMap.weightedSumSquares_apply])
  simp only [op_eq_gp_zero]
  exact h

/-- a concrete product: (e1 + 2 e3) ^ e2 = e12 - 2 e23 -/
example : op (e ℤ 0 + (2 : ℤ) • e ℤ 2) (e ℤ 1) = blade ℤ 0b011 - (2 : ℤ) • blade ℤ 0b110 := by
  simp only [op, e, blade, map_add, map_smul, LinearMap.add_apply, LinearMap.smul_apply,
    bilin_single]
  have h1 : extMul ((1 : Word) <<< 0) ((1 : Word) <<< 1) = (1, 0b011) := by
    rw [extMul_eval]; decide
  have h2 : extMul ((1 : Word) <<< 2) ((1 : Word) <<< 1) = (-1, 0b110) := by
    rw [extMul_eval]; decide
  rw [h1, h2]
  simp [sub_eq_add_neg]

/-- **C04** (associativity) -/
theorem C04_op_assoc (A B C : MV K) : op (op A B) C = op A (op B C) := by
  simp only [op_eq_gp_zero]; exact gp_assoc _ A B C

/-- **C04** (graded commutativity) -/
theorem C04_op_graded_comm {r s : Nat} {A B : MV K} (hA : Homogeneous r A) (hB : Homogeneous s B) :
    op A B = (-1 : K) ^ (r * s) • op B A := by
  refine bilin_comm hA hB _ _ _ fun L R hL hR => ?_
  apply single_ext
  · dsimp only
    rw [ext_form, ext_form, BitVec.and_comm R L]
    split
    · rename_i h
      have hp := par_swap L R
      rw [h, gr_eq, gr_eq, gr_eq, hL, hR, ones_zero] at hp
      have : par L R = par R L + ((r * s : Nat) : ZMod 2) := by
        push_cast
        rw [Nat.cast_zero, add_zero] at hp
        rw [← hp, add_left_comm, zmod2_add_self, add_zero]
      rw [this, sg_add, sg_natCast, mul_comm]
    · rw [mul_zero]
  · intro _; rw [extMul_snd, extMul_snd]; exact BitVec.or_comm _ _

/-- **C04** (alternating): the outer product of a vector with itself vanishes. -/
theorem C04_op_alternating {v : MV K} (hv : Homogeneous 1 v) : op v v = 0 := by
  obtain ⟨c, rfl⟩ := homog_one hv
  rw [op_eq_gp_zero]
  refine (Cl.vec_sq (fun _ => (0 : K)) c).trans ?_
  simp only [zero_mul, Finset.sum_const_zero, zero_smul]; rfl

/-- **C04** (grade) -/
theorem C04_op_grade {r s : Nat} {A B : MV K} (hA : Homogeneous r A) (hB : Homogeneous s B) :
    Homogeneous (r + s) (op A B) := by
  refine bilin_homog hA hB _ fun L R hL hR h => ?_
  dsimp only at h
  rw [ext_form] at h
  have hd : L &&& R = 0 := by by_contra h'; rw [if_neg h'] at h; exact h rfl
  have := ones_or_add_and L R
  rw [hd, hL, hR, ones_zero, Nat.add_zero] at this
  rw [extMul_snd, this]

example : Homogeneous 2 (blade ℤ 0b011 + (5 : ℤ) • blade ℤ 0b110) ∧
    Homogeneous 1 ((3 : ℤ) • e ℤ 0 + e ℤ 4) :=
  ⟨homog_add (homog_single _ (by decide)) (homog_smul _ (homog_single _ (by decide))),
   homog_add (homog_smul _ (homog_single _ (by decide))) (homog_single _ (by decide))⟩

/-- **C05** The multivectors of `signed_metric_space<P,Q,R>` with `gp` are the Clifford algebra of
the quadratic form with `P` plus ones, `Q` minus ones and `R` zeros: there is a linear bijection
with Mathlib's `CliffordAlgebra` that maps products to `gp`, one to the scalar one and vectors to
vectors. -/
theorem C05_gp_clifford_algebra (P Q R : Nat) (h : P + Q + R ≤ 63) :
    ∃ Φ : CliffordAlgebra (QuadraticMap.weightedSumSquares K
          (fun i : Fin (P + Q + R) =>
            ((signature P Q R ⟨i, by omega⟩ : Int) : K))) ≃ₗ[K] space K (P + Q + R),
      (Φ 1 : MV K) = scalar 1 ∧
      (∀ x y, (Φ (x * y) : MV K) = signedProd P Q R .gp (Φ x : MV K) (Φ y)) ∧
      (∀ v, (Φ (CliffordAlgebra.ι _ v) : MV K) = vectorOf v) := by
  unfold signedProd
  rw [signedFactor_cast P Q R h]
  exact iso_of_eq _ (by omega) _ rfl

/-- **C06** (associativity) -/
theorem C06_gp_assoc (P Q R : Nat) (h : P + Q + R ≤ 63) (A B C : MV K) :
    signedProd P Q R .gp (signedProd P Q R .gp A B) C
      = signedProd P Q R .gp A (signedProd P Q R .gp B C) := by
  unfold signedProd; rw [signedFactor_cast P Q R h]; exact gp_assoc _ A B C

/-- **C06** (bilinearity, for every product that the metric mapping computes) -/
theorem C06_bilinear (P Q R : Nat) (g : GradedProduct) (a : K) (A B C : MV K) :
    signedProd P Q R g (A + B) C = signedProd P Q R g A C + signedProd P Q R g B C ∧
    signedProd P Q R g A (B + C) = signedProd P Q R g A B + signedProd P Q R g A C ∧
    signedProd P Q R g (a • A) B = a • signedProd P Q R g A B ∧
    signedProd P Q R g A (a • B) = a • signedProd P Q R g A B := by
  unfold signedProd orthProd
  refine ⟨?_, ?_, ?_, ?_⟩ <;> simp

/-- **C06** (unit) -/
theorem C06_unit (P Q R : Nat) (h : P + Q + R ≤ 63) (A : MV K) :
    signedProd P Q R .gp (scalar 1) A = A ∧ signedProd P Q R .gp A (scalar 1) = A := by
  unfold signedProd; rw [signedFactor_cast P Q R h]
  exact ⟨Cl.gp_one_left _ A, Cl.gp_one_right _ A⟩

/-- **C07** Distinct basis vectors anticommute. -/
theorem C07_anticommute (P Q R : Nat) (h : P + Q + R ≤ 63) (i j : Nat) (hi : i < P + Q + R)
    (hj : j < P + Q + R) (hij : i ≠ j) :
    signedProd P Q R .gp (e K i) (e K j) = - signedProd P Q R .gp (e K j) (e K i) := by
  unfold signedProd; rw [signedFactor_cast P Q R h]
  exact Cl.bit_anticomm _ ⟨i, by omega⟩ ⟨j, by omega⟩ (by simpa using hij)

/-- **C07** A basis vector squares to its signature. -/
theorem C07_square (P Q R : Nat) (h : P + Q + R ≤ 63) (i : Nat) (hi : i < P + Q + R) :
    signedProd P Q R .gp (e K i) (e K i)
      = scalar (if i < P then 1 else if i < P + Q then -1 else 0) := by
  unfold signedProd; rw [signedFactor_cast P Q R h]
  refine (Cl.bit_sq _ ⟨i, by omega⟩).trans ?_
  rw [Cl.one_eq_blade]
  refine (Cl.single_eq _ _ _).symm.trans ?_
  unfold scalar signature
  congr 1
  dsimp only
  split
  · simp
  · split
    · simp
    · simp

/-- **C07** Every vector squares to its quadratic form. -/
theorem C07_vector_square (P Q R : Nat) (h : P + Q + R ≤ 63) (v : Fin (P + Q + R) → K) :
    signedProd P Q R .gp (vectorOf v) (vectorOf v)
      = scalar (∑ i : Fin (P + Q + R), ((signature P Q R ⟨i, by omega⟩ : Int) : K) * v i ^ 2) := by
  unfold signedProd; rw [signedFactor_cast P Q R h]
  have := vecLin_sq (fun i => ((signature P Q R i : Int) : K)) (n := P + Q + R) (by omega) v
  refine this.trans ?_
  rw [Algebra.algebraMap_eq_smul_one, Cl.one_eq_blade]
  refine (Cl.single_eq _ _ _).symm.trans ?_
  unfold scalar
  congr 1
  rw [QuadraticMap.weightedSumSquares_apply]
  simp only [smul_eq_mul, pow_two]

example : (2 : Nat) + 1 + 1 ≤ 63 ∧ signature 2 1 1 2 = -1 ∧ signature 2 1 1 3 = 0 := by decide

end GATL.Props
