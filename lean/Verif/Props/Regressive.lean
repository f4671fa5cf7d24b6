import Verif.Proofs.Regressive

/-! Property C13: the regressive product. -/

namespace GATL.Props
open Spec

variable {K : Type*} [CommRing K] (n : Nat)

/-- The complement of the specification is what it claims to be: a bijection with
`b ∧ complement b = I` for every basis blade of the space. -/
theorem C13_complement_spec (b : Word) (hb : blade K b ∈ space K n) :
    op (blade K b) (complement n (blade K b)) = pseudoscalarOf K n ∧
    Function.Bijective (complement n : MV K →ₗ[K] MV K) := by
  constructor
  · by_cases h1 : (1 : K) = 0
    · have : Subsingleton K := ⟨fun x y => by rw [← mul_one x, ← mul_one y, h1, mul_zero, mul_zero]⟩
      exact Subsingleton.elim _ _
    · refine op_complement n fun i hi => ?_
      refine (mem_space.mp hb) b ?_ i hi
      unfold blade; rw [Finsupp.single_eq_same]; exact h1
  · exact ⟨fun _ _ h => complement_inj n h, fun A => ⟨complementInv n A, complement_complementInv n A⟩⟩

/-- **C13** (duality) complementing both operands turns `rp` into `op`. -/
theorem C13_dual_to_op (hn : n ≤ 63) {A B : MV K} (hA : A ∈ space K n) (hB : B ∈ space K n) :
    complement n (rp n A B) = op (complement n A) (complement n B) :=
  complement_rp n (by omega) hA hB

/-- **C13** (associativity) -/
theorem C13_assoc (hn : n ≤ 63) {A B C : MV K} (hA : A ∈ space K n) (hB : B ∈ space K n)
    (hC : C ∈ space K n) : rp n (rp n A B) C = rp n A (rp n B C) := by
  have hn' : n ≤ 64 := by omega
  apply complement_inj n
  rw [complement_rp n hn' (rp_mem n hA hB) hC, complement_rp n hn' hA hB,
    complement_rp n hn' hA (rp_mem n hB hC), complement_rp n hn' hB hC]
  simp only [op_eq_gp_zero]; exact gp_assoc _ _ _ _

/-- **C13** (bilinearity) -/
theorem C13_bilinear (a : K) (A B C : MV K) :
    rp n (A + B) C = rp n A C + rp n B C ∧ rp n A (B + C) = rp n A B + rp n A C ∧
    rp n (a • A) B = a • rp n A B ∧ rp n A (a • B) = a • rp n A B := by
  unfold rp
  refine ⟨?_, ?_, ?_, ?_⟩ <;> simp

/-- **C13** (unit) the pseudoscalar is the unit of `rp`. -/
theorem C13_unit (hn : n ≤ 63) {A : MV K} (hA : A ∈ space K n) :
    rp n (pseudoscalarOf K n) A = A ∧ rp n A (pseudoscalarOf K n) = A := by
  have hn' : n ≤ 64 := by omega
  have hI : pseudoscalarOf K n ∈ space K n := single_mem_space _ (inSpace_full n)
  have hc : complement n (pseudoscalarOf K n) = scalar 1 := complement_full n
  constructor
  · apply complement_inj n
    rw [complement_rp n hn' hI hA, hc, op_eq_gp_zero]
    exact Cl.gp_one_left _ _
  · apply complement_inj n
    rw [complement_rp n hn' hA hI, hc, op_eq_gp_zero]
    exact Cl.gp_one_right _ _

/-- **C13** (grade) the product of grades `r` and `s` has grade `r + s - n`, and vanishes when that
is negative. -/
theorem C13_grade {r s : Nat} {A B : MV K}
    (hr : Homogeneous r A) (hs : Homogeneous s B) :
    (n ≤ r + s → Homogeneous (r + s - n) (rp n A B)) ∧ (r + s < n → rp n A B = 0) := by
  have key : ∀ L R : Word, ones L = r → ones R = s → ((regMul n L R).1 : K) ≠ 0 →
      ones (regMul n L R).2 + n = r + s := by
    intro L R hL hR h
    unfold regMul at h ⊢
    dsimp only at h ⊢
    split at h
    · rename_i h'; rw [hL, hR] at h'; omega
    · simp at h
  constructor
  · intro hle
    refine bilin_homog hr hs _ fun L R hL hR h => ?_
    have := key L R hL hR h
    dsimp only
    omega
  · intro hlt
    have h0 : Homogeneous 65 (rp n A B) := by
      refine bilin_homog hr hs _ fun L R hL hR h => ?_
      have := key L R hL hR h
      omega
    ext b
    by_contra hb
    have := h0 b hb
    have h2 := ones_le b
    rw [gradeOf_eq] at this
    omega

example : blade ℤ 0b011 ∈ space ℤ 3 ∧ Homogeneous 2 (blade ℤ 0b011) :=
  ⟨single_mem_space _ (by decide), homog_single _ (by decide)⟩

end GATL.Props
