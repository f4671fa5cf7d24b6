import Verif.Proofs.Involutions

/-!
Properties C09–C12: the inner products, the contractions, and the three involutions, in every
`signed_metric_space<P,Q,R>` and over every commutative coefficient ring.
-/

namespace GATL.Props
open Spec

variable {K : Type*} [CommRing K] (P Q R : Nat)

/-- **C09** For homogeneous operands each product is the advertised grade part of `gp`. -/
theorem C09_grade_parts (h : P + Q + R ≤ 63) {r s : Nat} {A B : MV K} (hA : Homogeneous r A)
    (hB : Homogeneous s B) :
    signedProd P Q R .lcont A B = gradePart ((s : Int) - r) (signedProd P Q R .gp A B) ∧
    signedProd P Q R .rcont A B = gradePart ((r : Int) - s) (signedProd P Q R .gp A B) ∧
    signedProd P Q R .dot A B = gradePart |(r : Int) - s| (signedProd P Q R .gp A B) ∧
    signedProd P Q R .hip A B
      = (if r = 0 ∨ s = 0 then 0 else gradePart |(r : Int) - s| (signedProd P Q R .gp A B)) ∧
    signedProd P Q R .sp A B = gradePart 0 (signedProd P Q R .gp A B) ∧
    op A B = gradePart ((r : Int) + s) (signedProd P Q R .gp A B) := by
  unfold signedProd
  have hd : ∀ t : Nat, areValidGrades .dot r s t = true ↔ (t : Int) = |(r : Int) - s| := by
    intro t
    simp only [areValidGrades]
    split <;> rw [decide_eq_true_eq]
    · rw [abs_of_nonpos (by omega)]; omega
    · rw [abs_of_nonneg (by omega)]; omega
  refine ⟨?_, ?_, ?_, ?_, ?_, ?_⟩
  · refine orthMul_gradePart _ _ hA hB _ fun t => ?_
    simp only [areValidGrades, decide_eq_true_eq]; omega
  · refine orthMul_gradePart _ _ hA hB _ fun t => ?_
    simp only [areValidGrades, decide_eq_true_eq]; omega
  · exact orthMul_gradePart _ _ hA hB _ hd
  · split
    · rename_i h0
      rw [orthMul_gradePart _ _ hA hB (-1) fun t => ?_]
      · have : ∀ X : MV K, gradePart (-1) X = 0 := by
          intro X
          ext b
          unfold gradePart
          rw [Finsupp.filter_apply_neg _ _ (by omega)]; rfl
        exact this _
      · have : (decide ((r : Int) = 0) || decide ((s : Int) = 0)) = true := by
          rcases h0 with h0 | h0 <;> simp [h0]
        simp only [areValidGrades, this, if_true]
        constructor
        · intro h; exact absurd h (by simp)
        · intro h; omega
    · rename_i h0
      refine orthMul_gradePart _ _ hA hB _ fun t => ?_
      rw [← hd t]
      have : (decide ((r : Int) = 0) || decide ((s : Int) = 0)) = false := by
        rw [not_or] at h0
        simp [h0.1, h0.2]
      simp only [areValidGrades, this]; rfl
  · refine orthMul_gradePart _ _ hA hB _ fun t => ?_
    simp only [areValidGrades, decide_eq_true_eq]
  · rw [signedFactor_cast P Q R h, ← Nat.cast_add]
    exact op_gradePart _ (diagFactor_zero _) hA hB

/-- **C09** The same for arbitrary multivectors, summed over the grade parts of the operands. -/
theorem C09_all_multivectors (h : P + Q + R ≤ 63) (A B : MV K) :
    signedProd P Q R .lcont A B = ∑ r ∈ Finset.range 65, ∑ s ∈ Finset.range 65,
      gradePart ((s : Int) - r) (signedProd P Q R .gp (gradePart r A) (gradePart s B)) ∧
    signedProd P Q R .rcont A B = ∑ r ∈ Finset.range 65, ∑ s ∈ Finset.range 65,
      gradePart ((r : Int) - s) (signedProd P Q R .gp (gradePart r A) (gradePart s B)) ∧
    signedProd P Q R .dot A B = ∑ r ∈ Finset.range 65, ∑ s ∈ Finset.range 65,
      gradePart |(r : Int) - s| (signedProd P Q R .gp (gradePart r A) (gradePart s B)) ∧
    signedProd P Q R .hip A B = ∑ r ∈ Finset.range 65, ∑ s ∈ Finset.range 65,
      (if r = 0 ∨ s = 0 then 0 else
        gradePart |(r : Int) - s| (signedProd P Q R .gp (gradePart r A) (gradePart s B))) ∧
    signedProd P Q R .sp A B = gradePart 0 (signedProd P Q R .gp A B) ∧
    op A B = ∑ r ∈ Finset.range 65, ∑ s ∈ Finset.range 65,
      gradePart ((r : Int) + s) (signedProd P Q R .gp (gradePart r A) (gradePart s B)) := by
  have key := fun r s : Nat =>
    C09_grade_parts P Q R h (gradePart_homog r A) (gradePart_homog s B)
  refine ⟨?_, ?_, ?_, ?_, ?_, ?_⟩
  · refine (bilin_sum_gradePart _ A B).trans ?_
    exact Finset.sum_congr rfl fun r _ => Finset.sum_congr rfl fun s _ => (key r s).1
  · refine (bilin_sum_gradePart _ A B).trans ?_
    exact Finset.sum_congr rfl fun r _ => Finset.sum_congr rfl fun s _ => (key r s).2.1
  · refine (bilin_sum_gradePart _ A B).trans ?_
    exact Finset.sum_congr rfl fun r _ => Finset.sum_congr rfl fun s _ => (key r s).2.2.1
  · refine (bilin_sum_gradePart _ A B).trans ?_
    exact Finset.sum_congr rfl fun r _ => Finset.sum_congr rfl fun s _ => (key r s).2.2.2.1
  · have e : ∀ X : ℕ → MV K, gradePart 0 (∑ r ∈ Finset.range 65, X r)
        = ∑ r ∈ Finset.range 65, gradePart 0 (X r) := by
      intro X
      exact map_sum (⟨⟨gradePart 0, gradePart_zero 0⟩, gradePart_add 0⟩ : MV K →+ MV K) X _
    refine (bilin_sum_gradePart _ A B).trans ?_
    have e2 : signedProd P Q R .gp A B = _ := bilin_sum_gradePart _ A B
    rw [e2, e]
    refine Finset.sum_congr rfl fun r _ => ?_
    rw [e]
    exact Finset.sum_congr rfl fun s _ => (key r s).2.2.2.2.1
  · refine (bilin_sum_gradePart _ A B).trans ?_
    exact Finset.sum_congr rfl fun r _ => Finset.sum_congr rfl fun s _ => (key r s).2.2.2.2.2

/-- **C10** The product with a vector splits into contraction and outer product. -/
theorem C10_vector_split (h : P + Q + R ≤ 63) {a : MV K} (ha : Homogeneous 1 a) (B : MV K) :
    signedProd P Q R .gp a B = signedProd P Q R .lcont a B + op a B := by
  unfold signedProd; rw [signedFactor_cast P Q R h]; exact gp_vector _ ha B

/-- **C10** The contraction by a vector is a graded derivation of the outer product. -/
theorem C10_derivation (h : P + Q + R ≤ 63) {a : MV K} (ha : Homogeneous 1 a) {r : Nat} {B : MV K}
    (hB : Homogeneous r B) (C : MV K) :
    signedProd P Q R .lcont a (op B C)
      = op (signedProd P Q R .lcont a B) C
        + (-1 : K) ^ r • op B (signedProd P Q R .lcont a C) := by
  unfold signedProd; rw [signedFactor_cast P Q R h]; exact lcont_derivation _ ha hB C

/-- **C10** Contracting by an outer product contracts twice. -/
theorem C10_lcont_op (h : P + Q + R ≤ 63) (A B C : MV K) :
    signedProd P Q R .lcont (op A B) C
      = signedProd P Q R .lcont A (signedProd P Q R .lcont B C) := by
  unfold signedProd; rw [signedFactor_cast P Q R h]; exact lcont_op _ A B C

/-- **C10** `lcont` is the adjoint of `op` for the scalar product. -/
theorem C10_sp_op (h : P + Q + R ≤ 63) (A B C : MV K) :
    signedProd P Q R .sp (op A B) C
      = signedProd P Q R .sp A (signedProd P Q R .lcont B C) := by
  unfold signedProd; rw [signedFactor_cast P Q R h]; exact sp_op _ A B C

/-- **C11** Right contraction is the reverse of left contraction. -/
theorem C11_rcont_reverse (A B : MV K) :
    signedProd P Q R .rcont A B = reverse (signedProd P Q R .lcont (reverse B) (reverse A)) :=
  rcont_reverse _ A B

/-- **C11** The scalar product is symmetric. -/
theorem C11_sp_comm (A B : MV K) : signedProd P Q R .sp A B = signedProd P Q R .sp B A :=
  sp_comm _ A B

/-- **C11** `dot = lcont + rcont - sp`. -/
theorem C11_dot (A B : MV K) :
    signedProd P Q R .dot A B
      = signedProd P Q R .lcont A B + signedProd P Q R .rcont A B - signedProd P Q R .sp A B :=
  dot_eq _ A B

/-- **C11** `hip` is `dot` of the operands without their scalar parts (so it agrees with `dot` when
neither operand has a scalar part). -/
theorem C11_hip (A B : MV K) :
    signedProd P Q R .hip A B
      = signedProd P Q R .dot (A - scalar (A 0)) (B - scalar (B 0)) :=
  hip_eq _ A B

/-- **C11** Contracting a scalar onto anything scales it. -/
theorem C11_lcont_scalar (h : P + Q + R ≤ 63) (a : K) (B : MV K) :
    signedProd P Q R .lcont (scalar a) B = a • B := by
  unfold signedProd; rw [signedFactor_cast P Q R h]; exact lcont_scalar _ (diagFactor_zero _) a B

example : Homogeneous 1 (e ℤ 0 + e ℤ 3) ∧ Homogeneous 2 (blade ℤ 0b1001) ∧ 2 + 1 + 1 ≤ 63 :=
  ⟨homog_add (homog_single _ (by decide)) (homog_single _ (by decide)),
   homog_single _ (by decide), by decide⟩

/-- **C12** The involutions multiply the part of grade `k` by `(-1)^(k(k-1)/2)`, `(-1)^k` and
`(-1)^(k(k+1)/2)`, for every blade. -/
theorem C12_signs (A : MV K) (b : Word) :
    reverse A b = (-1) ^ (gradeOf b * (gradeOf b - 1) / 2) * A b ∧
    involute A b = (-1) ^ gradeOf b * A b ∧
    conjugate A b = (-1) ^ (gradeOf b * (gradeOf b + 1) / 2) * A b := by
  rw [gradeOf_eq]
  exact ⟨reverse_apply A b, involute_apply A b, conjugate_apply A b⟩

/-- **C12** They are involutions. -/
theorem C12_involutive (A : MV K) :
    reverse (reverse A) = A ∧ involute (involute A) = A ∧ conjugate (conjugate A) = A :=
  ⟨reverse_reverse A, involute_involute A, conjugate_conjugate A⟩

/-- **C12** Reversion and conjugation are antiautomorphisms and involution is an automorphism of
the geometric product. -/
theorem C12_gp (A B : MV K) :
    reverse (signedProd P Q R .gp A B) = signedProd P Q R .gp (reverse B) (reverse A) ∧
    involute (signedProd P Q R .gp A B) = signedProd P Q R .gp (involute A) (involute B) ∧
    conjugate (signedProd P Q R .gp A B) = signedProd P Q R .gp (conjugate B) (conjugate A) := by
  unfold signedProd
  refine ⟨reverse_gp _ A B, involute_gp _ A B, ?_⟩
  rw [conjugate_eq, conjugate_eq, conjugate_eq, involute_gp, reverse_gp]

/-- **C12** The same for the outer product. -/
theorem C12_op (A B : MV K) :
    reverse (op A B) = op (reverse B) (reverse A) ∧
    involute (op A B) = op (involute A) (involute B) ∧
    conjugate (op A B) = op (conjugate B) (conjugate A) := by
  simp only [op_eq_gp_zero]
  refine ⟨reverse_gp _ A B, involute_gp _ A B, ?_⟩
  rw [conjugate_eq, conjugate_eq, conjugate_eq, involute_gp, reverse_gp]

example : reverse (blade ℤ 0b1011) 0b1011 = -1 ∧ conjugate (blade ℤ 0b11) 0b11 = -1 := by
  constructor
  · rw [reverse_apply]; simp [blade, show ones 11#64 = 3 by decide]
  · rw [conjugate_apply]; simp [blade, show ones 3#64 = 2 by decide]

end GATL.Props
