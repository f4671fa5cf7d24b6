import Verif.Proofs.Blades

/-!
# Parameters of blades

Helper lemmas: the expressions with which the location and the size of a round, a flat and a tangent are computed,
for blades and for their duals.
-/

namespace GATL

open Spec

section field
variable {K : Type*} [Field K] [DecidableEq K] (q : Fin 64 → K)

local notation "L" => orthProd (diagFactor q) GradedProduct.lcont
local notation "G" => orthProd (diagFactor q) GradedProduct.gp
local notation "S" => orthProd (diagFactor q) GradedProduct.sp

omit [DecidableEq K] in
theorem sign_sq (k : Nat) : (-1 : K) ^ k * (-1) ^ k = 1 := by rw [← mul_pow]; simp

omit [DecidableEq K] in
theorem sign_ne (k : Nat) : (-1 : K) ^ k ≠ 0 := pow_ne_zero _ (by simp)

/-- The inverse of a homogeneous multivector with scalar square. -/
theorem inverse_square {m : Nat} {W : MV K} {κ : K} (hW : Homogeneous m W) (h : G W W = scalar κ) (h0 : κ ≠ 0) :
    rnormSqr (orthProd (diagFactor q)) W ≠ 0 ∧
      (rnormSqr (orthProd (diagFactor q)) W)⁻¹ • reverse W = κ⁻¹ • W := by
  have hr : rnormSqr (orthProd (diagFactor q)) W = (-1 : K) ^ (m * (m - 1) / 2) * κ := by
    refine rnormSqr_of q ?_
    rw [reverse_homog hW, prod_smul_right, h]
    unfold scalar; rw [Finsupp.smul_single, smul_eq_mul]
  rw [hr, reverse_homog hW, smul_smul]
  have := sign_ne (K := K) (m * (m - 1) / 2)
  refine ⟨mul_ne_zero this h0, ?_⟩
  congr 1
  field_simp

theorem inverse_scalar {α : K} (h0 : α ≠ 0) :
    rnormSqr (orthProd (diagFactor q)) (scalar α) ≠ 0 ∧
      (rnormSqr (orthProd (diagFactor q)) (scalar α))⁻¹ • reverse (scalar α) = scalar α⁻¹ := by
  obtain ⟨h1, h2⟩ := inverse_square q (m := 0) (W := scalar α) (κ := α * α) (homog_single _ ones_zero)
    (by rw [gp_scalar_left]; unfold scalar; rw [Finsupp.smul_single, smul_eq_mul]) (mul_ne_zero h0 h0)
  refine ⟨h1, ?_⟩
  rw [h2]
  unfold scalar
  rw [Finsupp.smul_single, smul_eq_mul]
  congr 1
  field_simp

omit [DecidableEq K] in
theorem square_sp {X : MV K} {κ : K} (h : G X X = scalar κ) : S X X = scalar κ := by
  rw [Iso.sp_scalar, h, scalar_zero_apply]

omit [DecidableEq K] in
theorem scalar_inj {a b : K} (h : (scalar a : MV K) = scalar b) : a = b := by
  rw [← scalar_zero_apply a, h, scalar_zero_apply]

/-- The values from which the parameters of a round are computed. -/
structure RoundFacts (n X c : MV K) (ρ α : K) : Prop where
  ne : α ≠ 0
  aux : S (L n X) (L n X) = scalar α
  loc : G (G X n) X = (-(2 * α)) • c
  size : S X (involute X) = scalar (α * ρ)

omit [DecidableEq K] in
/-- A blade, with `n = P + R`, `P` inside and `R` outside. -/
theorem round_facts {m : Nat} {X P R c : MV K} {κ β ρ : K} (hX : Homogeneous m X)
    (hP : Homogeneous 1 P) (hR : Homogeneous 1 R)
    (h1 : op P X = 0) (h2 : L R X = 0) (hκ : G X X = scalar κ) (hκ0 : κ ≠ 0) (hβ : vdot q P P = β) (hβ0 : β ≠ 0)
    (hc : R - P = (2 * β) • c) (hρ : ρ = -β⁻¹) :
    RoundFacts q (P + R) X c ρ (-(-1 : K) ^ m * κ * β) where
  ne := mul_ne_zero (mul_ne_zero (neg_ne_zero.mpr (sign_ne m)) hκ0) hβ0
  aux := by rw [contraction_square q hX hP h1 h2 hκ, hβ]
  loc := by
    rw [sandwich q hX hP hR h1 h2 hκ, hc, smul_smul]
    congr 1; ring
  size := by
    rw [involute_homog hX, prod_smul_right, square_sp q hκ, hρ]
    unfold scalar
    rw [Finsupp.smul_single, smul_eq_mul]
    congr 1; field_simp

omit [DecidableEq K] in
/-- The square of `A ∧ n` for a null vector `n`. -/
theorem flat_square {n A U : MV K} (hn : Homogeneous 1 n) (h0 : vdot q n n = 0) (h : L n A = -U) :
    L n (op A n) = -op U n ∧ S (op A n) (op A n) = S U U := by
  have e : L n (op A n) = -op U n := by
    rw [lcont_op_involute q hn, h, lcont_vec_vec q hn hn]
    unfold vdot at h0
    rw [h0, ← neg_one_smul K U, op_smul_left, neg_one_smul]
    simp [scalar, op_zero_right]
  refine ⟨e, ?_⟩
  rw [sp_op, e, ← neg_one_smul K (op U n), prod_smul_right, sp_comm, sp_op, h, ← neg_one_smul K U, prod_smul_right,
    smul_smul]
  simp

omit [DecidableEq K] in
/-- The dual of a blade. -/
theorem dual_homog {N m : Nat} {I X : MV K} (hI : Homogeneous N I) (hX : Homogeneous m X) (hl : L X I = G X I) :
    Homogeneous (N - m) (G X I) := by
  rw [← hl]
  by_cases h : m ≤ N
  · rw [orthMul_gradePart (diagFactor q) .lcont hX hI ((N - m : Nat) : Int) (fun t => by
      simp only [areValidGrades, decide_eq_true_eq]; omega)]
    exact gradePart_homog _ _
  · rw [orthMul_gradePart (diagFactor q) .lcont hX hI ((N : Int) - m) (fun t => by
      simp only [areValidGrades, decide_eq_true_eq]; omega)]
    have e : gradePart ((N : Int) - m) (G X I) = 0 := by
      ext b
      unfold gradePart
      rw [Finsupp.filter_apply]
      split_ifs with hb
      · exfalso; omega
      · rfl
    rw [e]
    intro b hb
    exact absurd rfl hb

omit [DecidableEq K] in
theorem dual_square {N m : Nat} {I X : MV K} {ι κ : K} (hI : Homogeneous N I) (hX : Homogeneous m X)
    (hl : L X I = G X I) (hι : G I I = scalar ι) (hι0 : ι ≠ 0) (hκ : G X X = scalar κ) (hκ0 : κ ≠ 0) :
    ∃ κ', κ' ≠ 0 ∧ G (G X I) (G X I) = scalar κ' := by
  have hY := dual_homog q hI hX hl
  have e : reverse (G X I) = G (reverse I) (reverse X) := reverse_gp _ _ _
  rw [reverse_homog hY, reverse_homog hI, reverse_homog hX, prod_smul_left, prod_smul_right, smul_smul] at e
  generalize ha : (-1 : K) ^ ((N - m) * (N - m - 1) / 2) = a at e
  generalize hb : (-1 : K) ^ (N * (N - 1) / 2) * (-1 : K) ^ (m * (m - 1) / 2) = b at e
  have haa : a * a = 1 := by rw [← ha]; exact sign_sq _
  have hb0 : b ≠ 0 := by rw [← hb]; exact mul_ne_zero (sign_ne _) (sign_ne _)
  have ha0 : a ≠ 0 := by rw [← ha]; exact sign_ne _
  refine ⟨a * b * (ι * κ), mul_ne_zero (mul_ne_zero ha0 hb0) (mul_ne_zero hι0 hκ0), ?_⟩
  have e2 : G X I = (a * b) • G I X := by rw [mul_smul, ← e, smul_smul, haa, one_smul]
  have e3 : G (G X I) (G X I) = (a * b) • G (G I X) (G X I) := by
    conv_lhs => rw [e2]
    rw [prod_smul_left, ← e2]
  rw [e3, gp_assoc, ← gp_assoc q X, hκ, gp_scalar_left, prod_smul_right, hι, smul_smul]
  unfold scalar
  rw [Finsupp.smul_single, smul_eq_mul]
  congr 1; ring

omit [DecidableEq K] in
/-- The dual of a multiple of a null vector. -/
theorem round_facts_dual_point {N : Nat} {I n p : MV K} {ι w : K} (hI : Homogeneous N I) (hp : Homogeneous 1 p)
    (hn : Homogeneous 1 n) (hpI : op p I = 0) (hnI : op n I = 0) (hι : G I I = scalar ι) (hι0 : ι ≠ 0)
    (hpp : vdot q p p = 0) (hnp : vdot q n p = -1) (hw : w ≠ 0) :
    RoundFacts q n (G (w • p) I) p 0 (w * w * ι) := by
  have cp := comm_inside q hI hp hpI
  have cn := comm_inside q hI hn hnI
  have hs := sign_sq (K := K) N
  generalize (-1 : K) ^ N = s at cp cn hs
  have pp : G p p = 0 := by rw [gp_vec_self q hp, hpp]; simp [scalar]
  have hIp : ∀ A, G I (G p A) = -s • G p (G I A) := by
    intro A; rw [← gp_assoc, cp, prod_smul_left, gp_assoc]
  have hIn : ∀ A, G I (G n A) = -s • G n (G I A) := by
    intro A; rw [← gp_assoc, cn, prod_smul_left, gp_assoc]
  have hpn : ∀ A, G p (G n A) = (-2 : K) • A - G n (G p A) := by
    intro A
    rw [gp_swap q hp hn, vdot_comm q hp hn, hnp]
    congr 2; ring
  have hp2 : ∀ A, G p (G p A) = 0 := by intro A; rw [← gp_assoc, pp, prod_zero_left]
  have hLn : L n (G (w • p) I) = w • (G n (G p I) + I) := by
    rw [← gp_op_inside q hn hnI, op_smul_right, prod_smul_left, op_gp q hn, lcont_vec_vec q hn hp]
    unfold vdot at hnp
    rw [hnp, prod_sub_left, gp_scalar_left, gp_assoc]
    congr 1
    rw [neg_one_smul, sub_neg_eq_add]
  refine ⟨mul_ne_zero (mul_ne_zero hw hw) hι0, ?_, ?_, ?_⟩
  · rw [hLn, Iso.sp_scalar]
    congr 1
    have : G (w • (G n (G p I) + I)) (w • (G n (G p I) + I)) = scalar (w * w * ι) := by
      simp only [prod_smul_left, prod_smul_right, prod_add_left, prod_add_right, gp_assoc, hIn, hIp, hpn, hι,
        gp_scalar_right, pp, prod_zero_right, sub_zero]
      simp only [smul_add, smul_smul]
      have e1 : w * (w * (-s * (-s * (ι * -2)))) = -2 * (w * w * ι) := by linear_combination (-2 * w * w * ι) * hs
      have e2 : w * (w * (-s * (-s * ι))) = w * w * ι := by linear_combination (w * w * ι) * hs
      rw [e1, e2, ← add_assoc, ← add_smul, ← add_smul]
      have e3 : -2 * (w * w * ι) + w * w * ι + w * (w * ι) = 0 := by ring
      rw [e3, zero_smul, zero_add]
      unfold scalar
      rw [Finsupp.smul_single, smul_eq_mul]
    rw [this, scalar_zero_apply]
  · simp only [prod_smul_left, prod_smul_right, gp_assoc, hIn, hIp, hpn, pp, hι, gp_scalar_right, smul_smul,
      prod_zero_right, sub_zero]
    congr 1
    linear_combination (-2 * w * w * ι) * hs
  · rw [involute_gp, involute_smul, Iso.involute_vec hp, involute_homog hI]
    simp only [Iso.sp_scalar, prod_smul_left, prod_smul_right, prod_neg_left, prod_neg_right, gp_assoc, hIp, hp2,
      smul_zero]
    simp [scalar]

end field

end GATL
