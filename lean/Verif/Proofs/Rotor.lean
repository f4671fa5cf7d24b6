import Verif.Proofs.Blades
import Verif.Proofs.ExpSeries
import Verif.Proofs.Project
import Verif.Spec.Rotor

/-!
# Rotors: exponentials of the product of two orthogonal vectors
-/

namespace GATL

open Spec

variable (q : Fin 64 → ℝ)

local notation "G" => orthProd (diagFactor q) GradedProduct.gp

section
variable {q} {u w : MV ℝ} (hu : Homogeneous 1 u) (hw : Homogeneous 1 w) (h : vdot q u w = 0)
include hu hw h

theorem rotor_swap : G w u = - G u w := by
  rw [gp_vec_swap q hw hu, vdot_comm q hw hu, h]
  simp [scalar]

theorem rotor_op : op u w = G u w := by
  rw [gp_vec_vec q hu hw, h]; simp [scalar]

theorem rotor_left : G u (G u w) = vdot q u u • w := by
  rw [← gp_assoc, gp_vec_self q hu, gp_scalar_left]

theorem rotor_right : G (G u w) w = vdot q w w • u := by
  rw [gp_assoc, gp_vec_self q hw, gp_scalar_right]

theorem rotor_left' : G w (G u w) = - (vdot q w w • u) := by
  rw [← gp_assoc, rotor_swap hu hw h, ← neg_one_smul ℝ, prod_smul_left, rotor_right hu hw h, neg_one_smul]

theorem rotor_square : G (G u w) (G u w) = scalar (-(vdot q u u * vdot q w w)) := by
  rw [gp_assoc, rotor_left' hu hw h, ← smul_neg, prod_smul_right, ← neg_one_smul ℝ u, prod_smul_right, gp_vec_self q hu]
  unfold scalar
  simp only [Finsupp.smul_single, smul_eq_mul]
  congr 1; ring

theorem rotor_reverse : reverse (G u w) = - G u w := by
  rw [reverse_gp, Iso.reverse_vec hu, Iso.reverse_vec hw, rotor_swap hu hw h]

/-- The plane `u w` and a vector commute up to a vector of the plane. -/
theorem rotor_commute {x : MV ℝ} (hx : Homogeneous 1 x) :
    G (G u w) x = G x (G u w) + 2 • (vdot q w x • u - vdot q u x • w) := by
  rw [gp_assoc, gp_vec_swap q hw hx, prod_sub_right, gp_scalar_right, ← gp_assoc, gp_vec_swap q hu hx, prod_sub_left,
    gp_scalar_left, gp_assoc]
  module

theorem rotor_unit {c k : ℝ} (hk : c ^ 2 + k ^ 2 * (vdot q u u * vdot q w w) = 1) :
    G (scalar c + k • G u w) (scalar c - k • G u w) = scalar 1 ∧
      G (scalar c - k • G u w) (scalar c + k • G u w) = scalar 1 := by
  have key : ∀ k : ℝ, c ^ 2 + k ^ 2 * (vdot q u u * vdot q w w) = 1 →
      G (scalar c + k • G u w) (scalar c - k • G u w) = scalar 1 := by
    intro k hk
    rw [prod_sub_right, gp_scalar_right, prod_smul_right, prod_add_left, gp_scalar_left, prod_smul_left, rotor_square hu hw h,
      ← hk]
    unfold scalar
    simp only [smul_add, Finsupp.smul_single, smul_eq_mul]
    rw [show c ^ 2 + k ^ 2 * (vdot q u u * vdot q w w) = c * c - k * (k * -(vdot q u u * vdot q w w)) by ring,
      Finsupp.single_sub, smul_comm k c]
    abel
  refine ⟨key k hk, ?_⟩
  have := key (-k) (by rw [neg_sq]; exact hk)
  rwa [neg_smul, sub_neg_eq_add, ← sub_eq_add_neg] at this

/-- The action of the rotor `c + k u w` on vectors. -/
theorem rotor_action {c k : ℝ} (hk : c ^ 2 + k ^ 2 * (vdot q u u * vdot q w w) = 1) {x : MV ℝ} (hx : Homogeneous 1 x) :
    G (G (scalar c + k • G u w) x) (scalar c - k • G u w) =
      x + (2 * k * c) • (vdot q w x • u - vdot q u x • w)
        - (2 * k ^ 2) • ((vdot q u x * vdot q w w) • u + (vdot q w x * vdot q u u) • w) := by
  have e1 : G (scalar c + k • G u w) x = G x (scalar c + k • G u w) + (2 * k) • (vdot q w x • u - vdot q u x • w) := by
    rw [prod_add_left, prod_add_right, gp_scalar_left, gp_scalar_right, prod_smul_left, prod_smul_right, rotor_commute hu hw h hx]
    module
  have e2 := (rotor_unit hu hw h hk).1
  rw [e1, prod_add_left, gp_assoc, e2, gp_scalar_right, one_smul, prod_sub_right, gp_scalar_right, prod_smul_right,
    prod_smul_left, prod_sub_left, prod_smul_left, prod_smul_left, rotor_left hu hw h, rotor_left' hu hw h]
  module

theorem rotor_conj (c k : ℝ) : reverse (scalar c + k • G u w) = scalar c - k • G u w := by
  rw [reverse_add, reverse_smul, rotor_reverse hu hw h]
  have : reverse (scalar c) = scalar c := by
    unfold scalar
    rw [reverse_single, par_zero_left]
    simp
  rw [this, smul_neg, sub_eq_add_neg]

end

/-- `A ↦ V A W`. -/
noncomputable def conjBy (V W : MV ℝ) : MV ℝ →ₗ[ℝ] MV ℝ where
  toFun A := G (G V A) W
  map_add' A B := by rw [prod_add_right, prod_add_left]
  map_smul' a A := by rw [prod_smul_right, prod_smul_left]; rfl

variable {q}

theorem conjBy_apply (V W A : MV ℝ) : conjBy q V W A = G (G V A) W := rfl

theorem conjBy_mul {V W : MV ℝ} (h2 : G W V = scalar 1) (A B : MV ℝ) :
    conjBy q V W (G A B) = G (conjBy q V W A) (conjBy q V W B) := by
  simp only [conjBy_apply]
  rw [gp_assoc q (G V A), gp_assoc q V B, ← gp_assoc q W, h2, gp_scalar_left, one_smul]
  simp only [gp_assoc]

theorem conjBy_scalar {V W : MV ℝ} (h1 : G V W = scalar 1) (c : ℝ) : conjBy q V W (scalar c) = scalar c := by
  rw [conjBy_apply, gp_scalar_right, prod_smul_left, h1]
  unfold scalar
  rw [Finsupp.smul_single, smul_eq_mul, mul_one]

/-- Conjugation by `V` is an isometry, if it maps vectors to vectors. -/
theorem conjBy_iso {V W : MV ℝ} (h1 : G V W = scalar 1) (h2 : G W V = scalar 1)
    (hv : ∀ x, Homogeneous 1 x → Homogeneous 1 (conjBy q V W x)) : Iso q (conjBy q V W) := by
  refine ⟨conjBy_mul h2, conjBy_scalar h1 1, hv, fun a x ha hx => ?_⟩
  have e1 := conjBy_mul h2 a x
  rw [gp_vec_swap q ha hx, map_sub, conjBy_scalar h1, conjBy_mul h2, gp_vec_swap q (hv a ha) (hv x hx)] at e1
  have := Finsupp.single_injective (0 : Word) (sub_left_injective e1)
  change vdot q _ _ = vdot q a x
  linarith

/-! ### Exponentials of planes -/

variable {P Q R : Nat}

/-- The squares of the basis vectors. -/
noncomputable abbrev sqs (P Q R : Nat) : Fin 64 → ℝ := fun i => ((signature P Q R i : Int) : ℝ)

theorem signed_sqs (h : P + Q + R ≤ 63) : (signedProd P Q R : Metric ℝ) = orthProd (diagFactor (sqs P Q R)) := by
  funext g A B
  unfold signedProd
  rw [signedFactor_cast P Q R h]

theorem vecDot_eq (h : P + Q + R ≤ 63) {a b : MV ℝ} (ha : Homogeneous 1 a) (hb : Homogeneous 1 b) :
    vecDot P Q R a b = vdot (sqs P Q R) a b := by
  unfold vecDot
  rw [signed_sqs h, Iso.sp_scalar]
  unfold vdot
  rw [lcont_same _ ha hb]

theorem exponential_unique {B E E' : MV ℝ} (h : IsExponential P Q R B E) (h' : IsExponential P Q R B E') : E = E' := by
  ext b
  exact (h b).unique (h' b)

section
variable {u w E : MV ℝ} (hN : P + Q + R ≤ 63) (hu : Homogeneous 1 u) (hw : Homogeneous 1 w)
  (h : vecDot P Q R u w = 0)
include hN hu hw h

/-- The exponential of the plane of two orthogonal vectors. -/
theorem plane_exponential {t x y c k : ℝ} (hx : x = -(t ^ 2 * (vecDot P Q R u u * vecDot P Q R w w))) (hy : y ^ 2 = |x|)
    (hE : IsExponential P Q R (t • op u w) E) (hc : cosCoef x y 0 = c) (hk : sinCoef x y 0 * t = k) :
    E = scalar c + k • orthProd (diagFactor (sqs P Q R)) .gp u w ∧
      c ^ 2 + k ^ 2 * (vdot (sqs P Q R) u u * vdot (sqs P Q R) w w) = 1 := by
  have hd : (0 : ℝ) < |x| ∨ x = 0 := by
    by_cases h0 : x = 0
    · exact .inr h0
    · exact .inl (abs_pos.2 h0)
  rw [vecDot_eq hN hu hw] at h
  rw [vecDot_eq hN hu hu, vecDot_eq hN hw hw] at hx
  have hs : signedProd P Q R .gp (t • op u w) (t • op u w) = Finsupp.single 0 x := by
    rw [signed_sqs hN, rotor_op hu hw h, prod_smul_left, prod_smul_right, rotor_square hu hw h, hx]
    unfold scalar
    simp only [Finsupp.smul_single, smul_eq_mul]
    congr 1; ring
  obtain ⟨h1, h2⟩ := series_coef hy hd le_rfl
  have e := exponential_unique hE (exponential_of hN hs h1 h2)
  have hid := coef_identity hy hd le_rfl
  refine ⟨?_, ?_⟩
  · rw [e, hc, smul_smul, hk, rotor_op hu hw h]; rfl
  · rw [← hid, hc, ← hk, hx]; ring

theorem exponential_form {t : ℝ} (hE : IsExponential P Q R (t • op u w) E) :
    ∃ c k : ℝ, E = scalar c + k • orthProd (diagFactor (sqs P Q R)) .gp u w ∧
      c ^ 2 + k ^ 2 * (vdot (sqs P Q R) u u * vdot (sqs P Q R) w w) = 1 :=
  ⟨_, _, plane_exponential hN hu hw h rfl (Real.sq_sqrt (abs_nonneg _)) hE rfl rfl⟩

/-- What the rotor does to vectors. -/
theorem applyRotor_vector {c k : ℝ} (hE : E = scalar c + k • orthProd (diagFactor (sqs P Q R)) .gp u w ∧
      c ^ 2 + k ^ 2 * (vdot (sqs P Q R) u u * vdot (sqs P Q R) w w) = 1) {x : MV ℝ} (hx : Homogeneous 1 x) :
    applyRotor (signedProd P Q R) E x =
      x + (2 * k * c) • (vecDot P Q R w x • u - vecDot P Q R u x • w)
        - (2 * k ^ 2) • ((vecDot P Q R u x * vecDot P Q R w w) • u + (vecDot P Q R w x * vecDot P Q R u u) • w) := by
  rw [vecDot_eq hN hu hw] at h
  rw [vecDot_eq hN hu hx, vecDot_eq hN hw hx, vecDot_eq hN hu hu, vecDot_eq hN hw hw]
  unfold applyRotor
  rw [signed_sqs hN, hE.1, rotor_conj hu hw h]
  exact rotor_action hu hw h hE.2 hx

theorem rotor_isometry {t : ℝ} (hE : IsExponential P Q R (t • op u w) E) :
    signedProd P Q R .gp E (reverse E) = scalar 1 ∧ signedProd P Q R .gp (reverse E) E = scalar 1 ∧
    ∃ F : MV ℝ →ₗ[ℝ] MV ℝ, Iso (sqs P Q R) F ∧ ∀ A, F A = applyRotor (signedProd P Q R) E A := by
  obtain ⟨c, k, hE⟩ := exponential_form hN hu hw h hE
  have h' := h
  rw [vecDot_eq hN hu hw] at h'
  obtain ⟨h1, h2⟩ := rotor_unit hu hw h' hE.2
  rw [signed_sqs hN]
  have hr : reverse E = scalar c - k • orthProd (diagFactor (sqs P Q R)) .gp u w := by rw [hE.1, rotor_conj hu hw h']
  refine ⟨by rw [hr, hE.1, h1], by rw [hr, hE.1, h2], conjBy (sqs P Q R) E (reverse E), ?_, fun A => rfl⟩
  refine conjBy_iso (by rw [hr, hE.1, h1]) (by rw [hr, hE.1, h2]) fun x hx => ?_
  have := applyRotor_vector hN hu hw h hE hx
  unfold applyRotor at this
  rw [signed_sqs hN] at this
  rw [conjBy_apply, this]
  exact Iso.homog_sub (homog_add hx (homog_smul _ (Iso.homog_sub (homog_smul _ hu) (homog_smul _ hw))))
      (homog_smul _ (homog_add (homog_smul _ hu) (homog_smul _ hw)))

theorem applyRotor_rotated {θ : ℝ} (h1 : vecDot P Q R u u = 1) (h2 : vecDot P Q R w w = 1)
    (hE : IsExponential P Q R ((-(θ / 2)) • op u w) E) {x : MV ℝ} (hx : Homogeneous 1 x) :
    applyRotor (signedProd P Q R) E x = rotated P Q R θ u w x := by
  have hc : cosCoef (-(θ / 2) ^ 2) (θ / 2) 0 = Real.cos (θ / 2) := by
    unfold cosCoef
    split_ifs with ha hb
    · have : θ / 2 = 0 := by simpa using ha
      rw [this, Real.cos_zero]
    · rfl
    · exact absurd (by have := sq_nonneg (θ / 2); linarith) hb
  have hk : sinCoef (-(θ / 2) ^ 2) (θ / 2) 0 * (-(θ / 2)) = -Real.sin (θ / 2) := by
    unfold sinCoef
    split_ifs with ha hb
    · have : θ / 2 = 0 := by simpa using ha
      rw [this, Real.sin_zero]; ring
    · have : θ / 2 ≠ 0 := by rintro h0; exact ha (by rw [h0]; simp)
      linear_combination (-Real.sin (θ / 2)) * inv_mul_cancel₀ this
    · exact absurd (by have := sq_nonneg (θ / 2); linarith) hb
  have hf := plane_exponential hN hu hw h (by rw [h1, h2]; ring) (by rw [abs_neg, abs_of_nonneg (sq_nonneg _)]) hE hc hk
  rw [applyRotor_vector hN hu hw h hf hx, h1, h2]
  have e1 : 2 * -Real.sin (θ / 2) * Real.cos (θ / 2) = -Real.sin θ := by
    have := Real.sin_two_mul (θ / 2)
    rw [mul_div_cancel₀ θ two_ne_zero] at this
    rw [this]; ring
  have e2 : 2 * (-Real.sin (θ / 2)) ^ 2 = 1 - Real.cos θ := by
    have := Real.cos_two_mul (θ / 2)
    rw [mul_div_cancel₀ θ two_ne_zero] at this
    have := Real.sin_sq_add_cos_sq (θ / 2)
    linarith
  rw [e1, e2]
  unfold rotated
  module

theorem applyRotor_boosted {θ : ℝ} (h1 : vecDot P Q R u u = 1) (h2 : vecDot P Q R w w = -1)
    (hE : IsExponential P Q R ((-(θ / 2)) • op u w) E) {x : MV ℝ} (hx : Homogeneous 1 x) :
    applyRotor (signedProd P Q R) E x = boosted P Q R θ u w x := by
  have hc : cosCoef ((θ / 2) ^ 2) (θ / 2) 0 = Real.cosh (θ / 2) := by
    unfold cosCoef
    split_ifs with ha hb
    · have : θ / 2 = 0 := by simpa using ha
      rw [this, Real.cosh_zero]
    · exact absurd (by rw [abs_of_nonneg (sq_nonneg _)]; exact hb) ha
    · rfl
  have hk : sinCoef ((θ / 2) ^ 2) (θ / 2) 0 * (-(θ / 2)) = -Real.sinh (θ / 2) := by
    unfold sinCoef
    split_ifs with ha hb
    · have : θ / 2 = 0 := by simpa using ha
      rw [this, Real.sinh_zero]; ring
    · exact absurd (by rw [abs_of_nonneg (sq_nonneg _)]; exact hb) ha
    · have : θ / 2 ≠ 0 := by rintro h0; exact ha (by rw [h0]; simp)
      linear_combination (-Real.sinh (θ / 2)) * inv_mul_cancel₀ this
  have hf := plane_exponential hN hu hw h (by rw [h1, h2]; ring) (by rw [abs_of_nonneg (sq_nonneg _)]) hE hc hk
  rw [applyRotor_vector hN hu hw h hf hx, h1, h2]
  have e1 : 2 * -Real.sinh (θ / 2) * Real.cosh (θ / 2) = -Real.sinh θ := by
    have := Real.sinh_two_mul (θ / 2)
    rw [mul_div_cancel₀ θ two_ne_zero] at this
    rw [this]; ring
  have e2 : 2 * (-Real.sinh (θ / 2)) ^ 2 = Real.cosh θ - 1 := by
    have h3 := Real.cosh_two_mul (θ / 2)
    rw [mul_div_cancel₀ θ two_ne_zero] at h3
    have h4 := Real.cosh_sq_sub_sinh_sq (θ / 2)
    linarith
  rw [e1, e2]
  unfold boosted
  module

theorem applyRotor_sheared {θ : ℝ} (h2 : vecDot P Q R w w = 0)
    (hE : IsExponential P Q R ((-(θ / 2)) • op u w) E) {x : MV ℝ} (hx : Homogeneous 1 x) :
    applyRotor (signedProd P Q R) E x = sheared P Q R θ u w x := by
  have hc : cosCoef 0 0 0 = 1 := by simp [cosCoef]
  have hk : sinCoef 0 0 0 * (-(θ / 2)) = -(θ / 2) := by simp [sinCoef]
  have hf := plane_exponential hN hu hw h (by rw [h2]; ring) (by simp) hE hc hk
  rw [applyRotor_vector hN hu hw h hf hx, h2]
  unfold sheared
  module

end

end GATL
