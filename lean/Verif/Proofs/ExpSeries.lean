import Verif.Proofs.ExpType
import Mathlib.Analysis.SpecialFunctions.Trigonometric.Series

/-!
The exponential series of a multivector with a scalar square, and the exponential of a scalar.
-/

namespace GATL

open Expr Spec

variable {ρ outer : Env} {τ : Types} {N n k L U P Q R : Nat}

theorem signed_scalar_right (hN : P + Q + R ≤ 63) (A : MV ℝ) (c : ℝ) :
    signedProd P Q R .gp A (Finsupp.single 0 c) = c • A := by
  unfold signedProd
  rw [signedFactor_cast P Q R hN]
  exact gp_scalar_right _ c A

theorem signed_scalar_left (hN : P + Q + R ≤ 63) (A : MV ℝ) (c : ℝ) :
    signedProd P Q R .gp (Finsupp.single 0 c) A = c • A := by
  unfold signedProd
  rw [signedFactor_cast P Q R hN]
  exact gp_scalar_left _ c A

theorem gpow_pair (hN : P + Q + R ≤ 63) {B : MV ℝ} {s : ℝ} (hs : signedProd P Q R .gp B B = Finsupp.single 0 s) (m : ℕ) :
    gpow P Q R B (2 * m) = Finsupp.single 0 (s ^ m) ∧ gpow P Q R B (2 * m + 1) = s ^ m • B := by
  induction m with
  | zero => exact ⟨by simp [gpow], by rw [gpow]; simp only [Nat.mul_zero, gpow, signed_scalar_right hN, pow_zero]⟩
  | succ m ih =>
    have h1 : gpow P Q R B (2 * (m + 1)) = Finsupp.single 0 (s ^ (m + 1)) := by
      rw [show 2 * (m + 1) = (2 * m + 1) + 1 by ring, gpow, ih.2]
      have : signedProd P Q R .gp B (s ^ m • B) = s ^ m • signedProd P Q R .gp B B := by
        unfold signedProd; rw [prod_smul_right]
      rw [this, hs, Finsupp.smul_single, smul_eq_mul, pow_succ]
    exact ⟨h1, by rw [gpow, h1, signed_scalar_right hN]⟩

theorem single_scale (c : ℝ) (b : Word) : (Finsupp.single 0 c : MV ℝ) b = c * (Finsupp.single 0 1 : MV ℝ) b := by
  rw [← smul_eq_mul, ← Finsupp.smul_apply, Finsupp.smul_single, smul_eq_mul, mul_one]

theorem exponential_of {B : MV ℝ} (hN : P + Q + R ≤ 63) {s C S : ℝ} (hs : signedProd P Q R .gp B B = Finsupp.single 0 s)
    (hC : HasSum (fun m : ℕ => s ^ m / ((2 * m).factorial : ℝ)) C)
    (hS : HasSum (fun m : ℕ => s ^ m / ((2 * m + 1).factorial : ℝ)) S) :
    IsExponential P Q R B (Finsupp.single 0 C + S • B) := by
  intro b
  rw [Finsupp.add_apply, Finsupp.smul_apply, smul_eq_mul]
  refine HasSum.even_add_odd ?_ ?_
  · have : (fun m : ℕ => (((2 * m).factorial : ℝ))⁻¹ * gpow P Q R B (2 * m) b) =
        fun m : ℕ => s ^ m / ((2 * m).factorial : ℝ) * (Finsupp.single 0 1 : MV ℝ) b := by
      funext m
      rw [(gpow_pair hN hs m).1]
      rw [single_scale (s ^ m)]
      ring
    rw [this]
    rw [single_scale C]
    exact hC.mul_right _
  · have : (fun m : ℕ => (((2 * m + 1).factorial : ℝ))⁻¹ * gpow P Q R B (2 * m + 1) b) =
        fun m : ℕ => s ^ m / ((2 * m + 1).factorial : ℝ) * B b := by
      funext m
      rw [(gpow_pair hN hs m).2, Finsupp.smul_apply, smul_eq_mul]
      ring
    rw [this]
    exact hS.mul_right _

theorem hasSum_zero_pow (f : ℕ → ℝ) (h : f 0 = 1) : HasSum (fun m : ℕ => (0 : ℝ) ^ m / f m) 1 := by
  have := hasSum_single (f := fun m : ℕ => (0 : ℝ) ^ m / f m) 0 (by
    intro m hm
    simp [zero_pow hm])
  simpa [h] using this

theorem series_coef {x y tol : ℝ} (hy : y ^ 2 = |x|) (h : tol < |x| ∨ x = 0) (h0 : 0 ≤ tol) :
    HasSum (fun m : ℕ => x ^ m / ((2 * m).factorial : ℝ)) (cosCoef x y tol) ∧
      HasSum (fun m : ℕ => x ^ m / ((2 * m + 1).factorial : ℝ)) (sinCoef x y tol) := by
  rcases h with h | rfl
  · have h' : ¬ |x| ≤ tol := not_le.2 h
    have hy0 : y ≠ 0 := by
      rintro rfl
      have : |x| = 0 := by rw [← hy]; norm_num
      linarith
    by_cases hx : x ≤ 0
    · have ex : x = -(y ^ 2) := by rw [hy, abs_of_nonpos hx]; ring
      simp only [cosCoef, sinCoef, h', hx, if_true, if_false]
      constructor
      · have e : (fun m : ℕ => x ^ m / ((2 * m).factorial : ℝ)) =
            fun m : ℕ => (-1) ^ m * y ^ (2 * m) / ((2 * m).factorial : ℝ) := by
          funext m
          rw [ex, neg_pow, ← pow_mul]
        rw [e]
        exact Real.hasSum_cos y
      · have e : (fun m : ℕ => x ^ m / ((2 * m + 1).factorial : ℝ)) =
            fun m : ℕ => (-1) ^ m * y ^ (2 * m + 1) / ((2 * m + 1).factorial : ℝ) * y⁻¹ := by
          funext m
          rw [ex, neg_pow, ← pow_mul]
          field_simp
          ring
        rw [e]
        exact (Real.hasSum_sin y).mul_right _
    · have ex : x = y ^ 2 := by rw [hy, abs_of_pos (not_le.1 hx)]
      simp only [cosCoef, sinCoef, h', hx, if_false]
      constructor
      · have e : (fun m : ℕ => x ^ m / ((2 * m).factorial : ℝ)) =
            fun m : ℕ => y ^ (2 * m) / ((2 * m).factorial : ℝ) := by
          funext m
          rw [ex, ← pow_mul]
        rw [e]
        exact Real.hasSum_cosh y
      · have e : (fun m : ℕ => x ^ m / ((2 * m + 1).factorial : ℝ)) =
            fun m : ℕ => y ^ (2 * m + 1) / ((2 * m + 1).factorial : ℝ) * y⁻¹ := by
          funext m
          rw [ex, ← pow_mul]
          field_simp
          ring
        rw [e]
        exact (Real.hasSum_sinh y).mul_right _
  · simp only [cosCoef, sinCoef, abs_zero, h0, if_true]
    exact ⟨hasSum_zero_pow _ (by simp), hasSum_zero_pow _ (by simp)⟩

/-- The coefficients satisfy the identity that makes `exp(-B)` the inverse of `exp(B)`. -/
theorem coef_identity {x y tol : ℝ} (hy : y ^ 2 = |x|) (h : tol < |x| ∨ x = 0) (h0 : 0 ≤ tol) :
    cosCoef x y tol ^ 2 - sinCoef x y tol ^ 2 * x = 1 := by
  rcases h with h | rfl
  · have h' : ¬ |x| ≤ tol := not_le.2 h
    have hy0 : y ≠ 0 := by
      rintro rfl
      have : |x| = 0 := by rw [← hy]; norm_num
      linarith
    by_cases hx : x ≤ 0
    · have ex : x = -(y ^ 2) := by rw [hy, abs_of_nonpos hx]; ring
      simp only [cosCoef, sinCoef, h', hx, if_true, if_false]
      have := Real.cos_sq_add_sin_sq y
      rw [ex]
      field_simp
      linear_combination this
    · have ex : x = y ^ 2 := by rw [hy, abs_of_pos (not_le.1 hx)]
      simp only [cosCoef, sinCoef, h', hx, if_false]
      have := Real.cosh_sq_sub_sinh_sq y
      rw [ex]
      field_simp
      linear_combination this
  · simp [cosCoef, h0]

/-- The coefficients do not depend on the sign of the square root. -/
theorem coef_root {x y tol : ℝ} (hy : y ^ 2 = |x|) :
    cosCoef x y tol = cosCoef x √|x| tol ∧ sinCoef x y tol = sinCoef x √|x| tol := by
  rw [← hy, Real.sqrt_sq_eq_abs]
  rcases abs_cases y with ⟨h, -⟩ | ⟨h, -⟩ <;> rw [h]
  · exact ⟨rfl, rfl⟩
  · simp only [cosCoef, sinCoef, Real.cos_neg, Real.cosh_neg, Real.sin_neg, Real.sinh_neg, inv_neg, neg_mul_neg, and_self]

/-- `exp(B) exp(-B) = 1`. -/
theorem exp_inverse (hN : P + Q + R ≤ 63) {B : MV ℝ} {s c w : ℝ}
    (hs : signedProd P Q R .gp B B = Finsupp.single 0 s) (h : c ^ 2 - w ^ 2 * s = 1) :
    signedProd P Q R .gp (Finsupp.single 0 c + w • B) (Finsupp.single 0 c + w • -B) = Finsupp.single 0 1 := by
  have e1 : signedProd P Q R .gp (Finsupp.single 0 c + w • B) (Finsupp.single 0 c + w • -B) =
      c • (Finsupp.single 0 c + w • B) - w • (c • B + w • signedProd P Q R .gp B B) := by
    have hl := fun (A : MV ℝ) c => signed_scalar_left hN A c
    have hr := fun (A : MV ℝ) c => signed_scalar_right hN A c
    unfold signedProd at hl hr ⊢
    rw [smul_neg, ← neg_smul, prod_add_right, hr, prod_smul_right, prod_add_left, hl, prod_smul_left, neg_smul]
    abel
  rw [e1, hs]
  simp only [smul_add, Finsupp.smul_single, smul_eq_mul]
  rw [← h]
  rw [show c ^ 2 - w ^ 2 * s = c * c - w * (w * s) by ring, Finsupp.single_sub, smul_comm w c B]
  abel

theorem scalar_exponential (hN : P + Q + R ≤ 63) (x : ℝ) :
    IsExponential P Q R (Finsupp.single 0 x) (Finsupp.single 0 (Real.exp x)) := by
  have hp : ∀ m, gpow P Q R (Finsupp.single 0 x) m = Finsupp.single 0 (x ^ m) := by
    intro m
    induction m with
    | zero => simp [gpow]
    | succ m ih => rw [gpow, ih, signed_scalar_left hN, Finsupp.smul_single, smul_eq_mul, pow_succ']
  intro b
  have e : (fun m : ℕ => (m.factorial : ℝ)⁻¹ * gpow P Q R (Finsupp.single 0 x) m b) =
      fun m : ℕ => x ^ m / (m.factorial : ℝ) * (Finsupp.single 0 1 : MV ℝ) b := by
    funext m
    rw [hp, single_scale (x ^ m)]
    ring
  rw [e, single_scale (Real.exp x)]
  have := (NormedSpace.expSeries_div_hasSum_exp x).mul_right ((Finsupp.single 0 1 : MV ℝ) b)
  rwa [← Real.exp_eq_exp_ℝ] at this

/-- The exponential of a scalar. -/
theorem exp_scalar_call (hN : N ≤ 62) {M o : Object} {x : ℝ} (hM : Represents outer N M (Finsupp.single 0 x))
    (he : ∃ c, M.expr = [⟨c, .const 0⟩]) (h : expScalar k τ outer M = some o) :
    Reads outer N o.expr o.values o.bitsets (Finsupp.single 0 (Real.exp x)) ∧
      (M.expr = [⟨.stored, .const 0⟩] → Represents outer N o (Finsupp.single 0 (Real.exp x))) := by
  obtain ⟨as, h1, h2, h3, h4⟩ := arguments_ok (outer := outer) (As := [Finsupp.single 0 x]) (by omega) (.cons hM .nil)
  obtain ⟨a, as', ⟨-, n2⟩, h5, rfl⟩ := List.forall₂_cons_left_iff.1 h4
  obtain rfl := List.forall₂_nil_left_iff.1 h5
  obtain ⟨d1, -⟩ := List.forall₂_cons.1 h3
  obtain ⟨c, rfl⟩ := n2 he
  have ha : M.expr = [⟨.stored, .const 0⟩] → c = .value (baseId [M] + 1) 0 := by
    intro he
    simp only [arguments, he, hasStoredC, List.any_cons, hasStored, Bool.true_or, if_true, tagC, Expr.tag, Blade.tag,
      Option.bind_eq_bind, Option.bind_some, List.any_nil, Option.some.injEq, List.cons.injEq, and_true] at h1
    rw [expCoef_comp] at h1
    cases h1
    rfl
  have dv := single_denotes_inv d1
  have hL := (h2 [⟨c, .const 0⟩] List.mem_cons_self).2 ⟨c, .const 0⟩ List.mem_cons_self
  simp only [expScalar, call1, h1, Option.bind_eq_bind, Option.bind_some, scalarCoef_single] at h
  have em : mkExp c = .fn .exponential [c] := by
    rcases hL with ⟨v, e⟩ | ⟨t, i, -, -, e⟩ <;> simp only at e <;> subst e <;> rfl
  have bc : Built c := by
    rcases hL with ⟨v, e⟩ | ⟨t, i, -, -, e⟩ <;> simp only at e <;> subst e
    · exact .const _
    · exact .value _ _
  rw [em] at h
  have hx : Exponent (baseId [M] + 1) (baseId [M] + (storedInputs [M]).length) (.fn .exponential [c]) :=
    exponent_elementary (by simp [elementary]) (ge_exponent (R := False) (n := k) (leaf_ge hL).1)
  have hv : V (contextEnv outer (baseId [M]) (storedInputs [M])) (.fn .exponential [c])
      (Real.exp x) := v_elementary (by simp [elementary]) ⟨bc, dv⟩ rfl
  have hcan : Canonical [⟨.fn .exponential [c], .const 0⟩] := canonical_single ⟨0, rfl, by decide⟩
  refine ⟨context_reads (e := [⟨.fn .exponential [c], .const 0⟩]) ⟨hcan, ?_⟩ (single_denotes hv.1 hv.2) h, fun hst => ?_⟩
  · intro d hd
    simp only [List.mem_singleton] at hd
    subst hd
    exact hx
  refine (context_ge (R := False) (τ := τ) (k := k) (Ms := [M]) (N := N)
    (e := [⟨.fn .exponential [c], .const 0⟩]) ⟨hcan, ?_⟩ (single_denotes hv.1 hv.2)).1 o h
  · intro d hd
    simp only [List.mem_singleton] at hd
    subst hd
    obtain rfl := ha hst
    exact ⟨hx.ev, hx.built, (fun h => by simp [isConstant, isConstantAll] at h), hx.noInt, fun h => h.elim⟩

end GATL
