import Verif.Proofs.UnitScalar
import Verif.Props.Tests

/-!
# Norms and unit multivectors

**C50** (`unit`) and, for `rnorm`, **C22**.

`unitObject P Q R k τ ρ M` is `unit(M)` and `normObject P Q R k τ ρ M` is `rnorm(M)` in the space with signature
`(P, Q, R)`; `Represents ρ n M A` says that the object `M` stands for the multivector `A` of a space with `n`
dimensions.  `Verif/Spec/Unit.lean` says when a squared norm is constant or a square.
-/

namespace GATL.Props

open Expr Spec

variable {τ : Types} {ρ : Env} {P Q R k : Nat}

theorem rnormSqr_smul (c : ℝ) (A : MV ℝ) :
    rnormSqr (signedProd P Q R) (c • A) = c ^ 2 * rnormSqr (signedProd P Q R) A := by
  unfold rnormSqr signedProd orthProd
  simp only [reverse_smul, map_smul, LinearMap.smul_apply, Finsupp.smul_apply, smul_eq_mul]
  ring

/-- **C50** `unit(A)` is a positive multiple of `A` whose squared norm is `1` or `-1`, for every multivector `A`
with a non-zero squared norm.

Missing: scalars, which are `C50_unit_scalar`; types for which the squared norm does not depend on the stored coefficients, which
are `C50_unit_constant`; and types for which it is a non-negative multiple of the square of a single stored coefficient, for which
the claim is false (`C50_unit_is_false`). -/
theorem C50_unit_partial (hN : P + Q + R ≤ 62) (M o : Object) (A : MV ℝ) (hM : Represents ρ (P + Q + R) M A)
    (hs : ¬ ScalarType M) (hc : ¬ ConstantNorm ρ P Q R M) (hq : ¬ SquareNorm ρ P Q R M)
    (h0 : rnormSqr (signedProd P Q R) A ≠ 0) (h : unitObject P Q R k τ ρ M = some o) :
    ∃ c : ℝ, 0 < c ∧ Represents ρ (P + Q + R) o (c • A) ∧ |rnormSqr (signedProd P Q R) (c • A)| = 1 := by
  have hs' := scalarCoef_none hs
  obtain ⟨v, hv⟩ := normCoef_unit (by omega) hM hs' h
  obtain ⟨h1, h2⟩ := normCoef_unflagged hN hM hv hc hq
  have hp : 0 < |rnormSqr (signedProd P Q R) A| := abs_pos.2 h0
  refine ⟨_, inv_pos.2 (Real.sqrt_pos.2 hp), unit_call hN hM hs' hv h1 h2 h0 h, ?_⟩
  rw [rnormSqr_smul, abs_mul, inv_pow, Real.sq_sqrt hp.le, abs_of_pos (inv_pos.2 hp)]
  exact inv_mul_cancel₀ hp.ne'

/-- **C22** `rnorm(A)` is the square root of the squared norm, if that is not negative.

Missing: squared norms that are constant, and those that are a multiple of the square of a single stored coefficient, for
which the claim is false (`C22_rnorm_is_false`). -/
theorem C22_rnorm_partial (hN : P + Q + R ≤ 62) (M o : Object) (A : MV ℝ) (hM : Represents ρ (P + Q + R) M A)
    (hc : ¬ ConstantNorm ρ P Q R M) (hq : ¬ SingleSquareNorm ρ P Q R M) (h0 : 0 ≤ rnormSqr (signedProd P Q R) A)
    (h : normObject P Q R k τ ρ M = some o) :
    Represents ρ (P + Q + R) o (Finsupp.single 0 (√(rnormSqr (signedProd P Q R) A))) := by
  obtain ⟨v, hv⟩ := normCoef_norm (by omega) hM h
  exact norm_call hN hM hv (normCoef_unflagged hN hM hv hc (fun h => hq (square_single h))).1 (normCoef_add hN hM hv hc hq) h0 h

/-! ### A vector with two coefficients -/

theorem norm_vec (x y : ℝ) : rnormSqr (signedProd 3 0 0) (Finsupp.single 1 x + Finsupp.single 2 y) = x ^ 2 + y ^ 2 := by
  have h1 : par (1 : Word) 1 = 0 := by decide +kernel
  have h2 : par (2 : Word) 2 = 0 := by decide +kernel
  have f1 : signedFactor 3 0 0 1 = 1 := by decide
  have f2 : signedFactor 3 0 0 2 = 1 := by decide
  unfold rnormSqr signedProd
  simp only [reverse_add, reverse_single, prod_add_left, prod_add_right, sp_single, h1, h2, f1, f2]
  simp [sg]
  ring

theorem vec_not_constant (x y : ℝ) : ¬ ConstantNorm ρ 3 0 0 (vecObj x y) := by
  rintro ⟨c, h⟩
  have h1 := h [0, 0] _ (vec_represents 0 0).2
  have h2 := h [1, 0] _ (vec_represents 1 0).2
  rw [norm_vec] at h1 h2
  norm_num at h1 h2
  linarith

theorem vec_not_single (x y : ℝ) : ¬ SingleSquareNorm ρ 3 0 0 (vecObj x y) := by
  rintro ⟨c, i, h⟩
  have h1 := h [0, 1] _ (vec_represents 0 1).2
  have h2 := h [1, 0] _ (vec_represents 1 0).2
  rw [norm_vec] at h1 h2
  rcases i with _ | _ | i
  · norm_num at h1
  · norm_num at h2
  · norm_num at h2

theorem vec_not_square (x y : ℝ) : ¬ SquareNorm ρ 3 0 0 (vecObj x y) :=
  fun h => vec_not_single x y (square_single h)

theorem unit_vec_type : unitExpr 3 0 0 40 [⟨.value 1 0, .const 1⟩, ⟨.value 1 1, .const 2⟩] =
    some [⟨.fn .mul [.value 1 0, powerOf (.fn .absolute [.fn .add [powerOf (.value 1 0) (.const 2),
        powerOf (.value 1 1) (.const 2)]]) minusHalf], .const 1⟩,
      ⟨.fn .mul [powerOf (.fn .absolute [.fn .add [powerOf (.value 1 0) (.const 2),
        powerOf (.value 1 1) (.const 2)]]) minusHalf, .value 1 1], .const 2⟩] := by
  decide +kernel

/-- `unit(x e1 + y e2)` compiles and is evaluated. -/
theorem unit_vec (x y : ℝ) (h : 0 < x * x + y * y) : ∃ o, unitObject 3 0 0 40 τ ρ (vecObj x y) = some o := by
  rw [unit_pure (a := [⟨.value 1 0, .const 1⟩, ⟨.value 1 1, .const 2⟩]) (by rfl) (by rfl) (by rfl) unit_vec_type]
  have hp : PowDefined (x * x + y * y) (-2⁻¹) := .inl h
  exact ⟨_, contextObject_some (s' := [⟨.stored, .const 1⟩, ⟨.stored, .const 2⟩])
    (vs := [x * (x * x + y * y) ^ (-2⁻¹ : ℝ), (x * x + y * y) ^ (-2⁻¹ : ℝ) * y]) (ws := [])
    (by simp [storedInputs, hasStoredC, hasStored]) (by rfl)
    (by simp [exec, eval, evalList, evalFn, evalAdd, evalMul, evalPower, contextEnv, num2, asNumber, baseId, storedInputs,
      hasStoredC, hasStored, greaterIdC, greaterId, Blade.greaterId, num1, stdPow, hp, h.le])⟩

-- the theorem applies to `3 e1 - 4 e2`
example : ∃ (o : Object) (c : ℝ), unitObject 3 0 0 40 τ ρ (vecObj 3 (-4)) = some o ∧ 0 < c ∧
    Represents ρ 3 o (c • (Finsupp.single 1 3 + Finsupp.single 2 (-4))) := by
  obtain ⟨o, ho⟩ := unit_vec (τ := τ) (ρ := ρ) 3 (-4) (by norm_num)
  obtain ⟨c, h1, h2, -⟩ := C50_unit_partial (P := 3) (Q := 0) (R := 0) (by norm_num) _ o _ (vec_represents 3 (-4))
    (by rintro ⟨c, h⟩; cases h) (vec_not_constant _ _) (vec_not_square _ _) (by rw [norm_vec]; norm_num) ho
  exact ⟨o, c, ho, h1, h2⟩

theorem norm_vec_type : normExpr 3 0 0 40 [⟨.value 1 0, .const 1⟩, ⟨.value 1 1, .const 2⟩] =
    some [⟨.fn .add [powerOf (.value 1 0) (.const 2), powerOf (.value 1 1) (.const 2)], .const 0⟩] := by
  decide +kernel

theorem sqrt_vec_type :
    sqrtExpr 40 [⟨.fn .add [powerOf (.value 1 0) (.const 2), powerOf (.value 1 1) (.const 2)], .const 0⟩] =
    some [⟨powerOf (.fn .add [powerOf (.value 1 0) (.const 2), powerOf (.value 1 1) (.const 2)]) half, .const 0⟩] := by
  decide +kernel

/-- `rnorm(x e1 + y e2)`. -/
theorem rnorm_vec (x y : ℝ) : ∃ f, normObject 3 0 0 40 τ ρ (vecObj x y) =
    some ⟨f, [⟨.stored, .const 0⟩], [√(x * x + y * y)], []⟩ := by
  rw [rnorm_pure (a := [⟨.value 1 0, .const 1⟩, ⟨.value 1 1, .const 2⟩]) (by rfl) (by rfl) norm_vec_type sqrt_vec_type]
  exact ⟨_, contextObject_some (by simp [storedInputs, hasStoredC, hasStored]) (by rfl)
    (by simp [exec, eval, evalAdd, evalPower, contextEnv, num2, asNumber, baseId, storedInputs,
      hasStoredC, hasStored, greaterIdC, greaterId, Blade.greaterId, half, add_nonneg (mul_self_nonneg x) (mul_self_nonneg y)])⟩

-- the theorem applies to `3 e1 - 4 e2` and to `0 e1 + 0 e2`
example (x y : ℝ) : ∃ o, normObject 3 0 0 40 τ ρ (vecObj x y) = some o ∧
    Represents ρ 3 o (Finsupp.single 0 (√(rnormSqr (signedProd 3 0 0) (Finsupp.single 1 x + Finsupp.single 2 y)))) := by
  obtain ⟨f, ho⟩ := rnorm_vec (τ := τ) (ρ := ρ) x y
  exact ⟨_, ho, C22_rnorm_partial (P := 3) (Q := 0) (R := 0) (by norm_num) _ _ _ (vec_represents x y)
    (vec_not_constant _ _) (vec_not_single _ _) (by rw [norm_vec]; positivity) ho⟩

/-! ### A multiple of a basis vector -/

/-- The vector `x e1`. -/
abbrev axisObj (x : ℝ) : Object := ⟨true, [⟨.stored, .const 1⟩], [x], []⟩

theorem axis_represents (x : ℝ) : Represents ρ 3 (axisObj x) (Finsupp.single 1 x) := by
  refine ⟨⟨canonical_single ⟨1, rfl, by decide⟩, by simp⟩, ?_⟩
  have h1 : WellTyped 3 (x, TBlade.const 1) := by simp only [WellTyped]; decide
  have := Reads.cons (.stored x) (.const 1) h1 (Reads.nil (ρ := ρ))
  simpa [TBlade.bits] using this

theorem norm_axis (x : ℝ) : rnormSqr (signedProd 3 0 0) (Finsupp.single 1 x) = x ^ 2 := by
  have := norm_vec x 0
  simpa using this

theorem unit_axis_type : unitExpr 3 0 0 40 [⟨.value 1 0, .const 1⟩] = some [⟨.const 1, .const 1⟩] := by
  decide +kernel

/-- `unit(x e1)` is `e1`, whatever `x` is. -/
theorem unit_axis (x : ℝ) : ∃ f, unitObject 3 0 0 40 τ ρ (axisObj x) =
    some ⟨f, [⟨.const 1, .const 1⟩], [], []⟩ := by
  rw [unit_pure (a := [⟨.value 1 0, .const 1⟩]) (by rfl) (by rfl) (by rfl) unit_axis_type]
  exact ⟨_, contextObject_some (by simp [storedInputs, hasStoredC, hasStored]) (by rfl) (by rfl)⟩

theorem rnorm_axis_type : normExpr 3 0 0 40 [⟨.value 1 0, .const 1⟩] =
    some [⟨powerOf (.value 1 0) (.const 2), .const 0⟩] ∧
    sqrtExpr 40 [⟨powerOf (.value 1 0) (.const 2), .const 0⟩] = some [⟨.value 1 0, .const 0⟩] := by
  decide +kernel

/-- `rnorm(x e1)` is `x`, even if that is negative. -/
theorem rnorm_axis (x : ℝ) : ∃ f, normObject 3 0 0 40 τ ρ (axisObj x) =
    some ⟨f, [⟨.stored, .const 0⟩], [x], []⟩ := by
  rw [rnorm_pure (a := [⟨.value 1 0, .const 1⟩]) (by rfl) (by rfl) rnorm_axis_type.1 rnorm_axis_type.2]
  exact ⟨_, contextObject_some (by simp [storedInputs, hasStoredC, hasStored]) (by rfl)
    (by simp [exec, eval, contextEnv, asNumber, baseId, storedInputs,
      hasStoredC, hasStored, greaterIdC, greaterId, Blade.greaterId])⟩

/-- **C50** is false in general: `unit(-3 e1)` is `e1`, which is a negative multiple of `-3 e1`. -/
theorem C50_unit_is_false : ∃ (M o : Object) (A : MV ℝ), Represents ρ 3 M A ∧ rnormSqr (signedProd 3 0 0) A = 9 ∧
    unitObject 3 0 0 40 τ ρ M = some o ∧ Represents ρ 3 o (Finsupp.single 1 1) ∧
    ∀ c : ℝ, 0 < c → (Finsupp.single 1 1 : MV ℝ) ≠ c • A := by
  obtain ⟨f, h⟩ := unit_axis (τ := τ) (ρ := ρ) (-3)
  refine ⟨_, _, _, axis_represents (-3), by rw [norm_axis]; norm_num, h, ?_, ?_⟩
  · refine ⟨⟨canonical_single ⟨1, rfl, by decide⟩, by simp⟩, ?_⟩
    have h1 : WellTyped 3 ((1 : ℝ), TBlade.const 1) := by simp only [WellTyped]; decide
    have := Reads.cons (.symbolic (.const 1) 1 rfl (.const 1) (by simp [Denotes, den])) (.const 1) h1
      (Reads.nil (ρ := ρ))
    simpa [TBlade.bits] using this
  · intro c hc h
    have := DFunLike.congr_fun h 1
    simp at this
    linarith

/-- **C22** is false in general: `rnorm(-3 e1)` is `-3`. -/
theorem C22_rnorm_is_false : ∃ (M o : Object) (A : MV ℝ), Represents ρ 3 M A ∧ rnormSqr (signedProd 3 0 0) A = 9 ∧
    normObject 3 0 0 40 τ ρ M = some o ∧ Represents ρ 3 o (Finsupp.single 0 (-3)) := by
  obtain ⟨f, h⟩ := rnorm_axis (τ := τ) (ρ := ρ) (-3)
  refine ⟨_, _, _, axis_represents (-3), by rw [norm_axis]; norm_num, h, ?_⟩
  refine ⟨⟨canonical_single ⟨0, rfl, by simp [vecs]⟩, by simp⟩, ?_⟩
  have h1 : WellTyped 3 ((-3 : ℝ), TBlade.const 0) := by simp [WellTyped, vecs]
  have := Reads.cons (.stored (-3)) (.const 0) h1 (Reads.nil (ρ := ρ))
  simpa [TBlade.bits] using this

/-! ### Scalars -/

theorem scalarValue_inv {n : Nat} {M : Object} {x : ℝ} (h : ScalarValue ρ n M x) :
    (∃ f, M = ⟨f, [⟨.stored, .const 0⟩], [x], []⟩) ∨
      ∃ f, ∃ c : Int, x = c ∧ M = ⟨f, [⟨.const c, .const 0⟩], [], []⟩ := by
  obtain ⟨f, e, vs, ws⟩ := M
  obtain ⟨⟨c, hc⟩, ⟨-, hp⟩, hr⟩ := h
  dsimp only at *
  subst hc
  generalize hA : Finsupp.single (0 : Word) x = A at hr
  cases hr with
  | cons h1 h2 h3 h4 =>
    cases h4
    cases h2
    rw [add_zero] at hA
    have hx := DFunLike.congr_fun hA 0
    simp only [TBlade.bits, Finsupp.single_eq_same] at hx
    subst hx
    cases h1 with
    | stored => exact .inl ⟨f, rfl⟩
    | symbolic _ _ hs hb hd =>
      rcases hp _ (List.mem_singleton.2 rfl) with h | ⟨v, h⟩
      · dsimp only at h; subst h; simp [hasStored] at hs
      · dsimp only at h; subst h
        refine .inr ⟨f, v, ?_, rfl⟩
        have e : den ρ (.const v) = some (.num (v : ℝ)) := by simp [den]
        exact (Val.num.inj (Option.some.inj (e.symm.trans hd))).symm

/-- **C50** `unit` of a non-zero scalar compiles and is `1` or `-1`, the sign of the scalar, also for integers. -/
theorem C50_unit_scalar (n : Nat) (M : Object) (x : ℝ) (hM : ScalarValue ρ n M x) (hn : Negatable M.expr) (h0 : x ≠ 0) :
    ∃ o, ScalarValue ρ n o (x / |x|) ∧ (∃ depth, ∀ k ≥ depth, unitObject P Q R k τ ρ M = some o) ∧
      ∀ k o', unitObject P Q R k τ ρ M = some o' → o' = o := by
  suffices ∃ depth o, unitObject P Q R depth τ ρ M = some o ∧ ScalarValue ρ n o (x / |x|) by
    obtain ⟨d, o, h, hv⟩ := this
    exact ⟨o, hv, ⟨d, fun k hk => unit_mono hk M _ h⟩, fun k o' h' => unit_eq h' h⟩
  rcases scalarValue_inv hM with ⟨f, rfl⟩ | ⟨f, c, rfl, rfl⟩
  · obtain ⟨g, h⟩ := unit_stored (P := P) (Q := Q) (R := R) (τ := τ) (ρ := ρ) f x h0
    refine ⟨40, _, h, ⟨_, rfl⟩, ⟨canonical_single ⟨0, rfl, by simp [vecs]⟩, by simp⟩, ?_⟩
    have h1 : WellTyped n (x / |x|, TBlade.const 0) := by simp [WellTyped, vecs]
    simpa [TBlade.bits] using Reads.cons (.stored (x / |x|)) (.const 0) h1 (Reads.nil (ρ := ρ))
  · have h0' : c ≠ 0 := by exact_mod_cast h0
    obtain ⟨g, h⟩ := unit_const (P := P) (Q := Q) (R := R) (τ := τ) (ρ := ρ) f (n := 0) h0'
      (abs_lt.2 (hn _ (List.mem_singleton.2 rfl) c rfl))
    refine ⟨21, _, h, ⟨_, rfl⟩, ⟨canonical_single ⟨0, rfl, by simp [vecs]⟩, by simp⟩, ?_⟩
    have e : ((c.sign : Int) : ℝ) = (c : ℝ) / |(c : ℝ)| := by
      rcases lt_or_gt_of_ne h0' with h | h
      · have : (c : ℝ) < 0 := by exact_mod_cast h
        rw [abs_of_neg this, div_neg, div_self this.ne, Int.sign_eq_neg_one_of_neg h]; simp
      · have : (0 : ℝ) < c := by exact_mod_cast h
        rw [abs_of_pos this, div_self this.ne', Int.sign_eq_one_of_pos h]; simp
    rw [← e]
    have h1 : WellTyped n (((c.sign : Int) : ℝ), TBlade.const 0) := by simp [WellTyped, vecs]
    simpa [TBlade.bits] using Reads.cons (.symbolic (.const c.sign) _ rfl (.const _) (by simp [Denotes, den])) (.const 0) h1
      (Reads.nil (ρ := ρ))

-- `unit(-3)` of a run-time number, and of the constant `c<-3>`
example (n : Nat) : ∃ M, ScalarValue ρ n M (-3) ∧ Negatable M.expr ∧ hasStoredC M.expr = true :=
  ⟨_, scalarObj_value n (-3), by simp [Negatable], rfl⟩

example (n : Nat) : ∃ M, ScalarValue ρ n M (-3) ∧ Negatable M.expr ∧ hasStoredC M.expr = false :=
  ⟨_, by simpa using literalObj_value (ρ := ρ) n (-3), by simp [Negatable], rfl⟩

end GATL.Props
