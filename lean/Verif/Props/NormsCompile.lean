import Verif.Proofs.NegativeQuotient
import Verif.Proofs.InverseMonomial
import Verif.Proofs.UnitConst
import Verif.Proofs.UnitSquare
import Verif.Proofs.UnitConstTotal
import Verif.Proofs.InverseConst
import Verif.Props.Rational

/-!
# Norms, unit multivectors and inverses compile

**C76**

`normObject`, `unitObject` and `inverse` are `rnorm`, `unit` and `inv` in the space with signature `(P, Q, R)`.  The
argument `k` is the depth to which the compiler instantiates templates, and the result is `none` if the call does not
compile at that depth, or evaluates something undefined.  `weightC` is the sum of the sizes of the integers in a type.
-/

namespace GATL.Props

open Expr Spec

variable {τ : Types} {ρ : Env} {P Q R k : Nat}

theorem normal_of {s : CSum} (hz : ∀ c ∈ s, c.coef = .const 0 → c.blade = .const 0) : ∀ c ∈ s, Normal c := hz

/-- **C76** `rnorm(A)` compiles from some instantiation depth on, and is the square root of the squared norm, if that is
not negative, if the sum of the sizes of the compile-time coefficients of `A` is less than `2 ^ 31`, and a constant zero in the
type of `A` is a scalar (as the library makes it).

Missing: squared norms that are constant (they are `C76_rnorm_constant`), or a multiple of the square of a single stored
coefficient (if no stored coefficient is negative they are `C76_rnorm_nonneg`). -/
theorem C76_rnorm_partial (hN : P + Q + R ≤ 62) (M : Object) (A : MV ℝ) (hM : Represents ρ (P + Q + R) M A)
    (hw : weightC M.expr < 2 ^ 31) (hz : ∀ c ∈ M.expr, c.coef = .const 0 → c.blade = .const 0)
    (hc : ¬ ConstantNorm ρ P Q R M) (hq : ¬ SingleSquareNorm ρ P Q R M) (h0 : 0 ≤ rnormSqr (signedProd P Q R) A) :
    ∃ depth, ∀ k, depth ≤ k → ∃ o, normObject P Q R k τ ρ M = some o ∧
      Represents ρ (P + Q + R) o (Finsupp.single 0 (√(rnormSqr (signedProd P Q R) A))) := by
  obtain ⟨a, ra, v, h⟩ := Total.norm_total hN hM hw (by norm_num) (by norm_num) (normal_of hz)
  obtain ⟨j, hj⟩ := h.coef
  have hv := hj j le_rfl
  obtain ⟨k0, hk⟩ := Total.rnorm_total (τ := τ) h (normCoef_unflagged hN hM hv hc (fun h => hq (square_single h))).1
    (normCoef_add hN hM hv hc hq) h0
  refine ⟨k0, fun k hle => ?_⟩
  obtain ⟨o, ho⟩ := hk k hle
  exact ⟨o, ho, C22_rnorm_partial hN M o A hM hc hq h0 ho⟩

/-- **C76** If the squared norm does not depend on the stored coefficients of `A`, `rnorm(A)` compiles from some instantiation
depth on, and is the square root of the squared norm, if that is not negative.  (The result is a type; nothing is left to be done
at run time.)  This is so if there are no stored coefficients, or if their basis blades square to zero. -/
theorem C76_rnorm_constant (hN : P + Q + R ≤ 62) (M : Object) (A : MV ℝ) (hM : Represents ρ (P + Q + R) M A)
    (hw : weightC M.expr < 2 ^ 31) (hz : ∀ c ∈ M.expr, c.coef = .const 0 → c.blade = .const 0)
    (hc : ConstantNorm ρ P Q R M) (h0 : 0 ≤ rnormSqr (signedProd P Q R) A) :
    ∃ depth, ∀ k, depth ≤ k → ∃ o, normObject P Q R k τ ρ M = some o ∧
      Reads ρ (P + Q + R) o.expr o.values o.bitsets (Finsupp.single 0 (√(rnormSqr (signedProd P Q R) A))) := by
  obtain ⟨a, ra, v, h⟩ := Total.norm_total hN hM hw (by norm_num) (by norm_num) (normal_of hz)
  obtain ⟨j, hj⟩ := h.coef
  obtain ⟨c, rfl⟩ := normCoef_constant hN hM (hj j le_rfl) hc
  have hv : rnormSqr (signedProd P Q R) A = c := by simpa [Denotes, den] using h.value.symm
  rw [hv] at h0 ⊢
  exact Total.rnorm_root_total h (by exact_mod_cast h0)

/-- The squared norm of a multivector without stored coefficients is constant. -/
theorem constant_norm {M : Object} {A : MV ℝ} (hM : Represents ρ (P + Q + R) M A) (hs : ∀ c ∈ M.expr, c.coef ≠ .stored) :
    ConstantNorm ρ P Q R M :=
  ⟨_, fun _ _ h => by rw [reads_same hM.1 hs h hM.2]⟩

/-- **C76** `rnorm(A)` of a multivector whose stored coefficients are not negative compiles from some instantiation depth on, and
is the square root of the squared norm, if that is positive.  (If the squared norm depends on the stored coefficients the result is
an evaluated multivector.) -/
theorem C76_rnorm_nonneg (hN : P + Q + R ≤ 62) (M : Object) (A : MV ℝ) (hM : Represents ρ (P + Q + R) M A)
    (hw : weightC M.expr < 2 ^ 31) (hz : ∀ c ∈ M.expr, c.coef = .const 0 → c.blade = .const 0)
    (hx : ∀ x ∈ M.values, 0 ≤ x) (h0 : 0 < rnormSqr (signedProd P Q R) A) :
    ∃ depth, ∀ k, depth ≤ k → ∃ o, normObject P Q R k τ ρ M = some o ∧
      Reads ρ (P + Q + R) o.expr o.values o.bitsets (Finsupp.single 0 (√(rnormSqr (signedProd P Q R) A))) ∧
      (¬ ConstantNorm ρ P Q R M → Plain o.expr) := by
  by_cases hc : ConstantNorm ρ P Q R M
  · obtain ⟨d, hd⟩ := C76_rnorm_constant (τ := τ) hN M A hM hw hz hc h0.le
    refine ⟨d, fun k hk => ?_⟩
    obtain ⟨o, ho, hr⟩ := hd k hk
    exact ⟨o, ho, hr, fun h => absurd hc h⟩
  suffices ∃ depth, ∀ k, depth ≤ k → ∃ o, normObject P Q R k τ ρ M = some o ∧
      Represents ρ (P + Q + R) o (Finsupp.single 0 (√(rnormSqr (signedProd P Q R) A))) by
    obtain ⟨d, hd⟩ := this
    refine ⟨d, fun k hk => ?_⟩
    obtain ⟨o, ho, hr⟩ := hd k hk
    exact ⟨o, ho, hr.2, fun _ => hr.1⟩
  obtain ⟨a, ra, v, h⟩ := Total.norm_total hN hM hw (by norm_num) (by norm_num) (normal_of hz)
  obtain ⟨j, hj⟩ := h.coef
  have hv := hj j le_rfl
  rcases Total.normCoef_shape hN hM hv hc with ⟨args, rfl, hsq⟩ | ⟨t, i, rfl | rfl⟩
  · have hcv := Total.sum_not_constant hsq
    obtain ⟨k0, hk⟩ := Total.rnorm_total (τ := τ) h hcv ⟨args, rfl⟩ h0.le
    refine ⟨max k0 j, fun k hle => ?_⟩
    obtain ⟨o, ho⟩ := hk k (by omega)
    exact ⟨o, ho, norm_call hN hM (hj k (by omega)) hcv ⟨args, rfl⟩ h0.le ho⟩
  · rw [Total.square_value h.value, Real.sqrt_sq]
    · exact Total.rnorm_square_total h
    · rcases value_context (outer := ρ) (M := M) (base := baseId [M]) (t := t) (i := i) with e | ⟨r, e⟩
      · rw [e M.values, List.getD_eq_getElem?_getD]
        cases hi : M.values[i]? with
        | none => simp
        | some x => exact hx x (List.mem_of_getElem? hi)
      · exact absurd ⟨r ^ 2, fun vs A hA => by
          rw [Total.square_value (normCoef_values hN hM.1 hv hA), e]⟩ hc
  · have := Total.square_product h.value
    push_cast at this
    nlinarith [sq_nonneg ((contextEnv ρ (baseId [M]) (storedInputs [M])).val t i)]

-- `rnorm(e1 + e2)` is the root of 2
example : ∃ depth, ∀ k, depth ≤ k →
    ∃ o, normObject 3 0 0 k τ ρ ⟨false, [⟨.const 1, .const 1⟩, ⟨.const 1, .const 2⟩], [], []⟩ = some o ∧
      Reads ρ 3 o.expr o.values o.bitsets (Finsupp.single 0 (√2)) := by
  have h1 : WellTyped 3 ((1 : ℝ), TBlade.const 1) := by simp only [WellTyped]; decide
  have h2 : WellTyped 3 ((1 : ℝ), TBlade.const 2) := by simp only [WellTyped]; decide
  have hr := Reads.cons (.symbolic (.const 1) 1 rfl (by constructor) (by simp [Denotes, den])) (.const 1) h1
    (Reads.cons (.symbolic (.const 1) 1 rfl (by constructor) (by simp [Denotes, den])) (.const 2) h2 (Reads.nil (ρ := ρ)))
  have hM : Represents ρ (3 + 0 + 0) ⟨false, [⟨.const 1, .const 1⟩, ⟨.const 1, .const 2⟩], [], []⟩
      (Finsupp.single 1 1 + Finsupp.single 2 1) :=
    ⟨⟨vec_canonical _ _ (by simp) (by simp), by simp⟩, by simpa [TBlade.bits] using hr⟩
  have := C76_rnorm_constant (τ := τ) (by norm_num) _ _ hM (by simp [weightC, coefWeight]) (by simp)
    (constant_norm hM (by simp)) (by rw [norm_vec]; norm_num)
  rw [norm_vec] at this
  norm_num at this
  exact this

theorem axis_not_constant (x : ℝ) : ¬ ConstantNorm ρ 3 0 0 (axisObj x) := by
  rintro ⟨c, h⟩
  have h1 := h [0] _ (axis_represents 0).2
  have h2 := h [1] _ (axis_represents 1).2
  rw [norm_axis] at h1 h2
  norm_num at h1 h2
  linarith

-- `rnorm(3 e1)` is 3
example : ∃ depth, ∀ k, depth ≤ k → ∃ o, normObject 3 0 0 k τ ρ (axisObj 3) = some o ∧
    Represents ρ 3 o (Finsupp.single 0 (√(rnormSqr (signedProd 3 0 0) (Finsupp.single 1 3)))) := by
  obtain ⟨d, hd⟩ := C76_rnorm_nonneg (τ := τ) (ρ := ρ) (P := 3) (Q := 0) (R := 0) (by norm_num) _ _ (axis_represents 3)
    (by simp [weightC, coefWeight]) (by simp) (by simp) (by rw [norm_axis]; norm_num)
  refine ⟨d, fun k hk => ?_⟩
  obtain ⟨o, ho, h1, h2⟩ := hd k hk
  exact ⟨o, ho, h2 (axis_not_constant _), h1⟩

/-- The vector `v e1 + x e4` in the space with signature `(3, 0, 1)`, where `e4` squares to zero. -/
abbrev nullObj (v : Int) (x : ℝ) : Object := ⟨true, [⟨.const v, .const 1⟩, ⟨.stored, .const 8⟩], [x], []⟩

theorem norm_null (v x : ℝ) : rnormSqr (signedProd 3 0 1) (Finsupp.single 1 v + Finsupp.single 8 x) = v ^ 2 := by
  have h := norm_add_single (P := 3) (Q := 0) (R := 1) 1 v 0
  have f1 : signedFactor 3 0 1 1 = 1 := by decide
  have f2 : signedFactor 3 0 1 8 = 0 := by decide
  have z : rnormSqr (signedProd 3 0 1) (0 : MV ℝ) = 0 := by simp [rnormSqr, signedProd, prod_zero_left]
  rw [zero_add, z, f1] at h
  rw [norm_add_single, h, f2]
  simp

theorem null_represents {v : Int} (hv : v ≠ 0) (x : ℝ) :
    Represents ρ 4 (nullObj v x) (Finsupp.single 1 (v : ℝ) + Finsupp.single 8 x) := by
  have h1 : WellTyped 4 ((v : ℝ), TBlade.const 1) := by simp only [WellTyped]; decide
  have h2 : WellTyped 4 (x, TBlade.const 8) := by simp only [WellTyped]; decide
  have hr := Reads.cons (.symbolic (.const v) v rfl (by constructor) (by simp [Denotes, den])) (.const 1) h1
    (Reads.cons (.stored x) (.const 8) h2 (Reads.nil (ρ := ρ)))
  refine ⟨⟨?_, by simp⟩, by simpa [TBlade.bits] using hr⟩
  refine canonical_iff.2 ⟨by simp, ?_, ?_, .inr (by simpa using hv)⟩
  · simp only [List.mem_cons, List.not_mem_nil, or_false, forall_eq_or_imp, forall_eq]
    exact ⟨⟨1, rfl, by decide⟩, ⟨8, rfl, by decide⟩⟩
  · refine List.pairwise_pair.2 fun a b ha hb => ?_
    cases ha; cases hb
    exact .inr (by decide)

theorem null_constant (v : Int) (x : ℝ) : ConstantNorm ρ 3 0 1 (nullObj v x) := by
  refine ⟨(v : ℝ) ^ 2, fun vs A h => ?_⟩
  have key : ∀ ws, Reads ρ 4 [⟨.const v, .const 1⟩, ⟨.stored, .const 8⟩] vs ws A →
      ∃ y, A = Finsupp.single 1 (v : ℝ) + Finsupp.single 8 y := by
    intro ws h
    obtain ⟨_, _, _, _, x1, t1, m1, h1, h2, g1, rfl⟩ := reads_cons_inv h
    obtain ⟨_, _, _, _, y, t2, m2, h3, h4, g2, rfl⟩ := reads_cons_inv g1
    cases g2; cases h2; cases h4
    cases h1 with
    | symbolic _ _ _ _ e =>
      simp only [Denotes, den, Option.some.injEq, Val.num.injEq] at e
      subst e
      exact ⟨y, by simp [TBlade.bits]⟩
  obtain ⟨y, rfl⟩ := key _ h
  exact norm_null v y

-- `rnorm(3 e1 + x e4)` is 3, whatever `x` is
example (x : ℝ) : ∃ depth, ∀ k, depth ≤ k → ∃ o, normObject 3 0 1 k τ ρ (nullObj 3 x) = some o ∧
    Reads ρ 4 o.expr o.values o.bitsets (Finsupp.single 0 3) := by
  have := C76_rnorm_constant (τ := τ) (ρ := ρ) (P := 3) (Q := 0) (R := 1) (by norm_num) _ _ (null_represents (v := 3) (by simp) x)
    (by simp [weightC, coefWeight]) (by simp) (null_constant 3 x) (by rw [norm_null]; positivity)
  rw [norm_null, Real.sqrt_sq (by norm_num)] at this
  exact_mod_cast this

/-- **C76** and **C50** `unit(A)` compiles from some instantiation depth on, and is `A`, if the squared norm of `A` is `1` or `-1`
whatever the stored coefficients are. -/
theorem C76_unit_normalised (hN : P + Q + R ≤ 62) (M : Object) (A : MV ℝ) (hM : Represents ρ (P + Q + R) M A)
    (hw : weightC M.expr < 2 ^ 31) (hz : ∀ c ∈ M.expr, c.coef = .const 0 → c.blade = .const 0) (hs : ¬ ScalarType M)
    (hc : ConstantNorm ρ P Q R M) (h1 : |rnormSqr (signedProd P Q R) A| = 1) :
    ∃ depth, ∀ k, depth ≤ k → ∃ o, unitObject P Q R k τ ρ M = some o ∧ Represents ρ (P + Q + R) o A := by
  obtain ⟨a, ra, v, h⟩ := Total.norm_total hN hM hw (by norm_num) (by norm_num) (normal_of hz)
  obtain ⟨j, hj⟩ := h.coef
  obtain ⟨c, rfl⟩ := normCoef_constant hN hM (hj j le_rfl) hc
  have hv : rnormSqr (signedProd P Q R) A = c := by simpa [Denotes, den] using h.value.symm
  rw [hv] at h1
  refine Total.unit_one_total hN h ?_ (scalarCoef_none hs)
  have : |c| = 1 := by exact_mod_cast h1
  exact eq_or_eq_neg_of_abs_eq this

-- `unit(e1 + x e4)` is `e1 + x e4`
example (x : ℝ) : ∃ depth, ∀ k, depth ≤ k → ∃ o, unitObject 3 0 1 k τ ρ (nullObj 1 x) = some o ∧
    Represents ρ 4 o (Finsupp.single 1 ((1 : Int) : ℝ) + Finsupp.single 8 x) :=
  C76_unit_normalised (τ := τ) (ρ := ρ) (P := 3) (Q := 0) (R := 1) (by norm_num) _ _ (null_represents (by simp) x)
    (by simp [weightC, coefWeight]) (by simp) (by rintro ⟨c, h⟩; cases h) (null_constant 1 x) (by rw [norm_null]; simp)

/-- **C76** `unit(A)` compiles from some instantiation depth on, and is a positive multiple of `A` whose squared norm is
`1` or `-1`, for every multivector `A` with a non-zero squared norm, if the sum of the sizes of the compile-time
coefficients of `A` is less than `2 ^ 31`, and a constant zero in the type of `A` is a scalar (as the library makes it).

Missing: squared norms that are constant, or a non-negative multiple of the square of a single stored coefficient.
(Scalars are `C50_unit_scalar`, constant squared norms `C76_unit_constant`, the others `C76_unit_sign_partial`.) -/
theorem C76_unit_partial (hN : P + Q + R ≤ 62) (M : Object) (A : MV ℝ) (hM : Represents ρ (P + Q + R) M A)
    (hw : weightC M.expr < 2 ^ 31) (hz : ∀ c ∈ M.expr, c.coef = .const 0 → c.blade = .const 0)
    (hs : ¬ ScalarType M) (hc : ¬ ConstantNorm ρ P Q R M) (hq : ¬ SquareNorm ρ P Q R M)
    (h0 : rnormSqr (signedProd P Q R) A ≠ 0) :
    ∃ depth, ∀ k, depth ≤ k → ∃ o, unitObject P Q R k τ ρ M = some o ∧
      ∃ c : ℝ, 0 < c ∧ Represents ρ (P + Q + R) o (c • A) ∧ |rnormSqr (signedProd P Q R) (c • A)| = 1 := by
  obtain ⟨a, ra, v, h⟩ := Total.norm_total hN hM hw (by norm_num) (by norm_num) (normal_of hz)
  obtain ⟨j, hj⟩ := h.coef
  have hv := hj j le_rfl
  obtain ⟨h1, h2⟩ := normCoef_unflagged hN hM hv hc hq
  obtain ⟨k0, hk⟩ := Total.unit_total (τ := τ) hN h (scalarCoef_none hs) h1 h2 h0
  refine ⟨k0, fun k hle => ?_⟩
  obtain ⟨o, ho⟩ := hk k hle
  exact ⟨o, ho, C50_unit_partial hN M o A hM hs hc hq h0 ho⟩

/-- **C76** and **C50** For floating-point coefficients `unit(A)` compiles from some instantiation depth on, and is a multiple of `A`
whose squared norm is `1` or `-1`, for every multivector `A` with a non-zero squared norm; also if the squared norm is the square of
a single stored coefficient.  If no stored coefficient is negative it is a positive multiple.

Missing: squared norms that are constant (`C76_unit_constant`; `C76_unit_floating_partial` is both). -/
theorem C76_unit_sign_partial (hN : P + Q + R ≤ 62) (M : Object) (A : MV ℝ) (hM : Represents ρ (P + Q + R) M A)
    (hw : weightC M.expr < 2 ^ 31) (hz : ∀ c ∈ M.expr, c.coef = .const 0 → c.blade = .const 0) (hf : M.floats = true)
    (hs : ¬ ScalarType M) (hc : ¬ ConstantNorm ρ P Q R M) (h0 : rnormSqr (signedProd P Q R) A ≠ 0) :
    ∃ depth, ∀ k, depth ≤ k → ∃ o, unitObject P Q R k τ ρ M = some o ∧
      ∃ c : ℝ, Stands ρ (P + Q + R) o (c • A) ∧ |rnormSqr (signedProd P Q R) (c • A)| = 1 ∧
        ((∀ x ∈ M.values, 0 ≤ x) → 0 < c) := by
  obtain ⟨a, ra, v, h⟩ := Total.norm_total hN hM hw (by norm_num) (by norm_num) (normal_of hz)
  obtain ⟨j, hj⟩ := h.coef
  have hv := hj j le_rfl
  have hs' := scalarCoef_none hs
  have general : isConstant v = false → isNonNegative v = some false → ∃ depth, ∀ k, depth ≤ k →
      ∃ o, unitObject P Q R k τ ρ M = some o ∧ ∃ c : ℝ, Stands ρ (P + Q + R) o (c • A) ∧
        |rnormSqr (signedProd P Q R) (c • A)| = 1 ∧ ((∀ x ∈ M.values, 0 ≤ x) → 0 < c) := by
    intro h1 h2
    obtain ⟨k0, hk⟩ := Total.unit_total (τ := τ) hN h hs' h1 h2 h0
    refine ⟨max k0 j, fun k hle => ?_⟩
    obtain ⟨o, ho⟩ := hk k (by omega)
    have hp : 0 < |rnormSqr (signedProd P Q R) A| := abs_pos.2 h0
    refine ⟨o, ho, _, represents_stands (unit_call hN hM hs' (hj k (by omega)) h1 h2 h0 ho), ?_,
      fun _ => inv_pos.2 (Real.sqrt_pos.2 hp)⟩
    rw [rnormSqr_smul, abs_mul, inv_pow, Real.sq_sqrt hp.le, abs_of_pos (inv_pos.2 hp)]
    exact inv_mul_cancel₀ hp.ne'
  rcases Total.normCoef_shape hN hM hv hc with ⟨args, rfl, hsq⟩ | ⟨t, i, rfl | rfl⟩
  · exact general (Total.sum_not_constant hsq) rfl
  · obtain ⟨k0, hk⟩ := Total.unit_square_total (τ := τ) hN h hs' hf h0
    refine ⟨k0, fun k hle => ?_⟩
    obtain ⟨o, ho, h1⟩ := hk k hle
    have hN2 := Total.square_value h.value
    refine ⟨o, ho, _, h1, ?_, fun hx => inv_pos.2 (lt_of_le_of_ne ?_ fun e => h0 (by rw [hN2, ← e]; simp))⟩
    · rw [rnormSqr_smul, hN2, inv_pow, inv_mul_cancel₀ (by rwa [← hN2]), abs_one]
    · rcases value_context (outer := ρ) (M := M) (base := baseId [M]) (t := t) (i := i) with e | ⟨r, e⟩
      · rw [e M.values, List.getD_eq_getElem?_getD]
        cases hi : M.values[i]? with
        | none => simp
        | some x => exact hx x (List.mem_of_getElem? hi)
      · exact absurd ⟨r ^ 2, fun vs A hA => by
          rw [Total.square_value (normCoef_values hN hM.1 hv hA), e]⟩ hc
  · exact general rfl rfl

-- the hypotheses hold for `3 e1`
example : ∃ depth, ∀ k, depth ≤ k → ∃ o, unitObject 3 0 0 k τ ρ (axisObj 3) = some o ∧
    ∃ c : ℝ, 0 < c ∧ Stands ρ 3 o (c • Finsupp.single 1 3) := by
  obtain ⟨d, hd⟩ := C76_unit_sign_partial (τ := τ) (ρ := ρ) (P := 3) (Q := 0) (R := 0) (by norm_num) _ _ (axis_represents 3)
    (by simp [weightC, coefWeight]) (by simp) rfl (by rintro ⟨c, h⟩; cases h) (axis_not_constant _) (by rw [norm_axis]; norm_num)
  refine ⟨d, fun k hk => ?_⟩
  obtain ⟨o, ho, c, h1, -, h2⟩ := hd k hk
  exact ⟨o, ho, c, h2 (by simp), h1⟩

/-- **C50** `unit(A)` of a multivector `A` whose squared norm does not depend on its stored coefficients (for instance because there
are none, `constant_norm`) is a positive multiple of `A` whose squared norm is `1` or `-1`, if it compiles and the squared norm of `A`
is not zero.  (Coefficients of the result that do not depend on stored ones are expressions like `2^(-1/2)` in its type.) -/
theorem C50_unit_constant (hN : P + Q + R ≤ 62) (M o : Object) (A : MV ℝ) (hM : Represents ρ (P + Q + R) M A)
    (hc : ConstantNorm ρ P Q R M) (hs : ¬ ScalarType M) (h0 : rnormSqr (signedProd P Q R) A ≠ 0)
    (h : unitObject P Q R k τ ρ M = some o) :
    ∃ c : ℝ, 0 < c ∧ Reads ρ (P + Q + R) o.expr o.values o.bitsets (c • A) ∧
      |rnormSqr (signedProd P Q R) (c • A)| = 1 := by
  have hs' := scalarCoef_none hs
  obtain ⟨v, hv⟩ := normCoef_unit (by omega) hM hs' h
  have hp : 0 < |rnormSqr (signedProd P Q R) A| := abs_pos.2 h0
  refine ⟨_, inv_pos.2 (Real.sqrt_pos.2 hp), unit_constant_norm hN hM hc hs' hv h0 h, ?_⟩
  rw [rnormSqr_smul, abs_mul, inv_pow, Real.sq_sqrt hp.le, abs_of_pos (inv_pos.2 hp)]
  exact inv_mul_cancel₀ hp.ne'

/-- **C76** and **C50** `unit(A)` compiles from some instantiation depth on, and is a positive multiple of `A` whose squared norm is
`1` or `-1`, for every multivector `A` whose squared norm is not zero and does not depend on its stored coefficients. -/
theorem C76_unit_constant (hN : P + Q + R ≤ 62) (M : Object) (A : MV ℝ) (hM : Represents ρ (P + Q + R) M A)
    (hw : weightC M.expr < 2 ^ 31) (hz : ∀ c ∈ M.expr, c.coef = .const 0 → c.blade = .const 0) (hs : ¬ ScalarType M)
    (hc : ConstantNorm ρ P Q R M) (h0 : rnormSqr (signedProd P Q R) A ≠ 0) :
    ∃ depth, ∀ k, depth ≤ k → ∃ o, unitObject P Q R k τ ρ M = some o ∧
      ∃ c : ℝ, 0 < c ∧ Reads ρ (P + Q + R) o.expr o.values o.bitsets (c • A) ∧
        |rnormSqr (signedProd P Q R) (c • A)| = 1 := by
  obtain ⟨a, ra, v, h⟩ := Total.norm_total hN hM hw (by norm_num) (by norm_num) (normal_of hz)
  obtain ⟨j, hj⟩ := h.coef
  obtain ⟨c, rfl⟩ := normCoef_constant hN hM (hj j le_rfl) hc
  have hv : rnormSqr (signedProd P Q R) A = c := by simpa [Denotes, den] using h.value.symm
  have hc0 : c ≠ 0 := by
    rintro rfl
    exact h0 (by simpa using hv)
  obtain ⟨k0, hk⟩ : ∃ k0, ∀ k, k0 ≤ k → ∃ o, unitObject P Q R k τ ρ M = some o := by
    by_cases h1 : |c| = 1
    · obtain ⟨k0, hk⟩ := Total.unit_one_total (τ := τ) hN h (eq_or_eq_neg_of_abs_eq h1) (scalarCoef_none hs)
      exact ⟨k0, fun k hle => (hk k hle).imp fun _ => And.left⟩
    · have := abs_pos.2 hc0
      exact Total.unit_const_total hN hM hw h (by omega) (scalarCoef_none hs)
  refine ⟨k0, fun k hle => ?_⟩
  obtain ⟨o, ho⟩ := hk k hle
  exact ⟨o, ho, C50_unit_constant hN M o A hM hc hs h0 ho⟩

-- it applies to `6 e1 + x e4`
example (x : ℝ) : ∃ depth, ∀ k, depth ≤ k → ∃ o, unitObject 3 0 1 k τ ρ (nullObj 6 x) = some o ∧
    ∃ c : ℝ, 0 < c ∧ Reads ρ 4 o.expr o.values o.bitsets (c • (Finsupp.single 1 ((6 : Int) : ℝ) + Finsupp.single 8 x)) := by
  obtain ⟨d, hd⟩ := C76_unit_constant (τ := τ) (ρ := ρ) (P := 3) (Q := 0) (R := 1) (by norm_num) _ _ (null_represents (v := 6) (by simp) x)
    (by simp [weightC, coefWeight]) (by simp) (by rintro ⟨c, h⟩; cases h) (null_constant 6 x) (by rw [norm_null]; norm_num)
  refine ⟨d, fun k hk => ?_⟩
  obtain ⟨o, ho, c, h1, h2, -⟩ := hd k hk
  exact ⟨o, ho, c, h1, h2⟩

/-- **C76** and **C50** For floating-point coefficients `unit(A)` compiles from some instantiation depth on, and is a multiple of `A`
whose squared norm is `1` or `-1`, for every multivector `A` with a non-zero squared norm.  If no stored coefficient is negative it is
a positive multiple.

Missing: the sign, which is wrong for some negative coefficients (`C50_unit_is_false`), and types of scalars (`C50_unit_scalar`). -/
theorem C76_unit_floating_partial (hN : P + Q + R ≤ 62) (M : Object) (A : MV ℝ) (hM : Represents ρ (P + Q + R) M A)
    (hw : weightC M.expr < 2 ^ 31) (hz : ∀ c ∈ M.expr, c.coef = .const 0 → c.blade = .const 0) (hf : M.floats = true)
    (hs : ¬ ScalarType M) (h0 : rnormSqr (signedProd P Q R) A ≠ 0) :
    ∃ depth, ∀ k, depth ≤ k → ∃ o, unitObject P Q R k τ ρ M = some o ∧
      ∃ c : ℝ, Reads ρ (P + Q + R) o.expr o.values o.bitsets (c • A) ∧ |rnormSqr (signedProd P Q R) (c • A)| = 1 ∧
        ((∀ x ∈ M.values, 0 ≤ x) → 0 < c) := by
  by_cases hc : ConstantNorm ρ P Q R M
  · obtain ⟨d, hd⟩ := C76_unit_constant (τ := τ) hN M A hM hw hz hs hc h0
    refine ⟨d, fun k hk => ?_⟩
    obtain ⟨o, ho, c, h1, h2, h3⟩ := hd k hk
    exact ⟨o, ho, c, h2, h3, fun _ => h1⟩
  · obtain ⟨d, hd⟩ := C76_unit_sign_partial (τ := τ) hN M A hM hw hz hf hs hc h0
    refine ⟨d, fun k hk => ?_⟩
    obtain ⟨o, ho, c, h1, h2, h3⟩ := hd k hk
    exact ⟨o, ho, c, h1.2, h2, h3⟩

-- the hypotheses hold for `3 e1`
example : ∃ depth, ∀ k, depth ≤ k → ∃ o, unitObject 3 0 0 k τ ρ (axisObj 3) = some o ∧
    ∃ c : ℝ, 0 < c ∧ Reads ρ 3 o.expr o.values o.bitsets (c • Finsupp.single 1 3) := by
  obtain ⟨d, hd⟩ := C76_unit_floating_partial (τ := τ) (ρ := ρ) (P := 3) (Q := 0) (R := 0) (by norm_num) _ _ (axis_represents 3)
    (by simp [weightC, coefWeight]) (by simp) rfl (by rintro ⟨c, h⟩; cases h) (by rw [norm_axis]; norm_num)
  refine ⟨d, fun k hk => ?_⟩
  obtain ⟨o, ho, c, h1, -, h2⟩ := hd k hk
  exact ⟨o, ho, c, h2 (by simp), h1⟩

/-- The vector `x e1 + y e2` with coefficients in its type. -/
abbrev constVec (x y : Int) : Object := ⟨false, [⟨.const x, .const 1⟩, ⟨.const y, .const 2⟩], [], []⟩

theorem constVec_represents {x y : Int} (hx : x ≠ 0) (hy : y ≠ 0) :
    Represents ρ 3 (constVec x y) (Finsupp.single 1 (x : ℝ) + Finsupp.single 2 (y : ℝ)) := by
  have h1 : WellTyped 3 ((x : ℝ), TBlade.const 1) := by simp only [WellTyped]; decide
  have h2 : WellTyped 3 ((y : ℝ), TBlade.const 2) := by simp only [WellTyped]; decide
  have hr := Reads.cons (.symbolic (.const x) x rfl (by constructor) (by simp [Denotes, den])) (.const 1) h1
    (Reads.cons (.symbolic (.const y) y rfl (by constructor) (by simp [Denotes, den])) (.const 2) h2 (Reads.nil (ρ := ρ)))
  exact ⟨⟨vec_canonical _ _ (by simpa using hx) (by simpa using hy), by simp⟩, by simpa [TBlade.bits] using hr⟩

-- it applies to `e1 + e2`, with the result `2^(-1/2) e1 + 2^(-1/2) e2`, and to `3 e1 - 4 e2`
theorem unit_constVec : unitExpr 3 0 0 40 (constVec 1 1).expr =
      some [⟨powerOf (.const 2) minusHalf, .const 1⟩, ⟨powerOf (.const 2) minusHalf, .const 2⟩] ∧
    (unitExpr 3 0 0 40 (constVec 3 (-4)).expr).isSome := by
  decide +kernel

example : ∃ (o : Object) (c : ℝ), unitObject 3 0 0 40 τ ρ (constVec 1 1) = some o ∧ 0 < c ∧
    Reads ρ 3 o.expr o.values o.bitsets (c • (Finsupp.single 1 1 + Finsupp.single 2 1)) := by
  have ho : ∃ o, unitObject 3 0 0 40 τ ρ (constVec 1 1) = some o := by
    rw [unit_pure (a := (constVec 1 1).expr) (by rfl) (by rfl) (by rfl) unit_constVec.1]
    exact ⟨_, rfl⟩
  obtain ⟨o, ho⟩ := ho
  have hr : Represents ρ (3 + 0 + 0) (constVec 1 1) (Finsupp.single 1 1 + Finsupp.single 2 1) := by
    simpa using constVec_represents (ρ := ρ) (x := 1) (y := 1) (by norm_num) (by norm_num)
  obtain ⟨c, h1, h2, -⟩ := C50_unit_constant (P := 3) (Q := 0) (R := 0) (by norm_num) _ o _ hr (constant_norm hr (by simp))
    (by rintro ⟨c, h⟩; cases h) (by rw [norm_vec]; norm_num) ho
  exact ⟨o, c, ho, h1, h2⟩

deriving instance DecidableEq for Instr

-- and to `3 e1 + x e4`, with the result `e1 + (1/3) x e4`
theorem unit_null : unitExpr 3 0 1 40 [⟨.const 3, .const 1⟩, ⟨.value 1 0, .const 8⟩] =
      some [⟨.const 1, .const 1⟩, ⟨.fn .mul [recip 3, .value 1 0], .const 8⟩] ∧
    compileC 40 1 1 [⟨.const 1, .const 1⟩, ⟨.fn .mul [recip 3, .value 1 0], .const 8⟩] =
      some ([⟨.const 1, .const 1⟩, ⟨.stored, .const 8⟩], [.value (.fn .mul [recip 3, .value 1 0])]) := by
  decide +kernel

example (x : ℝ) : ∃ (o : Object) (c : ℝ), unitObject 3 0 1 40 τ ρ (nullObj 3 x) = some o ∧ 0 < c ∧
    Reads ρ 4 o.expr o.values o.bitsets (c • (Finsupp.single 1 3 + Finsupp.single 8 x)) := by
  have ho : ∃ o, unitObject 3 0 1 40 τ ρ (nullObj 3 x) = some o := by
    rw [unit_pure (a := [⟨.const 3, .const 1⟩, ⟨.value 1 0, .const 8⟩]) (by rfl) (by rfl) (by rfl) unit_null.1]
    have hx : ∀ τ ρ, ∃ y, exec τ ρ [.value (.fn .mul [recip 3, .value 1 0])] = some (y, []) := by
      intro τ ρ
      have hb : Built (.fn .mul [recip 3, .value 1 0]) := .fn _ _
        (by simp [(exponent_recip (L := 0) (U := 0) 3).built, Built.value]) (by simp) (by simp) (by simp)
      have hq : NoIntQuotient τ (.fn .mul [recip 3, .value 1 0]) := by
        rw [NoIntQuotient]
        refine ⟨by simp [NoIntQuotientAll, NoIntQuotient], fun pre l r e => ?_⟩
        have := congrArg (fun x => x.reverse[0]?) e
        simp at this
      have hd : den ρ (.fn .mul [recip 3, .value 1 0]) = some (.num ((3 : ℝ) ^ (-1 : ℝ) * ρ.val 1 0)) := by
        have h3 : PowDefined 3 (-1) := .inl (by norm_num)
        simp [den, denList, interp, prodVals, h3]
      exact ⟨[_], by rw [exec]; simp only [eval_ok hb hq hd, exec, Option.bind_eq_bind, Option.bind_some]; rfl⟩
    obtain ⟨y, hy⟩ := hx (contextTypes τ 0 (storedInputs [nullObj 3 x])) (contextEnv ρ 0 (storedInputs [nullObj 3 x]))
    have he : contextEval 40 τ ρ [nullObj 3 x] [⟨.const 1, .const 1⟩, ⟨.fn .mul [recip 3, .value 1 0], .const 8⟩] =
        some ([⟨.const 1, .const 1⟩, ⟨.stored, .const 8⟩], y, []) := by
      have h1 : baseId [nullObj 3 x] = 0 := rfl
      have h2 : (storedInputs [nullObj 3 x]).isEmpty = false := rfl
      have h3 : (storedInputs [nullObj 3 x]).length = 1 := rfl
      simp only [contextEval, h1, h2, h3, Bool.false_eq_true, if_false, zero_add, unit_null.2, Option.bind_eq_bind,
        Option.bind_some, hy]
    rw [contextObject, he]
    exact ⟨_, rfl⟩
  obtain ⟨o, ho⟩ := ho
  have hr := null_represents (ρ := ρ) (v := 3) (by simp) x
  obtain ⟨c, h1, h2, -⟩ := C50_unit_constant (P := 3) (Q := 0) (R := 1) (by norm_num) _ o _ hr (null_constant 3 x)
    (by rintro ⟨c, h⟩; cases h) (by rw [norm_null]; norm_num) ho
  exact ⟨o, c, ho, h1, by simpa using h2⟩

-- the hypotheses hold for `3 e1 - 4 e2`
example : ∃ depth, ∀ k, depth ≤ k → ∃ o, normObject 3 0 0 k τ ρ (vecObj 3 (-4)) = some o ∧
    Represents ρ 3 o (Finsupp.single 0 (√(rnormSqr (signedProd 3 0 0) (Finsupp.single 1 3 + Finsupp.single 2 (-4))))) :=
  C76_rnorm_partial (by norm_num) _ _ (vec_represents 3 (-4)) (by simp [weightC, coefWeight]) (by simp)
    (vec_not_constant _ _) (vec_not_single _ _) (by rw [norm_vec]; norm_num)

example : ∃ depth, ∀ k, depth ≤ k → ∃ o, unitObject 3 0 0 k τ ρ (vecObj 3 (-4)) = some o := by
  obtain ⟨d, hd⟩ := C76_unit_partial (τ := τ) (ρ := ρ) (P := 3) (Q := 0) (R := 0) (by norm_num) _ _ (vec_represents 3 (-4))
    (by simp [weightC, coefWeight]) (by simp) (by rintro ⟨c, h⟩; cases h) (vec_not_constant _ _) (vec_not_square _ _)
    (by rw [norm_vec]; norm_num)
  exact ⟨d, fun k hk => (hd k hk).imp fun _ => And.left⟩

/-- **C76** `inv(A)` compiles from some instantiation depth on, and is the reverse of `A` divided by the squared norm, for
every multivector `A` with floating-point coefficients and a non-zero squared norm, if the sum of the sizes of the
compile-time coefficients of `A` is less than `2 ^ 31`, and a constant zero in the type of `A` is a scalar (as the library
makes it).

Missing: squared norms that are constant, for which the claim is proved if they are positive or `-1` (`C76_inverse_constant`) and false
for some other negative ones (`C76_inverse_is_false`), and integer coefficients, for which division rounds. -/
theorem C76_inverse_partial (hN : P + Q + R ≤ 62) (M : Object) (A : MV ℝ) (hM : Represents ρ (P + Q + R) M A)
    (hf : M.floats = true) (hw : weightC M.expr < 2 ^ 31) (hz : ∀ c ∈ M.expr, c.coef = .const 0 → c.blade = .const 0)
    (hc : ¬ ConstantNorm ρ P Q R M) (h0 : rnormSqr (signedProd P Q R) A ≠ 0) :
    ∃ depth, ∀ k, depth ≤ k → ∃ o, inverse P Q R k τ ρ M = some o ∧
      Stands ρ (P + Q + R) o ((rnormSqr (signedProd P Q R) A)⁻¹ • reverse A) := by
  obtain ⟨a, ra, v, h⟩ := Total.norm_total hN hM hw (by norm_num) (by norm_num) (normal_of hz)
  obtain ⟨j, hj⟩ := h.coef
  have hv := hj j le_rfl
  rcases Total.normCoef_shape hN hM hv hc with ⟨args, rfl, hsq⟩ | ⟨t, i, hs⟩
  · exact Total.inverse_total hN h hf (Total.sum_not_constant hsq) hsq h0
  · exact Total.inverse_square_total hN h hf hs h0

-- the hypotheses hold for `3 e1 - 4 e2`
example : ∃ depth, ∀ k, depth ≤ k → ∃ o, inverse 3 0 0 k τ ρ (vecObj 3 (-4)) = some o := by
  obtain ⟨d, hd⟩ := C76_inverse_partial (τ := τ) (ρ := ρ) (P := 3) (Q := 0) (R := 0) (by norm_num) _ _ (vec_represents 3 (-4))
    rfl (by simp [weightC, coefWeight]) (by simp) (vec_not_constant _ _) (by rw [norm_vec]; norm_num)
  exact ⟨d, fun k hk => (hd k hk).imp fun _ => And.left⟩

-- and for `-3 e1`, whose squared norm is the square of its only coefficient
example : ∃ depth, ∀ k, depth ≤ k → ∃ o, inverse 3 0 0 k τ ρ (axisObj (-3)) = some o := by
  obtain ⟨d, hd⟩ := C76_inverse_partial (τ := τ) (ρ := ρ) (P := 3) (Q := 0) (R := 0) (by norm_num) _ _ (axis_represents (-3))
    rfl (by simp [weightC, coefWeight]) (by simp) (by
      rintro ⟨c, h⟩
      have h1 := h [0] _ (axis_represents 0).2
      have h2 := h [1] _ (axis_represents 1).2
      rw [norm_axis] at h1 h2
      norm_num at h1 h2
      linarith) (by rw [norm_axis]; norm_num)
  exact ⟨d, fun k hk => (hd k hk).imp fun _ => And.left⟩

/-- **C76** `inv(A)` compiles from some instantiation depth on, and is the reverse of `A` divided by the squared norm, for every
multivector `A` whose squared norm does not depend on its stored coefficients and is positive or `-1`.  (Coefficients of the result that do
not depend on stored ones are expressions like `2^(-1)` in its type.) -/
theorem C76_inverse_constant (hN : P + Q + R ≤ 62) (M : Object) (A : MV ℝ) (hM : Represents ρ (P + Q + R) M A)
    (hw : weightC M.expr < 2 ^ 31) (hz : ∀ c ∈ M.expr, c.coef = .const 0 → c.blade = .const 0)
    (hc : ConstantNorm ρ P Q R M) (h0 : 0 < rnormSqr (signedProd P Q R) A ∨ rnormSqr (signedProd P Q R) A = -1) :
    ∃ depth, ∀ k, depth ≤ k → ∃ o, inverse P Q R k τ ρ M = some o ∧
      Reads ρ (P + Q + R) o.expr o.values o.bitsets ((rnormSqr (signedProd P Q R) A)⁻¹ • reverse A) := by
  obtain ⟨a, ra, v, h⟩ := Total.norm_total hN hM hw (by norm_num) (by norm_num) (normal_of hz)
  obtain ⟨j, hj⟩ := h.coef
  obtain ⟨c, rfl⟩ := normCoef_constant hN hM (hj j le_rfl) hc
  have hv : rnormSqr (signedProd P Q R) A = c := by simpa [Denotes, den] using h.value.symm
  exact Total.inverse_const_total hN hM hw h (by rw [hv] at h0; exact_mod_cast h0)

-- it applies to `6 e1 + x e4`, whose squared norm is `36`, and to the constant `3 e1 - 4 e2`
example (x : ℝ) : ∃ depth, ∀ k, depth ≤ k → ∃ o, inverse 3 0 1 k τ ρ (nullObj 6 x) = some o ∧
    Reads ρ 4 o.expr o.values o.bitsets ((36 : ℝ)⁻¹ • reverse (Finsupp.single 1 ((6 : Int) : ℝ) + Finsupp.single 8 x)) := by
  have := C76_inverse_constant (τ := τ) (ρ := ρ) (P := 3) (Q := 0) (R := 1) (by norm_num) _ _ (null_represents (v := 6) (by simp) x)
    (by simp [weightC, coefWeight]) (by simp) (null_constant 6 x) (.inl (by rw [norm_null]; norm_num))
  rw [norm_null] at this
  norm_num at this ⊢
  exact this

example : ∃ depth, ∀ k, depth ≤ k → ∃ o, inverse 3 0 0 k τ ρ (constVec 3 (-4)) = some o := by
  have hr : Represents ρ (3 + 0 + 0) (constVec 3 (-4)) _ := constVec_represents (by norm_num) (by norm_num)
  obtain ⟨d, hd⟩ := C76_inverse_constant (τ := τ) (P := 3) (Q := 0) (R := 0) (by norm_num) _ _ hr
    (by simp [weightC, coefWeight]) (by simp) (constant_norm hr (by simp)) (.inl (by rw [norm_vec]; norm_num))
  exact ⟨d, fun k hk => (hd k hk).imp fun _ => And.left⟩

-- and to the basis vector `e1` of a space where it squares to `-1`
example : ∃ depth, ∀ k, depth ≤ k → ∃ o, inverse 0 2 0 k τ ρ ⟨false, [⟨.const 1, .const 1⟩], [], []⟩ = some o ∧
    Reads ρ 2 o.expr o.values o.bitsets ((-1 : ℝ)⁻¹ • reverse (Finsupp.single 1 1)) := by
  have h1 : WellTyped 2 ((1 : ℝ), TBlade.const 1) := by simp only [WellTyped]; decide
  have hr : Represents ρ (0 + 2 + 0) ⟨false, [⟨.const 1, .const 1⟩], [], []⟩ (Finsupp.single 1 1) := by
    have := Reads.cons (.symbolic (.const 1) 1 rfl (by constructor) (by simp [Denotes, den])) (.const 1) h1 (Reads.nil (ρ := ρ))
    exact ⟨⟨canonical_single ⟨1, rfl, by decide⟩, by simp⟩, by simpa [TBlade.bits] using this⟩
  have hn : rnormSqr (signedProd 0 2 0) (Finsupp.single 1 1) = (-1 : ℝ) := by
    have h1 : par (1 : Word) 1 = 0 := by decide +kernel
    have f1 : signedFactor 0 2 0 1 = -1 := by decide
    unfold rnormSqr signedProd
    simp only [reverse_single, sp_single, h1, f1]
    simp [sg]
  have := C76_inverse_constant (τ := τ) (P := 0) (Q := 2) (R := 0) (by norm_num) _ _ hr (by simp [weightC, coefWeight]) (by simp)
    (constant_norm hr (by simp)) (.inr hn)
  rwa [hn] at this

/-- **C76** is false as stated: in the space with signature `(0, 2, 0)`, the inverse of the constant `e1 - e2`, whose
squared norm is `-2`, does not compile, whatever the instantiation depth. -/
theorem C76_inverse_is_false :
    Represents ρ (0 + 2 + 0) differenceObj (Finsupp.single 1 1 + Finsupp.single 2 (-1)) ∧
    rnormSqr (signedProd 0 2 0) (Finsupp.single 1 1 + Finsupp.single 2 (-1)) = -2 ∧
    ∀ k, inverse 0 2 0 k τ ρ differenceObj = none := by
  refine ⟨⟨⟨?_, by simp⟩, ?_⟩, ?_, fun k => inverse_fails⟩
  · exact vec_canonical _ _ (by simp) (by simp)
  · have h1 : WellTyped 2 ((1 : ℝ), TBlade.const 1) := by simp only [WellTyped]; decide
    have h2 : WellTyped 2 ((-1 : ℝ), TBlade.const 2) := by simp only [WellTyped]; decide
    have := Reads.cons (.symbolic (.const 1) 1 rfl (by constructor) (by simp [Denotes, den])) (.const 1) h1
      (Reads.cons (.symbolic (.const (-1)) (-1) rfl (by constructor) (by simp [Denotes, den])) (.const 2) h2 (Reads.nil (ρ := ρ)))
    simpa [TBlade.bits] using this
  · have h1 : par (1 : Word) 1 = 0 := by decide +kernel
    have h2 : par (2 : Word) 2 = 0 := by decide +kernel
    have f1 : signedFactor 0 2 0 1 = -1 := by decide
    have f2 : signedFactor 0 2 0 2 = -1 := by decide
    unfold rnormSqr signedProd
    simp only [reverse_add, reverse_single, prod_add_left, prod_add_right, sp_single, h1, h2, f1, f2]
    simp [sg]

end GATL.Props
