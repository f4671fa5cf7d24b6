import Verif.Proofs.ExpSeries
import Verif.Props.Unit

/-!
# Exponentials

**C37**: `exp`.

`expObject P Q R k τ ρ M T` is `exp(M, T)` in the space with signature `(P, Q, R)`, where the scalar `T` is the
tolerance.  `IsExponential P Q R B E` says that the exponential series of `B` converges to `E`.
-/

namespace GATL.Props

open Expr Spec

variable {τ : Types} {ρ : Env} {P Q R k : Nat}

/-- **C37** The exponential of a stored or constant scalar; the tolerance does not matter. -/
theorem C37_scalar (hN : P + Q + R ≤ 62) (M T o : Object) (x : ℝ)
    (hM : Represents ρ (P + Q + R) M (Finsupp.single 0 x)) (he : ∃ c, M.expr = [⟨c, .const 0⟩])
    (h : expObject P Q R k τ ρ M T = some o) :
    Reads ρ (P + Q + R) o.expr o.values o.bitsets (Finsupp.single 0 (Real.exp x)) ∧
      IsExponential P Q R (Finsupp.single 0 x) (Finsupp.single 0 (Real.exp x)) ∧
      (M.expr = [⟨.stored, .const 0⟩] → Represents ρ (P + Q + R) o (Finsupp.single 0 (Real.exp x))) := by
  have hsc : (scalarCoef M.expr).isSome = true := by obtain ⟨c, he⟩ := he; rw [he]; rfl
  simp only [expObject, hsc, if_true] at h
  obtain ⟨h1, h2⟩ := exp_scalar_call hN hM he h
  exact ⟨h1, scalar_exponential (by omega) x, h2⟩

/-- **C37** The exponential of a multivector `B` of any type, whose square is the scalar `s`, is the sum of its
exponential series if `s` is zero or exceeds the tolerance, or if the type is that of a scalar; otherwise it is the
sum `1 + B` of the first two terms.

The last line: the coefficients of the result are stored or integers (and not constant expressions such as `cos(1)`),
unless tolerance and square are constants of the types and the square exceeds the tolerance. -/
theorem C37_exponential (hN : P + Q + R ≤ 62) (M T o : Object) (B : MV ℝ) (s tol : ℝ)
    (hM : Represents ρ (P + Q + R) M B) (hT : ScalarValue ρ (P + Q + R) T tol) (h0 : 0 ≤ tol)
    (hs : signedProd P Q R .gp B B = Finsupp.single 0 s) (h : expObject P Q R k τ ρ M T = some o) :
    ∃ E, Reads ρ (P + Q + R) o.expr o.values o.bitsets E ∧
      (tol < |s| ∨ s = 0 ∨ (∃ c, M.expr = [⟨c, .const 0⟩]) → IsExponential P Q R B E) ∧
      (|s| ≤ tol → (∀ c, M.expr ≠ [⟨c, .const 0⟩]) → E = Finsupp.single 0 1 + B) ∧
      ((∀ c, M.expr ≠ [⟨c, .const 0⟩]) →
        (T.expr = [⟨.stored, .const 0⟩] ∨ ∀ c, ConstantSquare ρ P Q R M c → |c| ≤ tol) → Represents ρ (P + Q + R) o E) := by
  by_cases hsc : ∃ c, M.expr = [⟨c, .const 0⟩]
  · obtain ⟨x, rfl⟩ : ∃ x, B = Finsupp.single 0 x := by
      obtain ⟨c, hsc⟩ := hsc
      have := hM.2
      rw [hsc] at this
      generalize M.values = vs, M.bitsets = ws at this
      cases this with
      | cons h1 h2 h3 h4 =>
        cases h4
        cases h2
        exact ⟨_, add_zero _⟩
    obtain ⟨h1, h2, -⟩ := C37_scalar hN M T o x hM hsc h
    exact ⟨_, h1, fun _ => h2, fun _ hn => (hn _ hsc.choose_spec).elim, fun hn => (hn _ hsc.choose_spec).elim⟩
  have hsc' : scalarCoef M.expr = none := by
    cases hs : scalarCoef M.expr with
    | none => rfl
    | some c => exact absurd ⟨c, scalarCoef_inv hs⟩ hsc
  obtain ⟨y, E, hy, rfl, ho, ho'⟩ := exp_call hN hM hT h0 hsc' h
  have es : signedProd P Q R .gp B B 0 = s := by rw [hs]; simp
  rw [es] at hy ho ho'
  refine ⟨_, ho, fun ht => ?_, fun ht _ => by simp [cosCoef, sinCoef, ht], fun _ => ho'⟩
  obtain ⟨h1, h2⟩ := series_coef hy (ht.imp_right fun h => h.resolve_right hsc) h0
  exact exponential_of (by omega) hs h1 h2

/-- **C37** The exponential of `-B` is the inverse of the exponential of `B`, if the square of `B` is zero or exceeds
the tolerance. -/
theorem C37_inverse (hN : P + Q + R ≤ 62) (M M' T o o' : Object) (B : MV ℝ) (s tol : ℝ)
    (hM : Represents ρ (P + Q + R) M B) (hM' : Represents ρ (P + Q + R) M' (-B))
    (hT : ScalarValue ρ (P + Q + R) T tol) (h0 : 0 ≤ tol)
    (hs : signedProd P Q R .gp B B = Finsupp.single 0 s) (ht : tol < |s| ∨ s = 0)
    (h : expObject P Q R k τ ρ M T = some o) (h' : expObject P Q R k τ ρ M' T = some o') :
    ∃ E E', Reads ρ (P + Q + R) o.expr o.values o.bitsets E ∧ Reads ρ (P + Q + R) o'.expr o'.values o'.bitsets E' ∧
      signedProd P Q R .gp E E' = Finsupp.single 0 1 ∧ signedProd P Q R .gp E' E = Finsupp.single 0 1 := by
  have hs' : signedProd P Q R .gp (-B) (-B) = Finsupp.single 0 s := by
    rw [← hs]
    unfold signedProd
    rw [← neg_one_smul ℝ B, prod_smul_left, prod_smul_right, smul_smul]
    norm_num
  obtain ⟨E, ho, he, -⟩ := C37_exponential hN M T o B s tol hM hT h0 hs h
  obtain ⟨E', ho', he', -⟩ := C37_exponential hN M' T o' (-B) s tol hM' hT h0 hs' h'
  have hy := Real.sq_sqrt (abs_nonneg s)
  obtain ⟨h1, h2⟩ := series_coef hy ht h0
  have hid := coef_identity (x := s) (y := √|s|) hy ht h0
  have e : E = Finsupp.single 0 (cosCoef s √|s| tol) + sinCoef s √|s| tol • B := by
    ext b
    exact (he (by tauto) b).unique (exponential_of (by omega) hs h1 h2 b)
  have e' : E' = Finsupp.single 0 (cosCoef s √|s| tol) + sinCoef s √|s| tol • -B := by
    ext b
    exact (he' (by tauto) b).unique (exponential_of (by omega) hs' h1 h2 b)
  refine ⟨E, E', ho, ho', ?_, ?_⟩
  · rw [e, e']
    exact exp_inverse (by omega) hs hid
  · have := exp_inverse (by omega) hs' hid
    rw [e, e']
    rwa [neg_neg] at this

/-! ### A plane in three dimensions -/

/-- The bivector `x e1^e2`. -/
abbrev planeObj (x : ℝ) : Object := ⟨true, [⟨.stored, .const 3⟩], [x], []⟩

theorem plane_represents (x : ℝ) : Represents ρ 3 (planeObj x) (Finsupp.single 3 x) := by
  refine ⟨⟨canonical_single ⟨3, rfl, by decide⟩, by simp⟩, ?_⟩
  have h1 : WellTyped 3 (x, TBlade.const 3) := by simp only [WellTyped]; decide
  have := Reads.cons (.stored x) (.const 3) h1 (Reads.nil (ρ := ρ))
  simpa [TBlade.bits] using this

theorem plane_square (x : ℝ) :
    signedProd 3 0 0 .gp (Finsupp.single 3 x : MV ℝ) (Finsupp.single 3 x) = Finsupp.single 0 (-(x ^ 2)) := by
  have h1 : reorderingSign 3 3 = -1 := by decide +kernel
  have h2 : areValidGrades .gp (ones 3) (ones 3) (ones (3 ^^^ 3)) = true := by decide +kernel
  have f1 : signedFactor 3 0 0 (3 &&& 3) = 1 := by decide
  unfold signedProd orthProd
  rw [bilin_single]
  have e : orthMul (fun b => ((signedFactor 3 0 0 b : Int) : ℝ)) .gp 3 3 = (-1, 0) := by
    unfold orthMul
    simp only [h2, if_true, h1, f1]
    simp
  rw [e]
  congr 1
  ring

theorem plane_constant (x c : ℝ) (h : ConstantSquare ρ 3 0 0 (planeObj x) c) : c = 0 := by
  have h1 := h [0] _ (plane_represents 0).2
  rw [plane_square] at h1
  simpa using h1.symm

/-- The type of the square of `x e1^e2`, its absolute value and its root. -/
abbrev planeSquare : Expr := .fn .mul [.const (-1), powerOf (.value 1 0) (.const 2)]
@[inherit_doc planeSquare]
abbrev planeAbs : Expr := .fn .absolute [planeSquare]
@[inherit_doc planeSquare]
abbrev planeRoot : Expr := powerOf planeAbs half

theorem exp_plane_type : expExpr 3 0 0 40 [⟨.value 1 0, .const 3⟩] (.value 2 0) =
    some [⟨.fn .ifElse [.fn .lessOrEqual [planeAbs, .value 2 0], .const 1,
        .fn .ifElse [.fn .lessOrEqual [planeSquare, .const 0], .fn .cosine [planeRoot], .fn .hcosine [planeRoot]]], .const 0⟩,
      ⟨.fn .mul [.fn .ifElse [.fn .lessOrEqual [planeAbs, .value 2 0], .const 1,
        .fn .ifElse [.fn .lessOrEqual [planeSquare, .const 0],
          .fn .mul [.fn .sine [planeRoot], powerOf planeAbs minusHalf],
          .fn .mul [.fn .hsine [planeRoot], powerOf planeAbs minusHalf]]], .value 1 0], .const 3⟩] := by
  decide +kernel

/-- `exp(x e1^e2, t)` compiles and is evaluated. -/
theorem exp_plane (x t : ℝ) (h : t < x * x) (h0 : 0 ≤ t) : ∃ o, expObject 3 0 0 40 τ ρ (planeObj x) (scalarObj t) = some o ∧
    o.expr = [⟨.stored, .const 0⟩, ⟨.stored, .const 3⟩] := by
  have h1 : arguments (baseId [planeObj x, scalarObj t]) [planeObj x, scalarObj t] =
      some [[⟨.value 1 0, .const 3⟩], [⟨.value 2 0, .const 0⟩]] := by rfl
  have h2 : scalarCoef (planeObj x).expr = none := by rfl
  simp only [expObject, h2, h1, Option.bind_eq_bind, Option.bind_some, scalarCoef_single, exp_plane_type,
    Option.isSome_none, Bool.false_eq_true, if_false]
  have hp : PowDefined (x * x) (-2⁻¹) := .inl (by linarith)
  have hn : ¬ x * x ≤ t := by linarith
  have hz : ¬ x * x ≤ 0 := by linarith
  have hq : 0 ≤ x * x := by linarith
  exact ⟨_, contextObject_some (s' := [⟨.stored, .const 0⟩, ⟨.stored, .const 3⟩])
    (vs := [Real.cos √(x * x), Real.sin √(x * x) * (x * x) ^ (-2⁻¹ : ℝ) * x]) (ws := [])
    (by simp [storedInputs, hasStoredC, hasStored]) (by rfl)
    (by simp [exec, eval, evalList, evalFn, evalAdd, evalMul, evalPower, contextEnv, num2, asNumber, baseId, storedInputs,
      hasStoredC, hasStored, greaterIdC, greaterId, Blade.greaterId, num1, stdPow, hp, hn, hz, hq, half, minusHalf]), rfl⟩

-- the theorem applies to `exp(2 e1^e2, 1)`
example : ∃ o E, expObject 3 0 0 40 τ ρ (planeObj 2) (scalarObj 1) = some o ∧ Represents ρ 3 o E ∧
    IsExponential 3 0 0 (Finsupp.single 3 2) E := by
  obtain ⟨o, ho, -⟩ := exp_plane (τ := τ) (ρ := ρ) 2 1 (by norm_num) (by norm_num)
  obtain ⟨E, -, h2, -, h4⟩ := C37_exponential (P := 3) (Q := 0) (R := 0) (by norm_num) _ _ o _ _ 1
    (plane_represents 2) (scalarObj_value 3 1) (by norm_num) (plane_square 2) ho
  exact ⟨o, E, ho, h4 (by simp) (.inl rfl), h2 (.inl (by norm_num))⟩

-- and `exp(2 e1^e2, 1) exp(-2 e1^e2, 1) = 1`
example : ∃ o o' E E', expObject 3 0 0 40 τ ρ (planeObj 2) (scalarObj 1) = some o ∧
    expObject 3 0 0 40 τ ρ (planeObj (-2)) (scalarObj 1) = some o' ∧
    Reads ρ 3 o.expr o.values o.bitsets E ∧ Reads ρ 3 o'.expr o'.values o'.bitsets E' ∧
    signedProd 3 0 0 .gp E E' = Finsupp.single 0 1 := by
  obtain ⟨o, ho, -⟩ := exp_plane (τ := τ) (ρ := ρ) 2 1 (by norm_num) (by norm_num)
  obtain ⟨o', ho', -⟩ := exp_plane (τ := τ) (ρ := ρ) (-2) 1 (by norm_num) (by norm_num)
  have := plane_represents (ρ := ρ) (-2)
  rw [Finsupp.single_neg] at this
  obtain ⟨E, E', h1, h2, h3, -⟩ := C37_inverse (P := 3) (Q := 0) (R := 0) (by norm_num) _ _ _ o o' _ _ 1
    (plane_represents 2) this (scalarObj_value 3 1) (by norm_num) (plane_square 2) (.inl (by norm_num)) ho ho'
  exact ⟨o, o', E, E', ho, ho', h1, h2, h3⟩

/-- The constant bivector `e1^e2`. -/
abbrev unitPlane : Object := ⟨true, [⟨.const 1, .const 3⟩], [], []⟩

theorem unitPlane_represents : Represents ρ 3 unitPlane (Finsupp.single 3 1) := by
  refine ⟨⟨canonical_single ⟨3, rfl, by decide⟩, by simp⟩, ?_⟩
  have h1 : WellTyped 3 ((1 : ℝ), TBlade.const 3) := by simp only [WellTyped]; decide
  have hc : CoefReads ρ (.const 1) [] 1 := .symbolic _ _ rfl (.const 1) (by simp [Denotes, den])
  have := Reads.cons hc (.const 3) h1 (Reads.nil (ρ := ρ))
  simpa [TBlade.bits] using this

theorem exp_unit_type : expExpr 3 0 0 40 [⟨.const 1, .const 3⟩] (.value 1 0) =
    some [⟨.fn .ifElse [.fn .lessOrEqual [.const 1, .value 1 0], .const 1, .fn .cosine [.const 1]], .const 0⟩,
      ⟨.fn .ifElse [.fn .lessOrEqual [.const 1, .value 1 0], .const 1, .fn .sine [.const 1]], .const 3⟩] := by
  decide +kernel

-- `exp(e1^e2, 0.5)`: the square is a constant
example : ∃ o E, expObject 3 0 0 40 τ ρ unitPlane (scalarObj (1 / 2)) = some o ∧ Represents ρ 3 o E ∧
    IsExponential 3 0 0 (Finsupp.single 3 1) E := by
  have h : ∃ o, expObject 3 0 0 40 τ ρ unitPlane (scalarObj (1 / 2)) = some o := by
    have h1 : arguments (baseId [unitPlane, scalarObj (1 / 2)]) [unitPlane, scalarObj (1 / 2)] =
        some [[⟨.const 1, .const 3⟩], [⟨.value 1 0, .const 0⟩]] := by rfl
    have h2 : scalarCoef unitPlane.expr = none := by rfl
    simp only [expObject, h2, h1, Option.bind_eq_bind, Option.bind_some, scalarCoef_single, exp_unit_type,
      Option.isSome_none, Bool.false_eq_true, if_false]
    have hn : ¬ (1 : ℝ) ≤ 2⁻¹ := by norm_num
    have hf : storedInputs [unitPlane, scalarObj (1 / 2)] = [scalarObj (1 / 2)] := rfl
    exact ⟨_, contextObject_some (s' := [⟨.stored, .const 0⟩, ⟨.stored, .const 3⟩])
      (vs := [Real.cos 1, Real.sin 1]) (ws := [])
      (by rw [hf]; simp) (by rfl)
      (by rw [hf]; simp [exec, eval, evalList, evalFn, contextEnv, num2, asNumber, baseId,
        greaterIdC, greaterId, Blade.greaterId, num1, hn])⟩
  obtain ⟨o, ho⟩ := h
  have hsq := plane_square 1
  norm_num at hsq
  obtain ⟨E, -, h2, -, h4⟩ := C37_exponential (P := 3) (Q := 0) (R := 0) (by norm_num) _ _ o _ (-1) (1 / 2)
    unitPlane_represents (scalarObj_value 3 (1 / 2)) (by norm_num) (by rw [hsq]; simp) ho
  exact ⟨o, E, ho, h4 (by simp) (.inl rfl), h2 (.inl (by norm_num))⟩

-- `exp(e1^e2, 0)` with the constant `0` is the constant expression `cos(1) + sin(1) e1^e2`
example : ∃ o E, expObject 3 0 0 40 τ ρ unitPlane (constObject 0) = some o ∧
    o.expr = [⟨.fn .cosine [.const 1], .const 0⟩, ⟨.fn .sine [.const 1], .const 3⟩] ∧
    Reads ρ 3 o.expr o.values o.bitsets E ∧ IsExponential 3 0 0 (Finsupp.single 3 1) E := by
  have h : ∃ o, expObject 3 0 0 40 τ ρ unitPlane (constObject 0) = some o ∧
      o.expr = [⟨.fn .cosine [.const 1], .const 0⟩, ⟨.fn .sine [.const 1], .const 3⟩] := by
    have h1 : arguments (baseId [unitPlane, constObject 0]) [unitPlane, constObject 0] =
        some [[⟨.const 1, .const 3⟩], [⟨.const 0, .const 0⟩]] := by rfl
    have h2 : scalarCoef unitPlane.expr = none := by rfl
    have h3 : expExpr 3 0 0 40 [⟨.const 1, .const 3⟩] (.const 0) =
        some [⟨.fn .cosine [.const 1], .const 0⟩, ⟨.fn .sine [.const 1], .const 3⟩] := by decide +kernel
    simp only [expObject, h2, h1, Option.bind_eq_bind, Option.bind_some, scalarCoef_single, h3,
      Option.isSome_none, Bool.false_eq_true, if_false]
    exact ⟨_, rfl, rfl⟩
  obtain ⟨o, ho, he⟩ := h
  have hsq := plane_square 1
  norm_num at hsq
  have hT : ScalarValue ρ 3 (constObject 0) 0 := by
    refine ⟨⟨_, rfl⟩, ⟨canonical_single ⟨0, rfl, by decide⟩, by simp [constObject, constSum]⟩, ?_⟩
    have h1 : WellTyped 3 ((0 : ℝ), TBlade.const 0) := by simp only [WellTyped]; decide
    have hc : CoefReads ρ (.const 0) [] 0 := .symbolic _ _ rfl (.const 0) (by simp [Denotes, den])
    have := Reads.cons hc (.const 0) h1 (Reads.nil (ρ := ρ))
    simpa [TBlade.bits, constObject, constSum] using this
  obtain ⟨E, h1, h2, -⟩ := C37_exponential (P := 3) (Q := 0) (R := 0) (by norm_num) _ _ o _ (-1) 0
    unitPlane_represents hT le_rfl (by rw [hsq]; simp) ho
  exact ⟨o, E, ho, he, h1, h2 (.inl (by norm_num))⟩

/-! ### A type with a scalar component -/

/-- The multivector `x + y e1^e2`. -/
abbrev complexObj (x y : ℝ) : Object := ⟨true, [⟨.stored, .const 0⟩, ⟨.stored, .const 3⟩], [x, y], []⟩

theorem complex_represents (x y : ℝ) :
    Represents ρ 3 (complexObj x y) (Finsupp.single 0 x + Finsupp.single 3 y) := by
  have hcan : Canonical [⟨.stored, .const 0⟩, ⟨.stored, .const 3⟩] := by
    refine ⟨by simp, ?_, ?_, .inr (by simp)⟩
    · simp only [List.mem_cons, List.not_mem_nil, or_false, forall_eq_or_imp, forall_eq]
      exact ⟨⟨0, rfl, by decide⟩, 3, rfl, by decide⟩
    · simp only [List.pairwise_cons, List.mem_singleton, forall_eq, Blade.const.injEq]
      refine ⟨?_, by simp⟩
      rintro a b rfl rfl
      exact .inl (by decide)
  refine ⟨⟨hcan, by simp⟩, ?_⟩
  have h1 : WellTyped 3 (x, TBlade.const 0) := by simp only [WellTyped]; decide
  have h2 : WellTyped 3 (y, TBlade.const 3) := by simp only [WellTyped]; decide
  have := Reads.cons (.stored x) (.const 0) h1 (Reads.cons (.stored y) (.const 3) h2 (Reads.nil (ρ := ρ)))
  simpa [TBlade.bits] using this

/-- The type of the scalar part of the square of `x + y e1^e2`, its absolute value and its root. -/
abbrev complexSquare : Expr :=
  .fn .add [powerOf (.value 1 0) (.const 2), .fn .mul [.const (-1), powerOf (.value 1 1) (.const 2)]]
@[inherit_doc complexSquare]
abbrev complexAbs : Expr := .fn .absolute [complexSquare]
@[inherit_doc complexSquare]
abbrev complexRoot : Expr := powerOf complexAbs half
/-- The factor of the argument. -/
abbrev complexSine : Expr := .fn .ifElse [.fn .lessOrEqual [complexAbs, .value 2 0], .const 1,
  .fn .ifElse [.fn .lessOrEqual [complexSquare, .const 0],
    .fn .mul [.fn .sine [complexRoot], powerOf complexAbs minusHalf],
    .fn .mul [.fn .hsine [complexRoot], powerOf complexAbs minusHalf]]]

theorem exp_complex_type : expExpr 3 0 0 40 [⟨.value 1 0, .const 0⟩, ⟨.value 1 1, .const 3⟩] (.value 2 0) =
    some [⟨.fn .add [.fn .ifElse [.fn .lessOrEqual [complexAbs, .value 2 0], .const 1,
          .fn .ifElse [.fn .lessOrEqual [complexSquare, .const 0], .fn .cosine [complexRoot], .fn .hcosine [complexRoot]]],
        .fn .mul [.value 1 0, complexSine]], .const 0⟩,
      ⟨.fn .mul [complexSine, .value 1 1], .const 3⟩] := by
  decide +kernel

-- `exp(0 + 2 e1^e2, 1)`
example : ∃ o E, expObject 3 0 0 40 τ ρ (complexObj 0 2) (scalarObj 1) = some o ∧ Represents ρ 3 o E ∧
    IsExponential 3 0 0 (Finsupp.single 3 2) E := by
  have h : ∃ o, expObject 3 0 0 40 τ ρ (complexObj 0 2) (scalarObj 1) = some o := by
    have h1 : arguments (baseId [complexObj 0 2, scalarObj 1]) [complexObj 0 2, scalarObj 1] =
        some [[⟨.value 1 0, .const 0⟩, ⟨.value 1 1, .const 3⟩], [⟨.value 2 0, .const 0⟩]] := by rfl
    have h2 : scalarCoef (complexObj 0 2).expr = none := by rfl
    simp only [expObject, h2, h1, Option.bind_eq_bind, Option.bind_some, scalarCoef_single, exp_complex_type,
      Option.isSome_none, Bool.false_eq_true, if_false]
    have hp : PowDefined (2 * 2) (-2⁻¹) := .inl (by norm_num)
    have hn : ¬ (2 : ℝ) * 2 ≤ 1 := by norm_num
    have hz : ¬ (2 : ℝ) * 2 ≤ 0 := by norm_num
    exact ⟨_, contextObject_some (s' := [⟨.stored, .const 0⟩, ⟨.stored, .const 3⟩])
      (vs := [Real.cos √(2 * 2), Real.sin √(2 * 2) * (2 * 2) ^ (-2⁻¹ : ℝ) * 2]) (ws := [])
      (by simp [storedInputs, hasStoredC, hasStored]) (by rfl)
      (by simp [exec, eval, evalList, evalFn, evalAdd, evalMul, evalPower, contextEnv, num2, asNumber, baseId, storedInputs,
        hasStoredC, hasStored, greaterIdC, greaterId, Blade.greaterId, num1, stdPow, hp, hn, hz, half, minusHalf])⟩
  obtain ⟨o, ho⟩ := h
  have hr := complex_represents (ρ := ρ) 0 2
  rw [Finsupp.single_zero, zero_add] at hr
  obtain ⟨E, -, h2, -, h4⟩ := C37_exponential (P := 3) (Q := 0) (R := 0) (by norm_num) _ _ o _ _ 1
    hr (scalarObj_value 3 1) (by norm_num) (plane_square 2) ho
  exact ⟨o, E, ho, h4 (by simp) (.inl rfl), h2 (.inl (by norm_num))⟩

-- the exponential of a scalar
example (x : ℝ) : ∃ o, expObject 3 0 0 40 τ ρ (scalarObj x) (scalarObj 1) = some o ∧
    Represents ρ 3 o (Finsupp.single 0 (Real.exp x)) := by
  have h : ∃ o, expObject 3 0 0 40 τ ρ (scalarObj x) (scalarObj 1) = some o := by
    have h1 : arguments (baseId [scalarObj x]) [scalarObj x] = some [[⟨.value 1 0, .const 0⟩]] := by rfl
    have h2 : (scalarCoef (scalarObj x).expr).isSome = true := by rfl
    simp only [expObject, h2, if_true, expScalar, call1, h1, Option.bind_eq_bind, Option.bind_some, scalarCoef_single, mkExp]
    exact ⟨_, contextObject_some (s' := [⟨.stored, .const 0⟩]) (vs := [Real.exp x]) (ws := [])
      (by simp [storedInputs, hasStoredC, hasStored]) (by rfl)
      (by simp [exec, eval, evalList, evalFn, contextEnv, asNumber, baseId, storedInputs,
        hasStoredC, hasStored, greaterIdC, greaterId, Blade.greaterId])⟩
  obtain ⟨o, ho⟩ := h
  exact ⟨o, ho, (C37_scalar (P := 3) (Q := 0) (R := 0) (by norm_num) _ _ o x (scalarObj_value 3 x).2 ⟨_, rfl⟩ ho).2.2 rfl⟩

end GATL.Props
