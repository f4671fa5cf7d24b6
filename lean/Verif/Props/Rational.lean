import Verif.Proofs.RationalType
import Verif.Props.Unit
import Verif.Props.Versor

/-!
# Programs with inverses

**C58**.  `t.runLazy P Q R k τ ρ Ms` is the straight-line program `t` of the inputs `Ms`, evaluated in one lazy
context in the space with signature `(P, Q, R)`; `Stands ρ n M A` says that the object `M` stands for the
multivector `A` of a space with `n` dimensions; `t.value P Q R As` is the value of the same program on
multivectors with real coefficients (`Verif/Spec/Rational.lean`).
-/

namespace GATL.Props

open Expr Spec

variable {τ : Types} {ρ : Env} {P Q R k : Nat}

/-- **C58** Lazy evaluation of a program with sums, differences, products, involutions and inverses gives the value
of the program, wherever no multivector with a vanishing squared norm is inverted, and the result can be used as
an input of the next program.

Missing: programs whose type contains a quotient of two integers, for which the claim is false
(`C58_integer_division_is_false`). -/
theorem C58_program_partial (hN : P + Q + R ≤ 62) (t : Rational) (Ms : List Object) (As : List (MV ℝ)) (o : Object)
    (B : MV ℝ) (hM : List.Forall₂ (Stands ρ (P + Q + R)) Ms As) (hv : t.value P Q R As = some B)
    (hq : NoIntegerDivision P Q R k τ ρ Ms t) (h : t.runLazy P Q R k τ ρ Ms = some o) :
    Stands ρ (P + Q + R) o B :=
  rational_stands hN hM t hv hq h

/-- **C58** `inv(V)` for a versor `V` stands for its inverse on both sides. -/
theorem C58_inverse_partial (hN : P + Q + R ≤ 62) (M o : Object) (vs : List (MV ℝ))
    (hf : VersorFactors (signedProd P Q R) vs) (hM : Stands ρ (P + Q + R) M (productOf (signedProd P Q R) vs))
    (hq : NoIntegerDivision P Q R k τ ρ [M] Rational.inverseProgram)
    (h : Rational.inverseProgram.runLazy P Q R k τ ρ [M] = some o) :
    ∃ W, Stands ρ (P + Q + R) o W ∧ signedProd P Q R .gp (productOf (signedProd P Q R) vs) W = scalar 1 ∧
      signedProd P Q R .gp W (productOf (signedProd P Q R) vs) = scalar 1 := by
  obtain ⟨W, hW, h1, h2⟩ := C15_inverse P Q R (by omega) vs hf
  refine ⟨W, C58_program_partial hN _ _ _ o W (.cons hM .nil) ?_ hq h, h1, h2⟩
  unfold inv invScalar at hW
  by_cases h0 : rnormSqr (signedProd P Q R) (productOf (signedProd P Q R) vs) = 0
  · simp [h0] at hW
  rw [if_neg h0] at hW
  simp only [Option.map_some, realProd_scalar, Option.some.injEq] at hW
  simp only [Rational.inverseProgram, Rational.value, Program.value, List.getD_cons_zero, if_neg h0]
  simp [hW]

/-- **C58** `igp(A, V)` for a versor `V` stands for the one and only `X` with `X * V = A`. -/
theorem C58_division_partial (hN : P + Q + R ≤ 62) (M M' o : Object) (A : MV ℝ) (vs : List (MV ℝ))
    (hf : VersorFactors (signedProd P Q R) vs) (hM : Stands ρ (P + Q + R) M A)
    (hM' : Stands ρ (P + Q + R) M' (productOf (signedProd P Q R) vs))
    (hq : NoIntegerDivision P Q R k τ ρ [M, M'] Rational.divideProgram)
    (h : Rational.divideProgram.runLazy P Q R k τ ρ [M, M'] = some o) :
    ∃ X, Stands ρ (P + Q + R) o X ∧
      ∀ Y, signedProd P Q R .gp Y (productOf (signedProd P Q R) vs) = A ↔ Y = X := by
  obtain ⟨X, hX, h1⟩ := C15_igp P Q R (by omega) vs hf A
  refine ⟨X, C58_program_partial hN _ _ _ o X (.cons hM (.cons hM' .nil)) ?_ hq h, h1⟩
  unfold igp inv invScalar at hX
  by_cases h0 : rnormSqr (signedProd P Q R) (productOf (signedProd P Q R) vs) = 0
  · simp [h0] at hX
  rw [if_neg h0] at hX
  simp only [Option.map_some, realProd_scalar, Option.some.injEq] at hX
  simp only [Rational.divideProgram, Rational.value, Program.value, List.getD_cons_zero, List.getD_cons_succ, if_neg h0]
  simp [hX]

/-! ### `inv(x e1 + y e2)` -/

theorem represents_stands {n : Nat} {M : Object} {A : MV ℝ} (h : Represents ρ n M A) : Stands ρ n M A :=
  ⟨⟨h.1.1, fun c hc => (h.1.2 c hc).imp id (by rintro ⟨v, e⟩; rw [e]; exact .const v)⟩, h.2⟩

theorem inverse_vec_type : Rational.inverseProgram.typeOf 3 0 0 40 [[⟨.value 1 0, .const 1⟩, ⟨.value 1 1, .const 2⟩]] =
    some [⟨.fn .mul [.value 1 0, powerOf (.fn .add [powerOf (.value 1 0) (.const 2),
        powerOf (.value 1 1) (.const 2)]) (.const (-1))], .const 1⟩,
      ⟨.fn .mul [powerOf (.fn .add [powerOf (.value 1 0) (.const 2),
        powerOf (.value 1 1) (.const 2)]) (.const (-1)), .value 1 1], .const 2⟩] := by
  decide +kernel

-- the type contains no quotient of integers
theorem inverse_vec_quotients (x y : ℝ) : NoIntegerDivision 3 0 0 40 τ ρ [vecObj x y] Rational.inverseProgram := by
  intro e he
  rw [lazyType_pure (as := [[⟨.value 1 0, .const 1⟩, ⟨.value 1 1, .const 2⟩]]) (by rfl) inverse_vec_type] at he
  cases he
  intro c hc
  simp only [List.mem_cons, List.not_mem_nil, or_false] at hc
  rcases hc with rfl | rfl
  · simp only [NoIntQuotient, NoIntQuotientAll, powerOf, and_true, true_and]
    intro pre l r h
    rcases pre with _ | ⟨a, _ | ⟨b, pre⟩⟩
    · simp only [List.nil_append, List.cons.injEq, and_true] at h
      right; left
      rw [← h.1]
      simp [floating, contextTypes, baseId, storedInputs, hasStoredC, hasStored, greaterIdC, greaterId, Blade.greaterId]
    all_goals simp at h
  · simp only [NoIntQuotient, NoIntQuotientAll, powerOf, and_true, true_and]
    intro pre l r h
    rcases pre with _ | ⟨a, _ | ⟨b, pre⟩⟩
    · simp at h
    all_goals simp at h

-- the program compiles
theorem inverse_vec (x y : ℝ) (h : 0 < x * x + y * y) :
    ∃ o, Rational.inverseProgram.runLazy 3 0 0 40 τ ρ [vecObj x y] = some o := by
  unfold Rational.runLazy
  rw [lazyType_pure (as := [[⟨.value 1 0, .const 1⟩, ⟨.value 1 1, .const 2⟩]]) (by rfl) inverse_vec_type]
  exact ⟨_, contextObject_some (s' := [⟨.stored, .const 1⟩, ⟨.stored, .const 2⟩])
    (vs := [x / (x * x + y * y), (x * x + y * y)⁻¹ * y]) (ws := [])
    (by simp [storedInputs, hasStoredC, hasStored]) (by rfl)
    (by simp [exec, eval, evalList, evalFn, evalAdd, evalMul, evalPower, contextEnv, num2, asNumber, baseId, storedInputs,
      hasStoredC, hasStored, greaterIdC, greaterId, Blade.greaterId, num1, stdPow, h.ne', contextTypes, divide, floating])⟩

-- the theorem applies to `3 e1 - 4 e2`
example : ∃ o, Rational.inverseProgram.runLazy 3 0 0 40 τ ρ [vecObj 3 (-4)] = some o ∧
    Stands ρ 3 o ((25 : ℝ)⁻¹ • (Finsupp.single 1 3 + Finsupp.single 2 (-4))) := by
  obtain ⟨o, ho⟩ := inverse_vec (τ := τ) (ρ := ρ) 3 (-4) (by norm_num)
  refine ⟨o, ho, C58_program_partial (P := 3) (Q := 0) (R := 0) (by norm_num) _ _ _ o _
    (.cons (represents_stands (vec_represents 3 (-4))) .nil) ?_ (inverse_vec_quotients 3 (-4)) ho⟩
  simp only [Rational.inverseProgram, Rational.value, Program.value, List.getD_cons_zero, norm_vec]
  norm_num
  rw [← Finsupp.single_neg, reverse_add, reverse_single, reverse_single]
  have h1 : par (1 : Word) 1 = 0 := by decide +kernel
  have h2 : par (2 : Word) 2 = 0 := by decide +kernel
  rw [h1, h2]
  simp only [sg, ZMod.val_zero, pow_zero, one_mul, smul_add, Finsupp.smul_single, smul_eq_mul]
  norm_num

/-! ### `x + 3 x / (2 x)` -/

/-- `x + (3 * x) * inv(2 * x)`. -/
def fraction : Rational :=
  .inv (.scale 2 (.input 0)) (.ret (.add (.input 0) (.graded .gp (.scale 3 (.input 0)) (.input 1))))

theorem fraction_type : fraction.typeOf 3 0 0 40 [[⟨.value 1 0, .const 0⟩]] =
    some [⟨.fn .add [.fn .mul [.const 3, recip 2], .value 1 0], .const 0⟩] := by
  decide +kernel

/-- **C58 fails** where integers are divided: for every non-zero floating-point number `x`, the program
`x + (3 * x) / (2 * x)` returns `x + 1`. -/
theorem C58_integer_division_is_false (x : ℝ) (hx : x ≠ 0) :
    ∃ o, fraction.value 3 0 0 [Finsupp.single 0 x] = some (Finsupp.single 0 (x + 3 / 2)) ∧
      fraction.runLazy 3 0 0 40 τ ρ [scalarObj x] = some o ∧ Stands ρ 3 o (Finsupp.single 0 (x + 1)) := by
  have hf : ⌊(3 / 2 : ℝ)⌋ = 1 := by rw [Int.floor_eq_iff]; norm_num
  have h0 : (0 : ℝ) ≤ 3 / 2 := by norm_num
  have := contextObject_some (τ := τ) (ρ := ρ) (k := 40) (Ms := [scalarObj x])
    (e := [⟨.fn .add [.fn .mul [.const 3, recip 2], .value 1 0], .const 0⟩]) (s' := [⟨.stored, .const 0⟩])
    (vs := [1 + x]) (ws := [])
    (by simp [storedInputs, hasStoredC, hasStored]) (by rfl)
    (by simp [exec, eval, evalAdd, evalMul, contextEnv, num2, baseId, storedInputs, hasStoredC, hasStored, greaterIdC,
        greaterId, Blade.greaterId, contextTypes, divide, floating, truncate, hf, h0, asNumber])
  refine ⟨⟨_, _, _, _⟩, ?_, (by
    unfold Rational.runLazy
    rw [lazyType_pure (as := [[⟨.value 1 0, .const 0⟩]]) (by rfl) fraction_type]
    exact this), ?_⟩
  rotate_left
  · rw [add_comm x]
    exact represents_stands (scalarObj_value (ρ := ρ) 3 (1 + x)).2
  · have p0 : par (0 : Word) 0 = 0 := by decide +kernel
    have f0 : signedFactor 3 0 0 0 = 1 := by decide
    have hn : rnormSqr (signedProd 3 0 0) (Finsupp.single 0 (2 * x)) = 4 * x ^ 2 := by
      unfold rnormSqr signedProd
      rw [reverse_single, sp_single, p0, f0]
      simp [sg]
      ring
    have h0 : 4 * x ^ 2 ≠ 0 := by positivity
    simp only [fraction, Rational.value, Program.value, List.getD_cons_zero, List.cons_append, List.nil_append,
      List.getD_cons_succ, Finsupp.smul_single, smul_eq_mul, Int.cast_ofNat, hn, if_neg h0]
    rw [reverse_single, p0]
    simp only [sg, ZMod.val_zero, pow_zero, one_mul, Finsupp.smul_single, smul_eq_mul, Option.some.injEq]
    have hp : ∀ a b : ℝ, signedProd 3 0 0 .gp (Finsupp.single 0 a) (Finsupp.single 0 b) = Finsupp.single 0 (a * b) := by
      intro a b
      have h1 : orthMul (fun b => (signedFactor 3 0 0 b : ℝ)) .gp 0 0 = (1, 0) := by
        have h2 : (orthMul (signedFactor 3 0 0) .gp 0 0 : ℤ × Word) = (1, 0) := by decide +kernel
        unfold orthMul at h2 ⊢
        simp only [Prod.mk.injEq] at h2 ⊢
        refine ⟨?_, h2.2⟩
        have h3 := congrArg (Int.cast (R := ℝ)) h2.1
        push_cast at h3
        exact h3
      unfold signedProd orthProd
      rw [bilin_single, h1, mul_one]
    rw [hp, ← Finsupp.single_add]
    congr 1
    field_simp
    ring

end GATL.Props
