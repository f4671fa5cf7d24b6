import Verif.Model.Math
import Verif.Proofs.ExpTotal
import Verif.Props.Take

/-!
# Functions of scalars

**C79**

`mathScalar f` is the function `f` of `abs`, `exp`, `log`, `cos`, `sin`, `tan`, `cosh`, `sinh` and `tanh` for scalars;
`sqrtScalar`, `cbrtScalar` and `powScalar` are `sqrt`, `cbrt` and `pow`.  The argument `k` is the depth to which the
compiler instantiates templates, and the result is `none` if the call does not compile at that depth, or evaluates something
undefined.
-/

namespace GATL.Props

open Expr Spec

variable {τ : Types} {ρ : Env} {k n : Nat}

/-- A scalar with a stored coefficient. -/
abbrev numberObj (floats : Bool) (x : ℝ) : Object := ⟨floats, [⟨.stored, .const 0⟩], [x], []⟩

/-- A scalar whose coefficient is an integer that is known at compile time. -/
abbrev integerObj (v : Int) : Object := constObject v

theorem tan_quotient {x : ℝ} : Real.tan x = Real.sin x / Real.cos x := Real.tan_eq_sin_div_cos x

theorem tanh_quotient (x : ℝ) : Real.tanh x = (Real.exp x - Real.exp (-x)) / (Real.exp x + Real.exp (-x)) := by
  rw [Real.tanh_eq_sinh_div_cosh, Real.sinh_eq, Real.cosh_eq, div_div_div_cancel_right₀ (by norm_num)]

theorem store_scalar {Ms : List Object} {e : Expr} {y : ℝ} (hs : storedInputs Ms ≠ [])
    (hc : compile k (baseId Ms + 1) (baseId Ms + (storedInputs Ms).length) e = some (.stored, [.value e]))
    (hv : eval (contextTypes τ (baseId Ms) (storedInputs Ms)) (contextEnv ρ (baseId Ms) (storedInputs Ms)) e = some (.num y)) :
    ∃ floats, contextObject k τ ρ Ms [⟨e, .const 0⟩] = some (numberObj floats y) :=
  ⟨_, contextObject_some hs
    (show compileC k (baseId Ms + 1) (baseId Ms + (storedInputs Ms).length) [⟨e, .const 0⟩] =
        some ([⟨.stored, .const 0⟩], [.value e]) by
      simp only [compileC, compileComp, hc]
      rfl)
    (by simp [exec, hv, asNumber])⟩

/-- **C79** A function of a stored scalar compiles, and the result is a stored scalar with the value of the function. -/
theorem C79_function (f : MathFn) (floats : Bool) (x y : ℝ) (h : f.value x = some y) :
    ∃ floats', mathScalar f (k + 2) τ ρ (numberObj floats x) = some (numberObj floats' y) := by
  have h1 : arguments (baseId [numberObj floats x]) [numberObj floats x] = some [[⟨.value 1 0, .const 0⟩]] := by rfl
  have key : ∀ e, mkFn (simp (k + 2)) (mathName f) [.value 1 0] = some e →
      compile (k + 2) 1 1 e = some (.stored, [.value e]) →
      eval (contextTypes τ 0 [numberObj floats x]) (contextEnv ρ 0 [numberObj floats x]) e = some (.num y) →
      ∃ floats', mathScalar f (k + 2) τ ρ (numberObj floats x) = some (numberObj floats' y) := by
    intro e he hc hv
    simp only [mathScalar, call1, h1, Option.bind_eq_bind, Option.bind_some, scalarCoef_single, he]
    exact store_scalar (by simp [storedInputs, hasStoredC, hasStored]) hc hv
  have ex : (contextEnv ρ 0 [numberObj floats x]).val 1 0 = x := by simp [contextEnv]
  cases f <;> simp only [MathFn.value, Option.some.injEq, Option.ite_none_left_eq_some, Option.ite_none_right_eq_some] at h
  · refine key (.fn .absolute [.value 1 0]) rfl rfl ?_
    simp only [eval, evalList, evalFn, ex]
    rw [← h]
    split_ifs with h0
    · rw [abs_of_nonneg h0]
    · rw [abs_of_neg (not_le.1 h0)]
  · refine key (.fn .exponential [.value 1 0]) rfl rfl ?_
    simp [eval, evalList, evalFn, ex, h]
  · refine key (.fn .logarithm [.value 1 0]) rfl rfl ?_
    simp [eval, evalList, evalFn, ex, h]
  · refine key (.fn .cosine [.value 1 0]) rfl rfl ?_
    simp [eval, evalList, evalFn, ex, h]
  · refine key (.fn .sine [.value 1 0]) rfl rfl ?_
    simp [eval, evalList, evalFn, ex, h]
  · refine key (.fn .tangent [.value 1 0]) rfl rfl ?_
    simp [eval, evalList, evalFn, ex, h, tan_quotient]
  · refine key (.fn .hcosine [.value 1 0]) rfl rfl ?_
    simp [eval, evalList, evalFn, ex, h, Real.cosh_eq]
  · refine key (.fn .hsine [.value 1 0]) rfl rfl ?_
    simp [eval, evalList, evalFn, ex, h, Real.sinh_eq]
  · refine key (.fn .htangent [.value 1 0]) rfl rfl ?_
    simp [eval, evalList, evalFn, ex, h, tanh_quotient]

-- functions of numbers, also of integers
example : ∃ floats', mathScalar .log 10 τ ρ (numberObj false 2) = some (numberObj floats' (Real.log 2)) :=
  C79_function (k := 8) .log false 2 _ (by simp [MathFn.value])

/-- **C79** A function of an integer known at compile time compiles, and the result is a scalar without storage whose type
has the value of the function.  (The negative of `-2 ^ 63` is not a 64-bit number.) -/
theorem C79_function_of_constant (f : MathFn) (v : Int) (y : ℝ) (h : f.value v = some y) (hv : -2 ^ 63 < v ∧ v < 2 ^ 63) :
    ∃ e floats, mathScalar f (k + 2) τ ρ (integerObj v) = some ⟨floats, [⟨e, .const 0⟩], [], []⟩ ∧
      Reads ρ n [⟨e, .const 0⟩] [] [] (Finsupp.single 0 y) := by
  have key : ∀ e, mkFn (simp (k + 2)) (mathName f) [.const v] = some e → hasStored e = false → Built e →
      Denotes ρ e y → ∃ e floats, mathScalar f (k + 2) τ ρ (integerObj v) = some ⟨floats, [⟨e, .const 0⟩], [], []⟩ ∧
      Reads ρ n [⟨e, .const 0⟩] [] [] (Finsupp.single 0 y) := by
    intro e he hs hb hd
    refine ⟨e, false, ?_, ?_⟩
    · have h1 : arguments (baseId [integerObj v]) [integerObj v] = some [[⟨.const v, .const 0⟩]] := by rfl
      simp only [mathScalar, call1, h1, Option.bind_eq_bind, Option.bind_some, scalarCoef_single, he]
      rfl
    · have h1 : WellTyped n (y, TBlade.const 0) := by simp [WellTyped, vecs]
      simpa [TBlade.bits] using Reads.cons (.symbolic e y hs hb hd) (.const 0) h1 (Reads.nil (ρ := ρ))
  have el : ∀ name, name ∈ elementary → Built (.fn name [.const v]) := fun name hn =>
    .fn _ _ (by simpa using .const v) (by rintro rfl; simp [elementary] at hn) (by rintro rfl; simp [elementary] at hn)
      (by rintro rfl; simp [elementary] at hn)
  cases f <;> simp only [MathFn.value, Option.some.injEq, Option.ite_none_left_eq_some, Option.ite_none_right_eq_some] at h
  · obtain ⟨e, he⟩ := abs_const (n := k) (v := v) (by omega)
    obtain rfl := Total.abs_int he
    refine key _ he rfl (.const _) ?_
    simp [Denotes, den, ← h]
  · refine key (.fn .exponential [.const v]) rfl rfl (el _ (by simp [elementary])) ?_
    simp [Denotes, den, denList, interp, h]
  · refine key (.fn .logarithm [.const v]) rfl rfl (el _ (by simp [elementary])) ?_
    simpa [Denotes, den, denList, interp] using h
  · refine key (.fn .cosine [.const v]) rfl rfl (el _ (by simp [elementary])) ?_
    simp [Denotes, den, denList, interp, h]
  · refine key (.fn .sine [.const v]) rfl rfl (el _ (by simp [elementary])) ?_
    simp [Denotes, den, denList, interp, h]
  · refine key (.fn .tangent [.const v]) rfl rfl (el _ (by simp [elementary])) ?_
    simp [Denotes, den, denList, interp, h, tan_quotient]
  · refine key (.fn .hcosine [.const v]) rfl rfl (el _ (by simp [elementary])) ?_
    simp [Denotes, den, denList, interp, h, Real.cosh_eq]
  · refine key (.fn .hsine [.const v]) rfl rfl (el _ (by simp [elementary])) ?_
    simp [Denotes, den, denList, interp, h, Real.sinh_eq]
  · refine key (.fn .htangent [.const v]) rfl rfl (el _ (by simp [elementary])) ?_
    simp [Denotes, den, denList, interp, h, tanh_quotient]

-- the cosine of `c<3>`
example : ∃ e floats, mathScalar .cos 10 τ ρ (integerObj 3) = some ⟨floats, [⟨e, .const 0⟩], [], []⟩ ∧
    Reads ρ n [⟨e, .const 0⟩] [] [] (Finsupp.single 0 (Real.cos 3)) :=
  C79_function_of_constant (k := 8) .cos 3 _ (by simp [MathFn.value]) (by norm_num)

/-- The power of a stored number. -/
theorem pow_store (floats : Bool) (x y : ℝ) {E : Object} {r : Expr} {p : List Instr} (hE : E.expr = [⟨r, .const 0⟩])
    (hs : hasStored r = false) (h0 : r ≠ .const 0) (h1 : r ≠ .const 1) (hc : compile (k + 1) 1 1 r = some (r, p))
    (hb : greaterId r = 0) (hcs : canBeStored r = true) (hr : inRange 1 1 r = true)
    (hv : evalPower r (some (.num x)) (eval (contextTypes τ 0 [numberObj floats x]) (contextEnv ρ 0 [numberObj floats x]) r) =
      some (.num y)) :
    ∃ floats', powScalar (k + 1) τ ρ (numberObj floats x) E = some (numberObj floats' y) := by
  obtain ⟨fl, s, vs, bs⟩ := E
  dsimp only at hE
  subst hE
  have b0 : baseId [numberObj floats x, ⟨fl, [⟨r, .const 0⟩], vs, bs⟩] = 0 := by
    simp [baseId, greaterIdC, greaterId, Blade.greaterId, hb]
  have s0 : storedInputs [numberObj floats x, ⟨fl, [⟨r, .const 0⟩], vs, bs⟩] = [numberObj floats x] := by
    simp [storedInputs, hasStoredC, hasStored, Blade.hasStored, hs]
  have hsr : hasStoredC [(⟨r, .const 0⟩ : Comp)] = false := by simp [hasStoredC, Blade.hasStored, hs]
  have a0 : arguments 0 [numberObj floats x, ⟨fl, [⟨r, .const 0⟩], vs, bs⟩] =
      some [[⟨.value 1 0, .const 0⟩], [⟨r, .const 0⟩]] := by
    have t0 : tagC (0 + 1) 0 0 [⟨.stored, .const 0⟩] = some [⟨.value 1 0, .const 0⟩] := rfl
    have t1 : hasStoredC [⟨.stored, .const 0⟩] = true := rfl
    simp only [arguments, t1, if_true, hsr, Bool.false_eq_true, if_false, t0, Option.bind_eq_bind, Option.bind_some]
  have e0 : simp (k + 1) .pow (.value 1 0) r = some (powerOf (.value 1 0) r) := pow_opaque (by simp) rfl rfl h0 h1
  have e1 : simp (k + 1) .pow .stored r = some (powerOf .stored r) := pow_opaque (by simp) rfl rfl h0 h1
  simp only [powScalar, call2, b0, a0, Option.bind_eq_bind, Option.bind_some, scalarCoef_single, e0]
  refine store_scalar (by rw [s0]; simp) ?_ ?_
  · rw [s0, b0]
    change (do
      let (l', p) ← compile (k + 1) 1 1 (.value 1 0)
      let (r', q) ← compile (k + 1) 1 1 r
      let e ← simp (k + 1) .pow l' r'
      if anyIs .stored l' r' then storeValue 1 1 (.fn .power [.value 1 0, r]) else some (e, p ++ q)) = _
    have c0 : compile (k + 1) 1 1 (.value 1 0) = some (.stored, [.value (.value 1 0)]) := rfl
    simp only [c0, hc, Option.bind_eq_bind, Option.bind_some, e1]
    rw [if_pos (by simp [anyIs, hcs]), storeValue, if_pos (by simp [inRange, inRangeAll, hr])]
  · rw [s0, b0]
    have ex : (contextEnv ρ 0 [numberObj floats x]).val 1 0 = x := by simp [contextEnv]
    simp only [eval, ex, hv]

/-- **C79** `sqrt` of a stored scalar that is not negative. -/
theorem C79_sqrt (floats : Bool) (x : ℝ) (h : 0 ≤ x) :
    ∃ floats', sqrtScalar (k + 1) τ ρ (numberObj floats x) = some (numberObj floats' (√x)) := by
  have e0 : simp (k + 1) .pow (.const 2) (.const (-1)) = some (recip 2) := rfl
  simp only [sqrtScalar, e0, Option.bind_eq_bind, Option.bind_some]
  exact pow_store (r := recip 2) (p := []) floats x _ rfl rfl (by simp) (by simp) rfl rfl rfl rfl (by simp [evalPower, recip, h])

/-- **C79** `cbrt` of a stored scalar, which may be negative. -/
theorem C79_cbrt (floats : Bool) (x : ℝ) :
    ∃ floats' y, cbrtScalar (k + 1) τ ρ (numberObj floats x) = some (numberObj floats' y) ∧ y ^ 3 = x := by
  have e0 : simp (k + 1) .pow (.const 3) (.const (-1)) = some (recip 3) := rfl
  simp only [cbrtScalar, e0, Option.bind_eq_bind, Option.bind_some]
  obtain ⟨fl, h⟩ := pow_store (k := k) (τ := τ) (ρ := ρ) (E := lazyObject floats [⟨recip 3, .const 0⟩]) (r := recip 3) (p := [])
    floats x (cubeRoot x) rfl rfl (by simp) (by simp) rfl rfl rfl rfl (by simp [evalPower, recip])
  refine ⟨fl, _, h, ?_⟩
  have key : ∀ a : ℝ, 0 ≤ a → (a ^ (3⁻¹ : ℝ)) ^ 3 = a := fun a ha => by
    rw [← Real.rpow_natCast, ← Real.rpow_mul ha]
    norm_num
  unfold cubeRoot
  split_ifs with h0
  · exact key x h0
  · rw [Odd.neg_pow (by decide), key _ (by linarith), neg_neg]

-- the square root of 2 and the cube root of -8
example : (0 : ℝ) ≤ 2 := by norm_num
example (y : ℝ) (h : y ^ 3 = -8) : y = -2 := by nlinarith [sq_nonneg (y - 1), sq_nonneg (y + 2)]

/-- **C79** `pow` of a stored scalar with an exponent that is an integer known at compile time. -/
theorem C79_pow_integer (floats : Bool) (x : ℝ) (v : Int) (h : x ≠ 0 ∨ 0 ≤ v) :
    ∃ o, powScalar (k + 1) τ ρ (numberObj floats x) (integerObj v) = some o ∧
      Represents ρ n o (Finsupp.single 0 (x ^ v)) := by
  have hn : ∀ floats' y, Represents ρ n (numberObj floats' y) (Finsupp.single 0 y) := fun floats' y => by
    refine ⟨⟨canonical_single ⟨0, rfl, by simp [vecs]⟩, by simp⟩, ?_⟩
    have h1 : WellTyped n (y, TBlade.const 0) := by simp [WellTyped, vecs]
    simpa [TBlade.bits] using Reads.cons (.stored y) (.const 0) h1 (Reads.nil (ρ := ρ))
  by_cases h0 : v = 0
  · subst h0
    have b0 : baseId [numberObj floats x, integerObj 0] = 0 := rfl
    have a0 : arguments 0 [numberObj floats x, integerObj 0] = some [[⟨.value 1 0, .const 0⟩], [⟨.const 0, .const 0⟩]] := rfl
    have e0 : simp (k + 1) .pow (.value 1 0) (.const 0) = some (.const 1) := rfl
    refine ⟨⟨false, [⟨.const 1, .const 0⟩], [], []⟩, ?_, ?_⟩
    · simp only [powScalar, call2, b0, a0, Option.bind_eq_bind, Option.bind_some, scalarCoef_single, e0]
      rfl
    · refine ⟨⟨canonical_single ⟨0, rfl, by simp [vecs]⟩, by simp⟩, ?_⟩
      have h1 : WellTyped n ((1 : ℝ), TBlade.const 0) := by simp [WellTyped, vecs]
      simpa [TBlade.bits] using Reads.cons (.symbolic (.const 1) 1 rfl (by constructor) (by simp [Denotes, den])) (.const 0) h1
        (Reads.nil (ρ := ρ))
  by_cases h1 : v = 1
  · subst h1
    have b0 : baseId [numberObj floats x, integerObj 1] = 0 := rfl
    have a0 : arguments 0 [numberObj floats x, integerObj 1] = some [[⟨.value 1 0, .const 0⟩], [⟨.const 1, .const 0⟩]] := rfl
    have e0 : simp (k + 1) .pow (.value 1 0) (.const 1) = some (.value 1 0) := rfl
    obtain ⟨fl, hf⟩ : ∃ fl, contextObject (k + 1) τ ρ [numberObj floats x, integerObj 1] [⟨.value 1 0, .const 0⟩] =
        some (numberObj fl x) :=
      store_scalar (by simp [storedInputs, hasStoredC, hasStored]) rfl (by
        rw [b0]
        simp [eval, contextEnv, storedInputs, hasStoredC, hasStored])
    refine ⟨_, ?_, by rw [zpow_one]; exact hn fl x⟩
    simp only [powScalar, call2, b0, a0, Option.bind_eq_bind, Option.bind_some, scalarCoef_single, e0]
    exact hf
  · obtain ⟨fl, hf⟩ := pow_store (k := k) (τ := τ) (ρ := ρ) (E := integerObj v) (r := .const v) (p := [])
      floats x (x ^ v) rfl rfl (by simpa using h0) (by simpa using h1) rfl rfl rfl rfl (by
        unfold evalPower
        have hd : ∀ m : Int, m = v → (Expr.const v = .const m) = True := fun m hm => by simp [hm]
        by_cases hv : v = -1 ∨ v = 2 ∨ v = 3 ∨ v = 4
        · rcases hv with rfl | rfl | rfl | rfl
          · have : x ≠ 0 := by simpa using h
            simp [this]
          · simp [zpow_ofNat, pow_two]
          · simp [zpow_ofNat]; ring
          · simp [zpow_ofNat]; ring
        · simp only [not_or] at hv
          have hp : PowDefined x v := by
            rcases lt_trichotomy x 0 with hx | hx | hx
            · exact .inr (.inr ⟨hx, v, rfl⟩)
            · refine .inr (.inl ⟨hx, ?_⟩)
              have : 0 < v := by
                rcases h with h | h
                · exact absurd hx h
                · omega
              exact_mod_cast this
            · exact .inl hx
          simp [hv, recip, eval, stdPow, hp])
    exact ⟨_, hf, hn fl _⟩

/-- **C79** `pow` of two stored scalars, where the power is defined. -/
theorem C79_pow (floats floats' : Bool) (x y : ℝ) (h : 0 < x ∨ (x = 0 ∧ 0 < y) ∨ (x < 0 ∧ ∃ m : ℤ, y = m)) :
    ∃ floats'', powScalar (k + 1) τ ρ (numberObj floats x) (numberObj floats' y) = some (numberObj floats'' (x ^ y)) := by
  have b0 : baseId [numberObj floats x, numberObj floats' y] = 0 := rfl
  have s0 : storedInputs [numberObj floats x, numberObj floats' y] = [numberObj floats x, numberObj floats' y] := rfl
  have a0 : arguments 0 [numberObj floats x, numberObj floats' y] =
    some [[⟨.value 1 0, .const 0⟩], [⟨.value 2 0, .const 0⟩]] := rfl
  have e0 : simp (k + 1) .pow (.value 1 0) (.value 2 0) = some (powerOf (.value 1 0) (.value 2 0)) := rfl
  simp only [powScalar, call2, b0, a0, Option.bind_eq_bind, Option.bind_some, scalarCoef_single, e0]
  refine store_scalar (by rw [s0]; simp) rfl ?_
  rw [s0, b0]
  have hp : PowDefined x y := h
  simp [eval, evalPower, contextEnv, recip, stdPow, hp]

theorem root_type (v : Nat) (h : v ≤ 2 ^ 62) : simp (k + 1) .pow (.const v) (recip 2) =
    some (if Nat.sqrt v * Nat.sqrt v = v then .const (Nat.sqrt v : Nat) else powerOf (.const v) half) := by
  rcases Nat.eq_zero_or_pos v with rfl | h0
  · rfl
  by_cases h1 : v = 1
  · subst h1
    rfl
  have h3 : (0 : Int) < v := Int.natCast_pos.2 h0
  have h4 : isqrt ((v : Int).toNat + 2) v = some (Nat.sqrt v : Int) := by
    rw [Int.toNat_natCast]
    exact Total.isqrt_nat h0 h
  have h5 : simplerIsqrt v =
      some (if Nat.sqrt v * Nat.sqrt v = v then .const (Nat.sqrt v : Nat) else powerOf (.const v) half) := by
    rw [Total.isqrt_cases h3 h4 (Total.square_i64 h), apply_ite some]
    norm_cast
  change applyRules (powRules (simp k)) (.const v) (recip 2) = _
  unfold powRules
  rw [applyRules_skip (by simp [powMisc1, h0.ne', h1]), applyRules_skip (by simp [powMisc2])]
  refine applyRules_fire ?_
  simp only [powMisc3, asConst, half, if_true, h5]

/-- **C79** `sqrt` of an integer known at compile time: the result has no storage, and is an integer known at compile time if
the root is one. -/
theorem C79_sqrt_of_constant (v : Nat) (h : v ≤ 2 ^ 62) :
    ∃ e floats, sqrtScalar (k + 1) τ ρ (integerObj v) = some ⟨floats, [⟨e, .const 0⟩], [], []⟩ ∧
      Reads ρ n [⟨e, .const 0⟩] [] [] (Finsupp.single 0 (√v)) ∧ ∀ m : Nat, m ^ 2 = v → e = .const m := by
  have e0 : simp (k + 1) .pow (.const 2) (.const (-1)) = some (recip 2) := rfl
  have b0 : baseId [integerObj v, lazyObject (integerObj v).floats [⟨recip 2, .const 0⟩]] = 0 := rfl
  have a0 : arguments 0 [integerObj v, lazyObject (integerObj v).floats [⟨recip 2, .const 0⟩]] =
    some [[⟨.const v, .const 0⟩], [⟨recip 2, .const 0⟩]] := rfl
  refine ⟨if Nat.sqrt v * Nat.sqrt v = v then .const (Nat.sqrt v : Nat) else powerOf (.const v) half, false, ?_, ?_, ?_⟩
  · simp only [sqrtScalar, e0, powScalar, call2, b0, a0, Option.bind_eq_bind, Option.bind_some, scalarCoef_single,
      root_type v h]
    rfl
  · have h1 : WellTyped n ((√v : ℝ), TBlade.const 0) := by simp [WellTyped, vecs]
    have := Reads.cons (.symbolic (if Nat.sqrt v * Nat.sqrt v = v then .const (Nat.sqrt v : Nat) else powerOf (.const v) half)
      (√v) ?_ ?_ ?_) (.const 0) h1 (Reads.nil (ρ := ρ))
    · simpa [TBlade.bits] using this
    · split_ifs <;> rfl
    · split_ifs
      · exact .const _
      · refine .fn _ _ ?_ (by simp) (by simp) fun _ => ⟨_, _, rfl, by simp [Direct]⟩
        simp only [List.mem_cons, List.not_mem_nil, or_false, forall_eq_or_imp, forall_eq]
        refine ⟨.const _, .fn _ _ ?_ (by simp) (by simp) fun _ => ⟨_, _, rfl, by simp [Direct]⟩⟩
        simp only [List.mem_cons, List.not_mem_nil, or_false, forall_eq_or_imp, forall_eq]
        exact ⟨.const _, .const _⟩
    · split_ifs with hv
      · have : (√v : ℝ) = Nat.sqrt v := by
          conv_lhs => rw [← hv]
          push_cast
          exact Real.sqrt_mul_self (by positivity)
        rw [Denotes, den, this]
        simp
      · have h0 : (0 : ℝ) < v := by
          rcases Nat.eq_zero_or_pos v with rfl | h0
          · exact absurd rfl hv
          · exact_mod_cast h0
        have p1 : PowDefined (2 : ℝ) (-1) := .inl (by norm_num)
        have p2 : PowDefined (v : ℝ) (2 : ℝ)⁻¹ := .inl h0
        simp [Denotes, den, denList, interp, half, recip, p1, p2, Real.sqrt_eq_rpow, Real.rpow_neg_one]
  · intro m hm
    subst hm
    rw [if_pos (by rw [Nat.sqrt_eq']; ring), Nat.sqrt_eq']

/-! ### Products of roots -/

/-- **C25** is false for fractional exponents other than `1/2` and `1/3`: the lazy product of `x` and `sqrt(x)` has the type
of `pow(x, 3/2)`, whose exponent is evaluated as a quotient of two integers, so that the result is `x`, also for
floating-point numbers; and the lazy product of `cbrt(x)` and itself is `1`. -/
theorem C25_root_product_is_false (floats : Bool) (x : ℝ) (h : 0 < x) :
    (∃ e floats', simp 40 .mul (.value 1 0) (powerOf (.value 1 0) (recip 2)) = some e ∧
      contextObject 40 τ ρ [numberObj floats x] [⟨e, .const 0⟩] = some (numberObj floats' x)) ∧
    ∃ e floats', simp 40 .mul (powerOf (.value 1 0) (recip 3)) (powerOf (.value 1 0) (recip 3)) = some e ∧
      contextObject 40 τ ρ [numberObj floats x] [⟨e, .const 0⟩] = some (numberObj floats' 1) := by
  constructor
  · obtain ⟨f, hf⟩ := store_scalar (k := 40) (τ := τ) (ρ := ρ) (Ms := [numberObj floats x])
      (e := powerOf (.value 1 0) (.fn .mul [.const 3, recip 2])) (y := x)
      (by simp [storedInputs, hasStoredC, hasStored]) (by rfl) (by
        have hf : truncate (3 / 2) = 1 := by
          have : ⌊(3 / 2 : ℝ)⌋ = 1 := by rw [Int.floor_eq_iff]; norm_num
          rw [truncate, if_pos (by norm_num), this, Int.cast_one]
        have hp : PowDefined x 1 := .inl h
        simp [eval, evalPower, evalMul, recip, num2, divide, floating, stdPow, hf, hp, storedInputs,
          hasStoredC, hasStored, baseId, greaterIdC, greaterId, Blade.greaterId, contextEnv])
    exact ⟨_, f, by decide +kernel, hf⟩
  · obtain ⟨f, hf⟩ := store_scalar (k := 40) (τ := τ) (ρ := ρ) (Ms := [numberObj floats x])
      (e := powerOf (.value 1 0) (.fn .mul [.const 2, recip 3])) (y := 1)
      (by simp [storedInputs, hasStoredC, hasStored]) (by rfl) (by
        have hf : truncate (2 / 3) = 0 := by
          have : ⌊(2 / 3 : ℝ)⌋ = 0 := by rw [Int.floor_eq_iff]; norm_num
          rw [truncate, if_pos (by norm_num), this, Int.cast_zero]
        have hp : PowDefined x 0 := .inl h
        simp [eval, evalPower, evalMul, recip, num2, divide, floating, stdPow, hf, hp, storedInputs,
          hasStoredC, hasStored, baseId, greaterIdC, greaterId, Blade.greaterId, contextEnv])
    exact ⟨_, f, by decide +kernel, hf⟩

-- `4 * sqrt(4)` is 8, and `cbrt(8)` is 2
example : ∃ e floats', simp 40 .mul (.value 1 0) (powerOf (.value 1 0) (recip 2)) = some e ∧
    contextObject 40 τ ρ [numberObj true 4] [⟨e, .const 0⟩] = some (numberObj floats' 4) :=
  (C25_root_product_is_false true 4 (by norm_num)).1

end GATL.Props
