import Verif.Proofs.Eval
import Verif.Proofs.EvalBack
import Verif.Proofs.SimplifyProd
import Verif.Proofs.Depth

/-!
Property C44: run-time evaluation of coefficients.

`eval τ ρ e` is what the static member function `eval` of the expression type `e` returns when the
variables have the values `ρ` and types `τ`; `den ρ e` is the mathematical value of `e`.
-/

namespace GATL.Props

open Expr Spec

/-- **C44** (part) Evaluation returns the mathematical value of the expression, for every expression
without quotients of two integers.  Missing: such quotients, which are rounded towards zero, see
`C44_integer_quotient_rounds`. -/
theorem C44_eval_partial (τ : Types) (ρ : Env) (e : Expr) (v : Val) (hb : Built e)
    (hq : NoIntQuotient τ e) (hv : den ρ e = some v) : eval τ ρ e = some v :=
  eval_ok hb hq hv

/-- **C44** (part) Evaluation returns nothing but the mathematical value: where the expression has no
value (a division by zero, an even root of a negative number, a logarithm of a number that is not
positive), evaluation returns no number.  Excluded are tangents and cube roots, for which the functions
of the standard library return numbers also where the mathematical value is undefined. -/
theorem C44_defined_partial (τ : Types) (ρ : Env) (e : Expr) (hb : Built e) (hq : NoIntQuotient τ e)
    (hd : Definite e) : eval τ ρ e = den ρ e := by
  rcases h : eval τ ρ e with _ | v
  · rcases h' : den ρ e with _ | w
    · rfl
    · rw [eval_ok hb hq h'] at h; cases h
  · exact (eval_back hb hq hd h).symm

/-- **C44** Evaluation returns an integer for every expression whose type is an integer type, if the
variables of integer type are integers. -/
theorem C44_integer_type (τ : Types) (ρ : Env) (hρ : ∀ t i, τ t = false → ∃ k : ℤ, ρ.val t i = k)
    (e : Expr) (hf : floating τ e = false) (x : ℝ) (hx : eval τ ρ e = some (.num x)) :
    ∃ k : ℤ, x = k :=
  eval_integer hρ hf hx

/-- The variable with the given tag. -/
abbrev arg (t : Nat) : Expr := .value t 0

-- `x * y + 1/2` with one floating-point variable
example : NoIntQuotient (fun _ => true)
    (.fn .add [.fn .mul [arg 1, powerOf (arg 2) (.const (-1))], recip 2]) := by
  simp only [NoIntQuotient, NoIntQuotientAll, powerOf, and_true, true_and]
  intro pre l r h
  have : pre = [] := by
    have := congrArg List.length h
    simp only [List.length_append, List.length_cons, List.length_nil] at this
    exact List.eq_nil_of_length_eq_zero (by omega)
  subst this
  simp at h
  right; left
  rw [← h.1]
  simp [floating]

-- `x / y` has no value where `y = 0`, and evaluation returns none
example : Definite (.fn .mul [arg 1, powerOf (arg 2) (.const (-1))]) := by
  refine .fn _ _ ?_ (by decide) (by simp)
  simp only [List.mem_cons, List.not_mem_nil, or_false, forall_eq_or_imp, forall_eq]
  refine ⟨.leaf _ (by simp), .fn _ _ ?_ (by decide) (by simp)⟩
  simp only [List.mem_cons, List.not_mem_nil, or_false, forall_eq_or_imp, forall_eq]
  exact ⟨.leaf _ (by simp), .leaf _ (by simp)⟩

-- `x / y + x^2` of two integers has an integer type
example : floating (fun _ => false)
    (.fn .add [.fn .mul [arg 1, powerOf (arg 2) (.const (-1))], powerOf (arg 1) (.const 2)]) = false := by
  simp [floating, floatingAdd, floatingMul, powerOf]

/-- **C44** (part) The type computed for a quotient `x * y^(-1)` evaluates to the quotient of the
values, if no quotient of two integers is left in it. -/
theorem C44_quotient_partial (τ : Types) (ρ : Env) (n : Nat) (x y r e : Expr) (a b : ℝ)
    (hx : Built x) (hy : Built y) (ha : Denotes ρ x a) (hb : Denotes ρ y b) (h0 : b ≠ 0)
    (hr : simp n .pow y (.const (-1)) = some r) (he : simp n .mul x r = some e)
    (hq : NoIntQuotient τ e) : eval τ ρ e = some (.num (a / b)) := by
  have hd : PowDefined b ((-1 : ℤ) : ℝ) := by
    rcases lt_or_gt_of_ne h0 with h | h
    · exact .inr (.inr ⟨h, -1, rfl⟩)
    · exact .inl h
  have h1 := (simp_sound ρ n).pow _ _ _ _ _ ⟨hy, hb⟩ (V.const (-1)) hd (.inl ⟨-1, rfl⟩) hr
  have h2 := (simp_sound ρ n).mul _ _ _ _ _ ⟨hx, ha⟩ h1 he
  refine eval_ok h2.1 hq ?_
  have := h2.2
  rw [Denotes] at this
  rw [this]
  simp [Real.rpow_neg_one, div_eq_mul_inv]

/-- The type of the quotient `x / y` of the first two arguments of a lazy context. -/
theorem C44_quotient_type :
    simp 20 .pow (arg 2) (.const (-1)) = some (powerOf (arg 2) (.const (-1))) ∧
      simp 20 .mul (arg 1) (powerOf (arg 2) (.const (-1))) =
        some (.fn .mul [arg 1, powerOf (arg 2) (.const (-1))]) := by
  decide

/-- **C44** (part) `x / y` is exact if one of the variables is of floating-point type. -/
theorem C44_floating_partial (τ : Types) (ρ : Env) (hf : τ 1 = true ∨ τ 2 = true)
    (h0 : ρ.val 2 0 ≠ 0) :
    eval τ ρ (.fn .mul [arg 1, powerOf (arg 2) (.const (-1))]) =
      some (.num (ρ.val 1 0 / ρ.val 2 0)) := by
  simp [eval, evalMul, powerOf, num2, divide, floating, h0, hf]

/-- **C44 fails** `x / y` is rounded towards zero if both variables are of integer type, for all
values that are not multiples. -/
theorem C44_integer_quotient_rounds (ρ : Env) (τ : Types) (h1 : τ 1 = false) (h2 : τ 2 = false)
    (a b : ℤ) (h0 : b ≠ 0) (ha : ρ.val 1 0 = a) (hb : ρ.val 2 0 = b) :
    eval τ ρ (.fn .mul [arg 1, powerOf (arg 2) (.const (-1))]) = some (.num (a.tdiv b : ℤ)) := by
  have hb0 : (b : ℝ) ≠ 0 := by exact_mod_cast h0
  simp only [eval, evalMul, powerOf, num2, divide, floating, h1, h2, ha, hb, hb0, if_false,
    Bool.or_self, Bool.false_eq_true, reduceCtorEq, Option.map_some, Option.some.injEq,
    Val.num.injEq]
  exact truncate_eq a b h0

/-- **C44 fails** `3 / 2` evaluates to `1`. -/
theorem C44_counterexample :
    ¬ ∀ (τ : Types) (ρ : Env), ρ.val 2 0 ≠ 0 →
      eval τ ρ (.fn .mul [arg 1, powerOf (arg 2) (.const (-1))]) =
        some (.num (ρ.val 1 0 / ρ.val 2 0)) := by
  intro h
  have h1 := h (fun _ => false) ⟨fun t _ => if t = 1 then 3 else 2, fun _ _ => 0⟩ (by norm_num)
  have h2 := C44_integer_quotient_rounds ⟨fun t _ => if t = 1 then 3 else 2, fun _ _ => 0⟩
    (fun _ => false) rfl rfl 3 2 (by norm_num) (by norm_num) (by norm_num)
  rw [h1] at h2
  simp only [Option.some.injEq, Val.num.injEq] at h2
  have : ((3 : ℤ).tdiv 2) = 1 := by decide
  rw [this] at h2
  norm_num at h2

/-- **C44 fails** also for a constant fraction: `c<3> / c<2> + x` evaluates to `1 + x`, for every
`x` of any type. -/
theorem C44_constant_fraction_rounds (τ : Types) (ρ : Env) :
    ∃ r q e, simp 20 .pow (.const 2) (.const (-1)) = some r ∧
      simp 20 .mul (.const 3) r = some q ∧ simp 20 .add q (arg 1) = some e ∧
      den ρ e = some (.num (3 / 2 + ρ.val 1 0)) ∧
      eval τ ρ e = some (.num (1 + ρ.val 1 0)) := by
  refine ⟨recip 2, .fn .mul [.const 3, recip 2], .fn .add [.fn .mul [.const 3, recip 2], arg 1],
    by decide, by decide, by decide, ?_, ?_⟩
  · simp [den, denList, interp, sumVals, prodVals, PowDefined, Real.rpow_neg_one,
      div_eq_mul_inv]
  · have hf : ⌊(3 / 2 : ℝ)⌋ = 1 := by
      rw [Int.floor_eq_iff]; norm_num
    have h0 : (0 : ℝ) ≤ 3 / 2 := by norm_num
    simp [eval, evalAdd, evalMul, num2, divide, floating, truncate, hf, h0]

end GATL.Props
