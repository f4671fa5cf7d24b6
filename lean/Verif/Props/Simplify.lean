import Verif.Proofs.Functions
import Verif.Proofs.Order
import Verif.Proofs.Leaves

/-!
Properties C20, C21, C22, C43, C47 and C51.

`simp n op l r = some e` says that the compiler computes the type `e` for `addition_t<l, r>`,
`product_t<l, r, value_mapping>` or `power_t<l, r>` with instantiation depth at most `n`.
`Denotes ρ e x` says that the value of the expression `e` is defined and equal to `x` when the
variables have the values `ρ`.  `Built e` describes the shapes of the types the library builds.
-/

namespace GATL.Props

open Expr Spec

variable (ρ : Env)

/-- A variable. -/
abbrev x₀ : Expr := .value 1 0
/-- Another variable. -/
abbrev x₁ : Expr := .value 1 1

/-- **C20** Whatever rules fire and however deep the instantiation, the type computed for a sum of
two expressions denotes the sum of their values, for all values of the variables; and it is again
of the shape the library builds. -/
theorem C20_simplified_sum (n : Nat) (l r e : Expr) (hl : Built l) (hr : Built r)
    (he : simp n .add l r = some e) (a b : ℝ) (ha : Denotes ρ l a) (hb : Denotes ρ r b) :
    Denotes ρ e (a + b) ∧ Built e :=
  ((simp_sound ρ n).add l r e a b ⟨hl, ha⟩ ⟨hr, hb⟩ he).symm

-- `(x + y) + x` becomes `2 * x + y` and `1/2 + 1/3` becomes `5/6`: the hypotheses are met
example : simp 20 .add (.fn .add [x₀, x₁]) x₀ = some (.fn .add [.fn .mul [.const 2, x₀], x₁]) := by
  decide
example : simp 20 .add (recip 2) (recip 3) = some (.fn .mul [.const 5, recip 6]) := by decide
example : Built (.fn .add [x₀, x₁]) :=
  .fn _ _ (by simp [Built.value]) (by simp) (by simp) (by simp)
example : Denotes ρ (.fn .add [x₀, x₁]) (ρ.val 1 0 + ρ.val 1 1) := by
  simp [Denotes, den, denList, interp, sumVals]

/-- **C21** Whatever rules fire and however deep the instantiation, the type computed for a product
of two expressions denotes the product of their values. -/
theorem C21_simplified_product (n : Nat) (l r e : Expr) (hl : Built l) (hr : Built r)
    (he : simp n .mul l r = some e) (a b : ℝ) (ha : Denotes ρ l a) (hb : Denotes ρ r b) :
    Denotes ρ e (a * b) ∧ Built e :=
  ((simp_sound ρ n).mul l r e a b ⟨hl, ha⟩ ⟨hr, hb⟩ he).symm

-- `(x + y) * (x + y)`, `x^2 * x` and `(2/3) * (3/4)`
example : simp 30 .mul (.fn .add [x₀, x₁]) (.fn .add [x₀, x₁]) =
    some (.fn .add [powerOf x₀ (.const 2), powerOf x₁ (.const 2), .fn .mul [.const 2, x₀, x₁]]) := by
  decide +kernel
example : simp 20 .mul (powerOf x₀ (.const 2)) x₀ = some (powerOf x₀ (.const 3)) := by decide
example : simp 20 .mul (.const 2) (recip 6) = some (recip 3) := by decide

/-- **C22** (restricted) The type computed for a power denotes the power of the values, provided the
power is defined and either the exponent is an integer, or the base is neither a product nor a
power, or all the factors and bases inside the base are non-negative.  What is missing: other powers
of products and powers, for which the claim fails (see `C22_sqrt_of_square_is_false`). -/
theorem C22_simplified_power_partial (n : Nat) (l r e : Expr) (hl : Built l) (hr : Built r)
    (he : simp n .pow l r = some e) (a b : ℝ) (ha : Denotes ρ l a) (hb : Denotes ρ r b)
    (hdef : PowDefined a b) (hok : (∃ k : ℤ, b = k) ∨ NonnegParts ρ l) :
    Denotes ρ e (a ^ b) ∧ Built e :=
  ((simp_sound ρ n).pow l r e a b ⟨hl, ha⟩ ⟨hr, hb⟩ hdef hok he).symm

-- the square root of a variable, the cube of a product, the square root of `4`, `(-1)^3`, `2^-2`
example : simp 20 .pow x₀ half = some (powerOf x₀ half) := by decide
example : simp 20 .pow (.fn .mul [x₀, x₁]) (.const 3) =
    some (.fn .mul [powerOf x₀ (.const 3), powerOf x₁ (.const 3)]) := by decide
example : simp 20 .pow (.const 4) half = some (.const 2) := by decide
example : simp 20 .pow (.const (-1)) (.const 3) = some (.const (-1)) := by decide
example : simp 20 .pow (.const 2) (.const (-2)) = some (recip 4) := by decide
example : NonnegParts ρ x₀ := .direct _ (by simp [Direct])
example : PowDefined 9 (2⁻¹) := Or.inl (by norm_num)

/-- **C22** is false in general: the library computes the type `x` for `sqrt(x * x)`, so at `x = -3`
the square root of nine evaluates to minus three. -/
theorem C22_sqrt_of_square_is_false :
    ∃ sq e, simp 20 .mul x₀ x₀ = some sq ∧ simp 20 .pow sq half = some e ∧ Built sq ∧
      ∃ ρ : Env, Denotes ρ sq 9 ∧ Denotes ρ half (2⁻¹) ∧ PowDefined 9 2⁻¹ ∧ Denotes ρ e (-3) ∧
        (9 : ℝ) ^ (2⁻¹ : ℝ) = 3 ∧ ¬Denotes ρ e ((9 : ℝ) ^ (2⁻¹ : ℝ)) := by
  have h9 : (9 : ℝ) ^ (2⁻¹ : ℝ) = 3 := by
    rw [show (9 : ℝ) = 3 ^ (2 : ℝ) by norm_num, ← Real.rpow_mul (by norm_num)]; norm_num
  refine ⟨powerOf x₀ (.const 2), x₀, by decide, by decide, ?_, ⟨fun _ _ => -3, fun _ _ => 0⟩, ?_, ?_,
    Or.inl (by norm_num), ?_, h9, ?_⟩
  · exact .fn _ _ (by simp [Built.value, Built.const]) (by simp) (by simp)
      (fun _ => ⟨_, _, rfl, by simp [Direct]⟩)
  · have : PowDefined (-3) 2 := by
      have : PowDefined (-3) ((2 : ℤ) : ℝ) := powDefined_int.2 (Or.inr (by norm_num))
      simpa using this
    simp [Denotes, den, denList, interp, this]
    norm_num
  · have : PowDefined 2 (-1) := Or.inl (by norm_num)
    simp [half, Denotes, den, denList, interp, this, Real.rpow_neg_one]
  · simp [Denotes, den]
  · rw [h9]; simp [Denotes, den]; norm_num

/-- **C22** is false in general: the square root of a product is split, and `sqrt(x * y)` is
undefined at `x = y = -1` although it is one. -/
theorem C22_sqrt_of_product_is_false :
    ∃ e, simp 20 .pow (.fn .mul [x₀, x₁]) half = some e ∧
      ∃ ρ : Env, Denotes ρ (.fn .mul [x₀, x₁]) 1 ∧ PowDefined 1 2⁻¹ ∧ ∀ v, ¬Denotes ρ e v := by
  refine ⟨.fn .mul [powerOf x₀ half, powerOf x₁ half], by decide,
    ⟨fun _ _ => -1, fun _ _ => 0⟩, ?_, Or.inl (by norm_num), ?_⟩
  · simp [Denotes, den, denList, interp, prodVals]
  · intro v
    have h2 : PowDefined 2 (-1) := Or.inl (by norm_num)
    have : ¬PowDefined (-1) (2⁻¹) := by
      rintro (h | ⟨h, -⟩ | ⟨-, k, hk⟩)
      · norm_num at h
      · norm_num at h
      · have h1 : (2 * k : ℝ) = 1 := by rw [← hk]; norm_num
        have h2 : 2 * k = 1 := by exact_mod_cast h1
        omega
    simp [half, Denotes, den, denList, interp, h2, Real.rpow_neg_one, this, prodVals]

/-- **C43** (restricted) An expression that the library takes for non-negative has a non-negative
value, provided it contains no reordering sign and every exponent it takes for even is an integer
literal.  Without these provisos the claim fails. -/
theorem C43_non_negative_partial (e : Expr) (hs : TraitSafe e) (h : isNonNegative e = some true)
    (x : ℝ) (hx : Denotes ρ e x) : 0 ≤ x :=
  (isNonNegative_ok (size e)).1 e le_rfl hs h x hx

-- `|x|`, `(x + y)^2`, `3 * x^4`
example : isNonNegative (.fn .mul [.const 3, powerOf x₀ (.const 4)]) = some true ∧
    TraitSafe (.fn .mul [.const 3, powerOf x₀ (.const 4)]) := by
  refine ⟨by decide, ?_⟩
  simp [TraitSafe, TraitSafeAll]

/-- **C43** (restricted) An expression without powers and bitwise disjunctions that the library takes
for even has an even value.  Without the provisos the claim fails. -/
theorem C43_even_partial (e : Expr) (hs : ParitySafe e) (h : isEven e = some true)
    (x : ℝ) (hx : Denotes ρ e x) : ∃ k : ℤ, x = 2 * k :=
  isEven_ok (size e) e le_rfl hs h x hx

example : isEven (.fn .absolute [.const (-4)]) = some true ∧
    ParitySafe (.fn .absolute [.const (-4)]) := by
  refine ⟨by decide, ?_⟩
  simp [ParitySafe, ParitySafeAll]

/-- **C43** is false in general: the sign of a reordering is taken for non-negative, but the sign of
`e2 e1` is `-1`. -/
theorem C43_reordering_sign_is_false :
    ∃ e, isNonNegative e = some true ∧ ∃ ρ : Env, Denotes ρ e (-1) := by
  refine ⟨.fn .reorderingSign [.bitset 1 0, .bitset 1 1], by decide,
    ⟨fun _ _ => 0, fun _ i => if i = 0 then 2 else 1⟩, ?_⟩
  simp only [Denotes, den, denList, interp, if_true]
  rw [← orderSign_eq, reorderingSign_eq]
  have : strictInv 2#64 1#64 = 1 := by rw [strictInv_eq_card]; decide
  simp [this]

/-- **C43** is false in general: a power is taken for even when its exponent is, so `3^2` is, and
hence `x^(y^2)` is taken for non-negative, although it is `-1` at `x = -1`, `y = 1`. -/
theorem C43_power_is_false :
    (isEven (powerOf x₀ (.const 2)) = some true ∧ ∃ ρ : Env, Denotes ρ (powerOf x₀ (.const 2)) 9 ∧
      ¬∃ k : ℤ, (9 : ℝ) = 2 * k) ∧
    isNonNegative (powerOf x₀ (powerOf x₁ (.const 2))) = some true ∧
      ∃ ρ : Env, Denotes ρ (powerOf x₀ (powerOf x₁ (.const 2))) (-1) := by
  refine ⟨⟨by decide, ⟨fun _ _ => 3, fun _ _ => 0⟩, ?_, ?_⟩, by decide,
    ⟨fun _ i => if i = 0 then -1 else 1, fun _ _ => 0⟩, ?_⟩
  · have : PowDefined 3 2 := Or.inl (by norm_num)
    simp [Denotes, den, denList, interp, this]; norm_num
  · rintro ⟨k, hk⟩
    have : (9 : ℤ) = 2 * k := by exact_mod_cast hk
    omega
  · have h1 : PowDefined 1 2 := Or.inl (by norm_num)
    have h2 : PowDefined (-1) 1 := powDefined_one _
    simp [Denotes, den, denList, interp, h1, h2]

/-- **C43** A power of zero with an integer exponent is replaced by zero for the positive exponents only. -/
theorem C43_zero_power (n : Nat) (k : Int) :
    simp (n + 1) .pow (.const 0) (.const k) = some (.const 0) ↔ 0 < k := by
  change applyRules (powRules (simp n)) (.const 0) (.const k) = _ ↔ _
  unfold powRules
  constructor
  · intro h
    by_contra hk
    rw [applyRules_skip (by simp [powMisc1, asConst, hk])] at h
    rw [applyRules_skip (by
      by_cases h0 : k = 0
      · simp [powMisc2, h0]
      · have h1 : k ≠ 1 := by omega
        simp [powMisc2, h0, h1])] at h
    revert h
    simp only [applyRules, powMisc3, asConst]
    rw [if_neg (by simp [half])]
    cases iabs k with
    | none => simp
    | some j =>
      cases hp : simplerIpow 0 j with
      | none => simp [hp]
      | some p => simp [hp, hk, powerOf]
  · intro hk
    rw [applyRules_fire (o := some (.const 0)) (by simp [powMisc1, asConst, hk, fire])]


-- `0^2` is `0`, `0^-2` is not
example : simp 1 .pow (.const 0) (.const 2) = some (.const 0) ∧
    simp 1 .pow (.const 0) (.const (-2)) = some (powerOf (.const 0) (.const (-1))) := by decide +kernel

/-- **C43** is false in general: the cosine of a constant is taken for positive, so that `0^cos(2)` is replaced by zero,
although `cos(2)` is negative and the power has no value. -/
theorem C43_may_be_positive_is_false :
    simp 1 .pow (.const 0) (.fn .cosine [.const 2]) = some (.const 0) ∧
    ∀ ρ : Env, (∃ x, Denotes ρ (.fn .cosine [.const 2]) x ∧ x < 0) ∧
      ¬∃ x, Denotes ρ (powerOf (.const 0) (.fn .cosine [.const 2])) x := by
  refine ⟨by decide, fun ρ => ⟨⟨Real.cos 2, ?_, Real.cos_two_neg⟩, ?_⟩⟩
  · simp [Denotes, den, denList, interp]
  · rintro ⟨x, hx⟩
    have : ¬PowDefined 0 (Real.cos 2) := by
      have := Real.cos_two_neg
      rintro (h | h | h) <;> first | exact absurd h.1 (lt_irrefl _) | linarith [h.2] | linarith
    simp [Denotes, den, denList, interp, this] at hx

/-- **C47** The canonical order is irreflexive on all expressions. -/
theorem C47_irreflexive (e : Expr) : lt e e = false := lt_irrefl' e

/-- **C47** (restricted) Among variables, constants and stored entries (numbers or bitsets) the
canonical order is a strict total order. -/
theorem C47_strict_order_on_leaves_partial :
    (∀ a b c, IsNumLeaf a → IsNumLeaf b → IsNumLeaf c →
      (lt a b = true → lt b c = true → lt a c = true) ∧ (lt a b = true ∨ a = b ∨ lt b a = true)) ∧
    ∀ a b c, IsBitsLeaf a → IsBitsLeaf b → IsBitsLeaf c →
      (lt a b = true → lt b c = true → lt a c = true) ∧ (lt a b = true ∨ a = b ∨ lt b a = true) :=
  ⟨fun _ _ _ ha hb hc => ⟨lt_trans_num ha hb hc, lt_total_num ha hb⟩,
    fun _ _ _ ha hb hc => ⟨lt_trans_bits ha hb hc, lt_total_bits ha hb⟩⟩

example : IsNumLeaf (.value 3 1) ∧ IsNumLeaf (.const 5) ∧ IsBitsLeaf (.bitset 2 0) :=
  ⟨trivial, trivial, trivial⟩
example : lt (.const 5) (.value 3 1) = true ∧ lt (.value 2 7) (.value 3 1) = true := by decide

/-- **C47** (restricted) Hence sums and products of two variables, constants or stored entries have
the same type in either order. -/
theorem C47_leaves_commute_partial (n : Nat) (a b : Expr) (ha : IsNumLeaf a) (hb : IsNumLeaf b) :
    simp n .add a b = simp n .add b a ∧ simp n .mul a b = simp n .mul b a := by
  cases n with
  | zero => exact ⟨rfl, rfl⟩
  | succ n => exact ⟨add_leaf_comm _ ha hb, mul_leaf_comm _ ha hb⟩

example : simp 5 .add (.value 3 1) (.const 5) = some (.fn .add [.const 5, .value 3 1]) := by decide

/-- **C47** is false in general: the order is not transitive, there is a cycle of length three. -/
theorem C47_cycle_is_false :
    ∃ a b c, lt a b = true ∧ lt b c = true ∧ lt c a = true ∧ lt a c = false :=
  ⟨.value 1 5, powerOf (.value 1 9) (.const 2), .fn .mul [.value 1 3, .value 1 4],
    by decide, by decide, by decide, by decide⟩

/-- **C47** is false in general: the order is not even asymmetric; of two products of constants each
may come before the other. -/
theorem C47_asymmetry_is_false : ∃ a b, lt a b = true ∧ lt b a = true :=
  let c (k : Int) : Expr := .fn .cosine [.const k]
  ⟨.fn .mul [c 1, c 5], .fn .mul [c 2, c 3, c 4], by decide, by decide⟩

/-- **C51** (restricted) The type computed for a bitwise, logical or elementary function of some
expressions denotes the value of the function at their values (number, bitset or truth value).
`FoldOk` leaves out the comparison for equality of two constants that are not both literals, and
the absolute value of operands whose sign the library misjudges: there the claim fails. -/
theorem C51_folding_preserves_value_partial (n : Nat) (name : Name) (args : List Expr) (e : Expr)
    (hargs : ∀ a ∈ args, Built a) (hok : FoldOk ρ name args)
    (he : mkFn (simp n) name args = some e) (v : Val)
    (hv : interp name (denList ρ args) = some v) : den ρ e = some v :=
  mkFn_ok hargs hok he v hv

-- `e1 ^ e2` of constants, `exp(log x)`, `abs` of a literal, `if` with a known test
example : mkFn (simp 9) .bxor [.cbits 1, .cbits 2] = some (.cbits 3) := by decide
example : mkFn (simp 9) .exponential [.fn .logarithm [x₀]] = some x₀ := by decide
example : mkFn (simp 9) .absolute [.const (-7)] = some (.const 7) := by decide
example : mkFn (simp 9) .absolute [x₀] = some (.fn .absolute [x₀]) := by decide
example : mkFn (simp 9) .ifElse [.cbool false, x₀, x₁] = some x₁ := by decide
example : FoldOk ρ .absolute [.const (-7)] := by
  refine ⟨by simp [TraitSafe], fun _ _ x hx => ?_⟩
  simp only [Denotes, den, Option.some.injEq, Val.num.injEq] at hx
  rw [← hx]; norm_num

/-- **C51** is false in general: for a constant whose sign is not known, `abs` is taken to be the
negation, so `abs(cos(0))` evaluates to `-1`. -/
theorem C51_abs_of_constant_is_false :
    ∃ e, mkFn (simp 9) .absolute [.fn .cosine [.const 0]] = some e ∧
      ∀ ρ : Env, Denotes ρ (.fn .cosine [.const 0]) 1 ∧ Denotes ρ e (-1) := by
  refine ⟨.fn .mul [.const (-1), .fn .cosine [.const 0]], by decide, fun ρ => ⟨?_, ?_⟩⟩
  · simp [Denotes, den, denList, interp]
  · simp [Denotes, den, denList, interp, prodVals]

/-- **C51** is false in general: two constants of different types are taken to be different, so
`cos(0) == 1` is folded to false. -/
theorem C51_equality_of_constants_is_false :
    mkFn (simp 9) .equal [.fn .cosine [.const 0], .const 1] = some (.cbool false) ∧
      ∀ ρ : Env, interp .equal (denList ρ [.fn .cosine [.const 0], .const 1]) =
        some (.bool true) := by
  refine ⟨by decide, fun ρ => ?_⟩
  simp [den, denList, interp]

end GATL.Props
