import Verif.Proofs.ConstNorm
import Verif.Proofs.ConstUnit

/-!
`unit` of a multivector whose squared norm is a constant at compile time.
-/

namespace GATL

open Expr Spec

variable {ρ ρ' outer : Env} {τ : Types} {N P Q R n k L U : Nat}

/-! ### The types -/

/-- A quotient of two integers. -/
def Ratio (z : Expr) : Prop :=
  IsConst z ∨ (∃ d, z = recip d) ∨ ∃ n y, z = .fn .mul [.const n, y] ∧ (IsConst y ∨ ∃ d, y = recip d)

theorem ratio_of {y : Expr} (h : IsConst y ∨ ∃ d, y = recip d) : Ratio y := h.elim .inl fun h => .inr (.inl h)

theorem inv_simple {v : Int} {i : Expr} (h : simp n .pow (.const v) (.const (-1)) = some i) :
    IsConst i ∨ ∃ d, i = recip d := by
  obtain ⟨r, h | h⟩ := inv_const_shape h
  · exact .inl ⟨r, h⟩
  · exact .inr ⟨r, h⟩

theorem pow_zero_const {v : Int} {e : Expr} (hv : v ≠ 0) (h : simp n .pow (.const v) (.const 0) = some e) : e = .const 1 := by
  refine simp_eq h (k := 1) ?_
  show applyRules (powRules (simp 0)) (.const v) (.const 0) = _
  unfold powRules
  by_cases h1 : v = 1
  · subst h1
    exact applyRules_fire (o := some (.const 1)) (by simp [powMisc1, fire])
  rw [applyRules_skip (by simp [powMisc1, hv, h1])]
  exact applyRules_fire (o := some (.const 1)) (by simp [powMisc2, hv, fire])

theorem pow_one_const {v : Int} {e : Expr} (hv : v ≠ 0) (h : simp n .pow (.const v) (.const 1) = some e) : e = .const v := by
  refine simp_eq h (k := 1) ?_
  show applyRules (powRules (simp 0)) (.const v) (.const 1) = _
  unfold powRules
  by_cases h1 : v = 1
  · subst h1
    exact applyRules_fire (o := some (.const 1)) (by simp [powMisc1, fire])
  rw [applyRules_skip (by simp [powMisc1, hv, h1])]
  exact applyRules_fire (o := some (.const v)) (by simp [powMisc2, fire])

theorem ratio_mul : ∀ (n : Nat) (v : Int) (y z : Expr), (IsConst y ∨ ∃ d, y = recip d) →
    simp n .mul (.const v) y = some z → Ratio z := by
  intro n
  induction n with
  | zero => intro v y z _ h; simp [simp] at h
  | succ n ih =>
    rintro v y z (⟨d, rfl⟩ | ⟨d, rfl⟩) h
    · exact .inl (mul_const_const h)
    change applyRules (mulRules (simp n)) (.const v) (recip d) = _ at h
    unfold mulRules at h
    by_cases h0 : v = 0
    · rw [applyRules_fire (o := some (.const 0)) (by simp [mulZero, h0, fire])] at h
      cases h; exact .inl ⟨0, rfl⟩
    by_cases h1 : v = 1
    · rw [applyRules_skip (by simp [mulZero, h0]), applyRules_fire (o := some (recip d)) (by simp [mulOne, h1, fire])] at h
      cases h; exact .inr (.inl ⟨d, rfl⟩)
    rw [applyRules_skip (by simp [mulZero, h0]), applyRules_skip (by simp [mulOne, h1]),
      applyRules_skip (by simp [mulDistribute, asAdd]),
      applyRules_skip (by simp [mulHelper, asMul, mulCollect1])] at h
    by_cases hd : d = v
    · subst hd
      rw [applyRules_fire (o := (simp n .add (.const 1) (.const (-1))).bind (simp n .pow (.const d)))
        (by simp [mulHelper, asMul, mulCollect2, asPower])] at h
      simp only [Option.bind_eq_some_iff] at h
      obtain ⟨q, hq, h⟩ := h
      obtain rfl := simp_eq hq (k := 5) (x := .const 0) (by decide +kernel)
      exact .inl ⟨1, pow_zero_const h0 h⟩
    rw [applyRules_skip (by simp [mulHelper, asMul, mulCollect2, asPower, hd]),
      applyRules_skip (by simp [mulHelper, asMul, mulCollect3, asPower]),
      applyRules_skip (by simp [mulHelper, asMul, mulConst1, asConst, asRecip]),
      applyRules_fire (o := simplerRational (simp n) v d) (by simp [mulConst2, asConst, asRecip])] at h
    simp only [simplerRational, Option.bind_eq_bind, Option.bind_eq_some_iff] at h
    obtain ⟨a, -, b, -, h⟩ := h
    split_ifs at h with g1 g2
    · simp only [Option.bind_eq_some_iff] at h
      obtain ⟨y, hy, h⟩ := h
      exact .inr (.inr ⟨_, y, mkMul_two h, inv_simple hy⟩)
    · simp only [Option.bind_eq_some_iff] at h
      obtain ⟨y, hy, h⟩ := h
      exact ih _ _ _ (inv_simple hy) h

/-- What the inverse of the norm can be: an integer, the inverse of one, or the inverse of the root of one. -/
def Weight (w : Expr) : Prop := IsConst w ∨ (∃ r, w = recip r) ∨ ∃ u, w = powerOf (.const u) minusHalf

/-- An expression that is evaluated correctly: if it is a constant it remains in the type. -/
structure Staging (L U : Nat) (e : Expr) : Prop where
  ev : Evaluable L U .num e
  noInt : isConstant e = true ∨ ∀ τ, NoIntQuotient τ e

theorem Exponent.staging {e : Expr} (h : Exponent L U e) : Staging L U e := ⟨h.ev, .inr h.noInt⟩

theorem weight_exponent {w : Expr} (h : Weight w) : Exponent L U w := by
  rcases h with ⟨r, rfl⟩ | ⟨r, rfl⟩ | ⟨u, rfl⟩
  · exact exponent_const r
  · exact exponent_recip r
  · exact exponent_power_const u exponent_minusHalf

theorem constant_weight {w : Expr} (h : Weight w) : isConstant w = true := by
  rcases h with ⟨r, rfl⟩ | ⟨r, rfl⟩ | ⟨u, rfl⟩ <;> rfl

theorem staging_ratio {z : Expr} (h : Ratio z) : Staging L U z := by
  have hy : ∀ y, (IsConst y ∨ ∃ d, y = recip d) → Exponent L U y ∧ isConstant y = true := by
    rintro y (⟨d, rfl⟩ | ⟨d, rfl⟩)
    · exact ⟨exponent_const d, rfl⟩
    · exact ⟨exponent_recip d, rfl⟩
  rcases h with h | h | ⟨m, y, rfl, h⟩
  · exact (hy _ (.inl h)).1.staging
  · exact (hy _ (.inr h)).1.staging
  · obtain ⟨h1, h2⟩ := hy y h
    exact ⟨.mul _ (by simp) (by simp [h1.ev, Evaluable.const]), .inl (by simp [isConstant, isConstantAll, h2])⟩

theorem weight_not {w : Expr} (h : Weight w) : asAdd w = none ∧ asMul w = none := by
  rcases h with ⟨r, rfl⟩ | ⟨r, rfl⟩ | ⟨u, rfl⟩ <;> exact ⟨rfl, rfl⟩

/-- A variable times such a number. -/
theorem value_weight {w z : Expr} {t i : Nat} (hw : Weight w) (h : simp n .mul (.value t i) w = some z) :
    z = .const 0 ∨ z = .value t i ∨ z = .fn .mul [w, .value t i] := by
  cases n with
  | zero => simp [simp] at h
  | succ n =>
    change applyRules (mulRules (simp n)) (.value t i) w = _ at h
    unfold mulRules at h
    obtain ⟨w1, w2⟩ := weight_not hw
    by_cases h0 : w = .const 0
    · rw [applyRules_fire (o := some (.const 0)) (by simp [mulZero, h0, fire])] at h
      cases h; exact .inl rfl
    by_cases h1 : w = .const 1
    · rw [applyRules_skip (by simp [mulZero, h0]), applyRules_fire (o := some (.value t i)) (by simp [mulOne, h1, fire])] at h
      cases h; exact .inr (.inl rfl)
    have hne : Expr.value t i ≠ w := by rcases hw with ⟨r, rfl⟩ | ⟨r, rfl⟩ | ⟨u, rfl⟩ <;> simp
    have g1 : lt (.value t i) w = false := by rcases hw with ⟨r, rfl⟩ | ⟨r, rfl⟩ | ⟨u, rfl⟩ <;> rfl
    have g2 : lt w (.value t i) = true := by rcases hw with ⟨r, rfl⟩ | ⟨r, rfl⟩ | ⟨u, rfl⟩ <;> rfl
    have a1 : asAdd (.value t i) = none := rfl
    have a2 : asMul (.value t i) = none := rfl
    have a3 : asPower (.value t i) = none := rfl
    have a4 : asConst (.value t i) = none := rfl
    have a5 : asRecip (.value t i) = none := rfl
    rw [applyRules_skip (by simp [mulZero, h0]), applyRules_skip (by simp [mulOne, h1]),
      applyRules_skip (by simp [mulDistribute, a1, w1]),
      applyRules_skip (by simp [mulHelper, a2, w2, mulCollect1, hne]),
      applyRules_skip (by
        rcases hw with ⟨r, rfl⟩ | ⟨r, rfl⟩ | ⟨u, rfl⟩ <;> simp [mulHelper, asMul, mulCollect2, asPower]),
      applyRules_skip (by simp [mulHelper, a2, w2, mulCollect3, a3]),
      applyRules_skip (by simp [mulHelper, a2, w2, mulConst1, a4, a5]),
      applyRules_skip (by simp [mulConst2, a4, a5]),
      applyRules_skip (by simp [mulMergeLt, a2, w2, g1]),
      applyRules_fire (o := mkMul [w, .value t i]) (by simp [mulMergeGt, a2, w2, g2])] at h
    exact .inr (.inr (mkMul_two h))

/-- An integer times the inverse of a root. -/
theorem const_root {v u : Int} {z : Expr} (h : simp n .mul (.const v) (powerOf (.const u) minusHalf) = some z) :
    IsConst z ∨ z = powerOf (.const u) minusHalf ∨ z = .fn .mul [.const v, powerOf (.const u) minusHalf] ∨
      z = powerOf (.const u) (.fn .add [.const 1, minusHalf]) := by
  cases n with
  | zero => simp [simp] at h
  | succ n =>
    change applyRules (mulRules (simp n)) (.const v) (powerOf (.const u) minusHalf) = _ at h
    unfold mulRules at h
    by_cases h0 : v = 0
    · rw [applyRules_fire (o := some (.const 0)) (by simp [mulZero, h0, fire])] at h
      cases h; exact .inl ⟨0, rfl⟩
    by_cases h1 : v = 1
    · rw [applyRules_skip (by simp [mulZero, h0]),
        applyRules_fire (o := some (powerOf (.const u) minusHalf)) (by simp [mulOne, h1, fire])] at h
      cases h; exact .inr (.inl rfl)
    rw [applyRules_skip (by simp [mulZero, h0]), applyRules_skip (by simp [mulOne, h1]),
      applyRules_skip (by simp [mulDistribute, asAdd]),
      applyRules_skip (by simp [mulHelper, asMul, mulCollect1])] at h
    by_cases hd : u = v
    · subst hd
      rw [applyRules_fire (o := (simp n .add (.const 1) minusHalf).bind (simp n .pow (.const u)))
        (by simp [mulHelper, asMul, mulCollect2, asPower])] at h
      simp only [Option.bind_eq_some_iff] at h
      obtain ⟨q, hq, h⟩ := h
      obtain rfl := simp_eq hq (k := 10) (x := .fn .add [.const 1, minusHalf]) (by decide +kernel)
      cases n with
      | zero => simp [simp] at h
      | succ n =>
        change applyRules (powRules (simp n)) (.const u) (.fn .add [.const 1, minusHalf]) = _ at h
        unfold powRules at h
        rw [applyRules_skip (by simp [powMisc1, h0, h1]), applyRules_skip (by simp [powMisc2]),
          applyRules_skip (by simp [powMisc3, half, asConst]),
          applyRules_fire (o := some (powerOf (.const u) (.fn .add [.const 1, minusHalf])))
            (by simp [powDistribute, asMul, asPower, fire])] at h
        cases h; exact .inr (.inr (.inr rfl))
    have g : lt (.const v) (powerOf (.const u) minusHalf) = true := rfl
    rw [applyRules_skip (by simp [mulHelper, asMul, mulCollect2, asPower, hd]),
      applyRules_skip (by simp [mulHelper, asMul, mulCollect3, asPower]),
      applyRules_skip (by simp [mulHelper, asMul, mulConst1, asConst, asRecip]),
      applyRules_skip (by simp [mulConst2, asConst, asRecip]),
      applyRules_fire (o := mkMul [.const v, powerOf (.const u) minusHalf]) (by simp [mulMergeLt, asMul, g])] at h
    exact .inr (.inr (.inl (mkMul_two h)))

/-- The coefficients of the result can be evaluated. -/
theorem leaf_weight {x w z : Expr} (hx : Leaf L U x) (hw : Weight w) (h : simp n .mul x w = some z) : Staging L U z := by
  have ew := weight_exponent (L := L) (U := U) hw
  rcases hx with ⟨v, rfl⟩ | ⟨t, i, h1, h2, rfl⟩
  · rcases hw with hw | hw | ⟨u, rfl⟩
    · exact staging_ratio (ratio_mul _ _ _ _ (.inl hw) h)
    · exact staging_ratio (ratio_mul _ _ _ _ (.inr hw) h)
    · rcases const_root h with ⟨r, rfl⟩ | rfl | rfl | rfl
      · exact (exponent_const r).staging
      · exact ew.staging
      · exact ⟨.mul _ (by simp) (by simp [ew.ev, Evaluable.const]), .inl rfl⟩
      · exact ⟨.power _ _ (.const u) (.add _ (by simp) (by simp [exponent_minusHalf.ev, Evaluable.const]))
          (.inr (.inr (.inl ⟨u, rfl⟩))), .inl rfl⟩
  · have ev : Evaluable L U .num (.value t i) := .value t i h1 h2
    rcases value_weight hw h with rfl | rfl | rfl
    · exact (exponent_const 0).staging
    · exact ⟨ev, .inr fun τ => trivial⟩
    · refine ⟨.mul _ (by simp) (by simp [ew.ev, ev]), .inr fun τ => ?_⟩
      rw [NoIntQuotient]
      refine ⟨by simp [NoIntQuotientAll, ew.noInt, NoIntQuotient], fun pre l r e => ?_⟩
      have := congrArg (fun x => x.reverse[0]?) e
      simp at this

/-! ### The inverse of the norm -/

/-- An integer times the inverse of its square. -/
theorem mul_square {r : Int} {w : Expr} (hr : 0 < r) (h : simp n .mul (.const r) (recip (r * r)) = some w) :
    IsConst w ∨ ∃ d, w = recip d := by
  cases n with
  | zero => simp [simp] at h
  | succ n =>
    change applyRules (mulRules (simp n)) (.const r) (recip (r * r)) = _ at h
    unfold mulRules at h
    by_cases h1 : r = 1
    · rw [applyRules_skip (by simp [mulZero]; omega), applyRules_fire (o := some (recip (r * r))) (by simp [mulOne, h1, fire])] at h
      cases h; exact .inr ⟨_, rfl⟩
    have hd : r * r ≠ r := fun e => h1 (mul_right_cancel₀ hr.ne' (by rw [e, one_mul]))
    rw [applyRules_skip (by simp [mulZero]; omega), applyRules_skip (by simp [mulOne, h1]),
      applyRules_skip (by simp [mulDistribute, asAdd]),
      applyRules_skip (by simp [mulHelper, asMul, mulCollect1]),
      applyRules_skip (by simp only [mulHelper, asMul, mulCollect2, asPower, Expr.const.injEq, hd, if_false]),
      applyRules_skip (by simp [mulHelper, asMul, mulCollect3, asPower]),
      applyRules_skip (by simp [mulHelper, asMul, mulConst1, asConst, asRecip]),
      applyRules_fire (o := simplerRational (simp n) r (r * r)) (by simp [mulConst2, asConst, asRecip])] at h
    have hp : 0 < r * r := mul_pos hr hr
    have a1 : iabs r = some r := by unfold iabs; rw [if_pos (by omega)]
    have a2 : iabs (r * r) = some (r * r) := by unfold iabs; rw [if_pos (by omega)]
    have g : igcd r (r * r) = r := by
      obtain ⟨m, rfl⟩ := Int.eq_ofNat_of_zero_le hr.le
      rw [← Nat.cast_mul, igcd_nat, Nat.gcd_mul_right_right]
    have t : isign r * isign (r * r) = 1 := by
      unfold isign
      rw [if_pos hr, if_pos hp]; rfl
    simp only [simplerRational, a1, a2, Option.bind_eq_bind, Option.bind_some, g, t, h1, hr.ne', if_false,
      Option.bind_eq_some_iff, Int.tdiv_self hr.ne', Int.mul_tdiv_cancel _ hr.ne', one_mul] at h
    obtain ⟨y, hy, h⟩ := h
    rcases simp_one_mul h with rfl | rfl
    · exact inv_simple hy
    · exact .inl ⟨0, rfl⟩

/-- The type of the inverse of the root of a positive integer. -/
theorem weight_inverse {u : Int} {x z y w : Expr} {j₁ j₂ j₃ j₄ : Nat} (hu : 0 < u) (hx : simp j₁ .pow (.const u) half = some x)
    (hz : simp j₂ .mul x x = some z) (hy : simp j₃ .pow z (.const (-1)) = some y) (hw : simp j₄ .mul x y = some w) :
    Weight w := by
  let ρ : Env := ⟨fun _ _ => 0, fun _ _ => 0⟩
  have hu' : (0 : ℝ) < u := by exact_mod_cast hu
  have vx : V ρ x ((u : ℝ) ^ (1 / 2 : ℝ)) :=
    (simp_sound ρ j₁).pow _ _ _ _ _ (V.const u) v_half (.inl hu') (.inr (.direct _ ⟨by simp, by simp⟩)) hx
  have hq : (u : ℝ) ^ (1 / 2 : ℝ) * (u : ℝ) ^ (1 / 2 : ℝ) = u := by
    rw [← Real.sqrt_eq_rpow, Real.mul_self_sqrt hu'.le]
  have hp : (0 : ℝ) < (u : ℝ) ^ (1 / 2 : ℝ) := Real.rpow_pos_of_pos hu' _
  have vz : V ρ z (u : ℝ) := by
    have := (simp_sound ρ j₂).mul _ _ _ _ _ vx vx hz
    rwa [hq] at this
  have vy : V ρ y (u : ℝ)⁻¹ := by
    have := (simp_sound ρ j₃).pow _ _ _ _ _ vz (V.const (-1)) (.inl hu') (.inl ⟨-1, rfl⟩) hy
    simpa [Real.rpow_neg_one] using this
  have hsimple : IsConst w ∨ (∃ d, w = recip d) → Weight w := by
    rintro (h | h)
    · exact .inl h
    · exact .inr (.inl h)
  rcases root_const_shape hx with ⟨r, rfl⟩ | rfl
  · -- the root is an integer
    obtain ⟨q, rfl⟩ := mul_const_const hz
    have er := vx.const_eq
    rw [er] at hq hp
    have hr : 0 < r := by exact_mod_cast hp
    have eu : r * r = u := by exact_mod_cast hq
    rcases inv_simple hy with ⟨d, rfl⟩ | ⟨d, rfl⟩
    · exact .inl (mul_const_const hw)
    · obtain ⟨-, e⟩ := vy.recip_inv
      have e' : u = d := by exact_mod_cast inv_injective e
      rw [← e', ← eu] at hw
      exact hsimple (mul_square hr hw)
  · have h1 : u ≠ 1 := by
      rintro rfl
      have := simp_eq hx (k := 5) (x := .const 1) (by decide +kernel)
      cases this
    cases j₂ with
    | zero => simp [simp] at hz
    | succ j₂ =>
    rw [mul_self (by simp) rfl rfl] at hz
    cases j₂ with
    | zero => simp [simp] at hz
    | succ j₂ =>
    rw [pow_power (by decide) (by decide)] at hz
    simp only [Option.bind_eq_some_iff] at hz
    obtain ⟨q, hq', hz⟩ := hz
    obtain rfl := simp_eq hq' half_two
    obtain rfl := pow_one_const hu.ne' hz
    rcases inv_simple hy with ⟨d, rfl⟩ | ⟨d, rfl⟩
    · exfalso
      have e := vy.const_eq
      have e' : (d : ℝ) * u = 1 := by rw [← e, inv_mul_cancel₀ hu'.ne']
      have e'' : d * u = 1 := by exact_mod_cast e'
      exact h1 (Int.eq_one_of_mul_eq_one_left hu.le e'')
    · obtain ⟨-, e⟩ := vy.recip_inv
      have e' : u = d := by exact_mod_cast inv_injective e
      subst e'
      cases j₄ with
      | zero => simp [simp] at hw
      | succ j₄ =>
      rw [mul_powers (by decide)] at hw
      simp only [Option.bind_eq_some_iff] at hw
      obtain ⟨q, hq', hw⟩ := hw
      obtain rfl := simp_eq hq' half_sub
      cases j₄ with
      | zero => simp [simp] at hw
      | succ j₄ =>
      change applyRules (powRules (simp j₄)) (.const u) minusHalf = _ at hw
      unfold powRules at hw
      rw [applyRules_skip (by simp [powMisc1, hu.ne', h1]), applyRules_skip (by simp [powMisc2, minusHalf]),
        applyRules_skip (by simp [powMisc3, minusHalf, half, asConst]),
        applyRules_fire (o := some (powerOf (.const u) minusHalf)) (by simp [powDistribute, asMul, asPower, fire])] at hw
      cases hw; exact .inr (.inr ⟨u, rfl⟩)

/-- The inverse of the norm, if the squared norm is a constant. -/
theorem inverse_weight (hN : P + Q + R ≤ 62) {u : Int} {x : Expr} (hu : 0 < u) (hx : simp k .pow (.const u) half = some x)
    {r : ℝ} (hv : V ρ x r) (h0 : r ≠ 0) {S i : Object}
    (hS : S.expr = [⟨x, .const 0⟩]) (h : inverse P Q R k τ outer S = some i) :
    ∃ y, i.expr = [⟨y, .const 0⟩] ∧ Weight y ∧ V ρ y r⁻¹ := by
  have cx := closed_pow (closed_const u) closed_half hx
  have hst' := closed_stored x cx
  have hne : ∀ {z : Expr} {q : ℝ}, V ρ z q → q ≠ 0 → z ≠ .const 0 := by
    rintro z q hz hq rfl
    exact hq (by simpa using V.const_eq hz)
  have hs : hasStoredC S.expr = false := by rw [hS]; exact scalar_stored hst'
  have hs1 : ∀ X ∈ [S], hasStoredC X.expr = false := by simpa using hs
  unfold inverse at h
  rw [arguments_lazy _ hs1] at h
  simp only [List.map_cons, List.map_nil, Option.bind_eq_bind, Option.bind_some, Option.bind_eq_some_iff] at h
  obtain ⟨nn, hnn, q, hq, rv, hrv, r', hr, h⟩ := h
  simp only [contextObject, contextEval_lazy hs1, Option.bind_eq_bind, Option.bind_some, Option.some.injEq] at h
  subst h
  obtain ⟨j, z, hz, en⟩ := normSqr_lazy hN (hne hv h0) hst' (X := lazyObject S.floats S.expr) hS hnn
  have cz := closed_mul cx cx hz
  have vz := (simp_sound ρ j).mul _ _ _ _ _ hv hv hz
  obtain ⟨y, hy, eq⟩ := powScalar_lazy en (Y := constObject (-1)) rfl (closed_stored z cz) rfl hq
  have cy := closed_pow cz (closed_const _) hy
  have hrr : r * r ≠ 0 := mul_ne_zero h0 h0
  have vy : V ρ y (r * r)⁻¹ := by
    have := (simp_sound ρ k).pow _ _ _ _ _ vz (V.const (ρ := ρ) (-1)) (.inl (mul_self_pos.2 h0)) (.inl ⟨-1, rfl⟩) hy
    simpa [Real.rpow_neg_one] using this
  obtain ⟨e1, h1, h2⟩ := call1_lazy_inv (X := lazyObject S.floats S.expr) hs hrv
  rw [show (lazyObject S.floats S.expr).expr = _ from hS] at h1
  obtain rfl := scalar_reverse h1
  obtain ⟨e2, h3, h4⟩ := call2_lazy_inv (X := rv) (Y := q) (by rw [h2]; exact scalar_stored hst')
    (by rw [eq]; exact scalar_stored (closed_stored y cy)) hr
  rw [h2, eq] at h3
  obtain ⟨j', w, hw, rfl⟩ := lazy_scalar_mul real_scalar (hne hv h0) (hne vy (inv_ne_zero hrr)) h3
  refine ⟨w, h4, weight_inverse hu hx hz hy hw, ?_⟩
  have := (simp_sound ρ j').mul _ _ _ _ _ hv vy hw
  rwa [mul_inv, ← mul_assoc, mul_inv_cancel₀ h0, one_mul] at this

/-! ### Evaluation -/

theorem staging_reads {B : Nat} {c c' : Comp} {p : List Instr} (hk : Known c) (hc : Staging (B + 1) U c.coef)
    (h : compileComp n (B + 1) U c = some (c', p)) {m : MV ℝ} (hm : SumDenotes ρ N [c] m) (ha : Agree B ρ ρ') :
    ∃ vs, exec τ ρ p = some (vs, []) ∧ Reads ρ' N [c'] vs [] m := by
  have hs : Staged n B U c := ⟨hk, fun d hd => (compile_out hc.ev d hd).coef⟩
  rcases hc.noInt with hq | hq
  · obtain ⟨-, ho, h1, h2⟩ := compileComp_known hs h
    obtain ⟨hb, ⟨x, t⟩, ⟨hx, ht⟩, hw, rfl⟩ := SumDenotes.single_iff.1 hm
    obtain ⟨vs, he, hr⟩ : ∃ vs, exec τ ρ p = some (vs, []) ∧ CoefReads ρ' c'.coef vs x := by
      rcases ho with ho | ⟨h2, h3, hg, h4⟩
      · exfalso
        simp only [Prod.mk.injEq] at ho
        obtain ⟨b, eb, -⟩ := hk
        unfold compileComp at h
        simp only [Option.bind_eq_bind, Option.bind_eq_some_iff, Prod.exists, eb, compileBlade,
          Option.some.injEq, Prod.mk.injEq] at h
        obtain ⟨y, p', h1, b', q, ⟨rfl, rfl⟩, -, h3⟩ := h
        rw [List.append_nil] at h3
        subst h3
        rcases compile_out hc.ev _ h1 with ⟨k1, -⟩ | ⟨-, k2, -⟩
        · rw [hq] at k1; cases k1
        · rw [ho.2] at k2; cases k2
      · simp only at h2 h3 hg h4
        exact ⟨[], by rw [h2, exec], .symbolic _ _ h3 (h4 ρ _ hb.1 hx).1
          (by rw [Denotes, ← den_agree ha _ hg]; exact (h4 ρ _ hb.1 hx).2)⟩
    refine ⟨vs, he, ?_⟩
    obtain ⟨coef, blade⟩ := c'
    obtain ⟨b, eb, -⟩ := hk
    simp only at h1 h2 hr
    rw [eb] at ht
    have ht' : t = .const b := ht
    subst ht'
    by_cases h0 : coef = .const 0
    · obtain rfl := h2 h0
      subst h0
      obtain ⟨rfl, rfl⟩ := coefReads_zero hr
      have := Reads.cons (ρ := ρ') (n := N) hr (.const 0) (by simp [WellTyped, vecs]) .nil
      simpa using this
    · have hbl := h1 h0
      rw [eb] at hbl
      subst hbl
      have := Reads.cons (ρ := ρ') (n := N) hr (.const b) hw .nil
      simpa using this
  · exact reads_comp hs h hm (hq τ) ha

theorem compileC_staging {B : Nat} : ∀ (s s' : CSum) (p : List Instr), s ≠ [] → (∀ c ∈ s, Known c) →
    (∀ c ∈ s, Staging (B + 1) U c.coef) → s.Pairwise BeforeC → compileC n (B + 1) U s = some (s', p) →
    ∀ (A : MV ℝ), Agree B ρ ρ' → SumDenotes ρ N s A → ∃ vs, exec τ ρ p = some (vs, []) ∧ Reads ρ' N s' vs [] A
  | [], _, _, hne, _, _, _, _ => absurd rfl hne
  | [c], s', p, _, hk, hq, _, h => by
    intro A hag hA
    simp only [compileC, Option.bind_eq_bind, Option.bind_eq_some_iff, Prod.exists,
      Option.some.injEq, Prod.mk.injEq] at h
    obtain ⟨c', p', h1, rfl, rfl⟩ := h
    exact staging_reads (hk c (by simp)) (hq c (by simp)) h1 hA hag
  | c :: d :: cs, s', p, _, hk, hq, hp, h => by
    intro A hag hA
    rw [compileC.eq_def] at h
    simp only [Option.bind_eq_bind, Option.bind_eq_some_iff, Prod.exists,
      Option.some.injEq, Prod.mk.injEq] at h
    obtain ⟨c', p', h1, u, q, h2, s'', h3, rfl, rfl⟩ := h
    have hst : ∀ x ∈ c :: d :: cs, Staged n B U x := fun x hx => ⟨hk x hx, fun y hy => (compile_out (hq x hx).ev y hy).coef⟩
    obtain ⟨k1, ho, k2, k3⟩ := compileComp_known (hst c (by simp)) h1
    rw [List.pairwise_cons] at hp
    obtain ⟨⟨hcu, hbu, -⟩, -⟩ := compileC_out (d :: cs) u q (by simp) (fun x hx => hst x (List.mem_cons_of_mem _ hx)) hp.2 h2
    have hcond : IsZero u ∨ c'.coef = .const 0 ∨ ∀ x ∈ u, BeforeC c' x := by
      by_cases h0 : c'.coef = .const 0
      · exact .inr (.inl h0)
      · rcases hbu with hz | hbu
        · exact .inl hz
        · refine .inr (.inr fun x hx => ?_)
          obtain ⟨y, hy, e⟩ := hbu x hx
          exact beforeC_congr_left (beforeC_congr_right (hp.1 y hy) e) (k2 h0)
    obtain ⟨-, -, hcase⟩ := addC_front_eq k1 hcu hcond h3
    have hku := canonical_known hcu
    obtain ⟨m₁, m₂, hm₁, hm₂, rfl⟩ := SumDenotes.cons_iff.1 hA
    obtain ⟨vs₁, e₁, r₁⟩ := staging_reads (τ := τ) (hk c (by simp)) (hq c (by simp)) h1 hm₁ hag
    obtain ⟨vs₂, e₂, r₂⟩ := compileC_staging (d :: cs) u q (by simp) (fun x hx => hk x (List.mem_cons_of_mem _ hx))
      (fun x hx => hq x (List.mem_cons_of_mem _ hx)) hp.2 h2 m₂ hag hm₂
    refine ⟨vs₁ ++ vs₂, exec_append e₁ e₂, ?_⟩
    rcases hcase with ⟨h0, hz, rfl⟩ | ⟨h0, hz, rfl⟩ | ⟨h0, hz, rfl⟩ | ⟨h0, hz, rfl⟩
    · obtain ⟨rfl, -, rfl⟩ := reads_zero hz hku r₂
      simpa using r₁
    · obtain ⟨rfl, -, rfl⟩ := reads_zero ⟨c', rfl, h0⟩ (by simpa using k1) r₁
      simpa using r₂
    · obtain ⟨rfl, -, rfl⟩ := reads_zero hz hku r₂
      simpa using r₁
    · exact reads_append r₁ r₂

theorem staging_constants (hU : U < L) {s : CSum} {A : MV ℝ} (hk : ∀ c ∈ s, Known c) (hq : ∀ c ∈ s, Staging L U c.coef)
    (h : SumDenotes ρ N s A) : Reads ρ' N s [] [] A := by
  induction s generalizing A with
  | nil => rw [sumDenotes_nil h]; exact .nil
  | cons c cs ih =>
    obtain ⟨m₁, m₂, h1, h2, rfl⟩ := SumDenotes.cons_iff.1 h
    have := ih (fun c hc => hk c (by simp [hc])) (fun c hc => hq c (by simp [hc])) h2
    obtain ⟨hb, ⟨x, t⟩, ⟨hx, ht⟩, hw, rfl⟩ := SumDenotes.single_iff.1 h1
    obtain ⟨coef, blade⟩ := c
    obtain ⟨b, eb, -⟩ := hk ⟨coef, blade⟩ (by simp)
    have he := hq ⟨coef, blade⟩ (by simp)
    simp only at eb he hx ht
    subst eb
    have ht' : t = .const b := ht
    subst ht'
    refine Reads.cons (vs := []) (ws := []) (.symbolic _ _ (evaluable_context he.ev).2.1 hb.1 ?_) (.const b) hw this
    unfold Denotes at hx ⊢
    rw [← hx]
    exact evaluable_env hU he.ev

/-- Evaluation of a sum whose coefficients may be constants of any kind. -/
theorem context_staging {Ms : List Object} {e : CSum} {A : MV ℝ}
    (hw : Within (Staging (baseId Ms + 1) (baseId Ms + (storedInputs Ms).length)) e)
    (hA : SumDenotes (contextEnv outer (baseId Ms) (storedInputs Ms)) N e A) {o : Object}
    (ho : contextObject k τ outer Ms e = some o) : Reads outer N o.expr o.values o.bitsets A := by
  have h := contextObject_eval ho
  by_cases hs : (storedInputs Ms).isEmpty = true
  · have hlen : (storedInputs Ms).length = 0 := by rw [List.isEmpty_iff] at hs; rw [hs]; rfl
    have he : contextEval k τ outer Ms e = some (e, [], []) := by simp [contextEval, hs]
    rw [he] at h
    simp only [Option.some.injEq, Prod.mk.injEq] at h
    obtain ⟨e1, e2, e3⟩ := h
    rw [← e1, ← e2, ← e3]
    exact staging_constants (by omega) (canonical_known hw.1) hw.2 hA
  · simp only [contextEval, hs, Bool.false_eq_true, if_false, Option.bind_eq_bind, Option.bind_eq_some_iff,
      Prod.exists, Option.some.injEq, Prod.mk.injEq] at h
    obtain ⟨s', code, hc, vs, ws, hx, e1, e2, e3⟩ := h
    obtain ⟨vs', h1, h2⟩ := compileC_staging (ρ' := outer) e s' code hw.1.1 (canonical_known hw.1) hw.2
      (canonical_iff.1 hw.1).2.2.1 hc A
      (fun t ht i => ((context_agree outer _ (storedInputs Ms)) t ht i).imp Eq.symm Eq.symm) hA
    rw [hx] at h1
    cases h1
    rw [← e1, ← e2, ← e3]
    exact h2

/-- `unit` of a multivector whose squared norm is known at compile time. -/
theorem unit_constant_norm (hN : P + Q + R ≤ 62) {M o : Object} {A : MV ℝ} (hM : Represents outer (P + Q + R) M A)
    (hcn : ConstantNorm outer P Q R M)
    (hs : scalarCoef M.expr = none) {v : Expr} (hv : normCoef P Q R k M = some v)
    (h0 : rnormSqr (signedProd P Q R) A ≠ 0) (h : unitObject P Q R k τ outer M = some o) :
    Reads outer (P + Q + R) o.expr o.values o.bitsets ((√|rnormSqr (signedProd P Q R) A|)⁻¹ • A) := by
  obtain ⟨c, rfl⟩ := normCoef_constant hN hM hv hcn
  obtain ⟨as, h1, h2, h3, -⟩ := arguments_ok (outer := outer) (Ms := [M]) (As := [A]) (by omega) (.cons hM .nil)
  obtain ⟨a, as', d1, h3', rfl⟩ := List.forall₂_cons_right_iff.1 h3
  obtain rfl := List.forall₂_nil_right_iff.1 h3'
  have w1 := h2 a (by simp)
  simp only [normCoef, h1, Option.bind_eq_bind, Option.bind_some, Option.bind_eq_some_iff] at hv
  obtain ⟨ra, hra, sa, hsa, hv⟩ := hv
  obtain rfl := scalarCoef_inv hv
  simp only [unitObject, h1, Option.bind_eq_bind, Option.bind_some, Option.bind_eq_some_iff, hs,
    Option.isSome_none, Bool.false_eq_true, if_false] at h
  obtain ⟨rv, hrv, s, hs', ab, hab, sq, hsq, i, hi, r, hr, ho⟩ := h
  have la : hasStoredC (lazyObject M.floats a).expr = false := leaf_stored w1
  -- the squared norm
  obtain ⟨e1, h4, h5⟩ := call1_lazy_inv la hrv
  rw [show (lazyObject M.floats a).expr = a from rfl, hra] at h4
  cases h4
  have pra := (good_reverse (k := k) (by omega : P + Q + R ≤ 63)).within _ (poly_const ·) poly_closed a ra
    (within_mono (fun _ => leaf_poly) w1) hra
  have dra := (good_reverse (k := k) (by omega : P + Q + R ≤ 63)).denotes _ a ra A d1 hra
  have psa := (good_graded (k := k) hN .sp).within _ (poly_const ·) poly_closed a ra _
    (within_mono (fun _ => leaf_poly) w1) pra hsa
  have dsa := (graded_denotes (k := k) hN .sp) _ a ra _ _ _ d1 dra hsa
  have esp : signedProd P Q R .sp A (reverse A) = Finsupp.single 0 (rnormSqr (signedProd P Q R) A) := by
    rw [rnormSqr]
    unfold signedProd
    rw [Iso.sp_scalar]
    simp [scalar]
  rw [esp] at dsa
  generalize rnormSqr (signedProd P Q R) A = x at *
  have dv := single_denotes_inv dsa
  obtain rfl := V.const_eq ⟨.const c, dv⟩
  obtain ⟨e2, h6, h7⟩ := call2_lazy_inv la (by rw [h5]; exact within_stored poly_stored pra) hs'
  rw [h5, show (lazyObject M.floats a).expr = a from rfl, hsa] at h6
  cases h6
  -- its absolute value
  obtain ⟨e3, h8, h9⟩ := call1_lazy_inv (by rw [h7]; exact within_stored poly_stored psa) hab
  simp only [h7, scalarCoef_single, Option.bind_eq_bind, Option.bind_some, Option.bind_eq_some_iff,
    Option.some.injEq] at h8
  obtain ⟨u, hu, rfl⟩ := h8
  have du := abs_den (fun _ => ⟨c, rfl⟩) (.const c) (by simp [TraitSafe]) dv hu
  obtain ⟨u, rfl⟩ := abs_const_shape hu
  have hpos := abs_pos.2 h0
  have hu0 : 0 < u := by
    have e := V.const_eq ⟨.const u, du⟩
    rw [e] at hpos
    exact_mod_cast hpos
  -- its square root
  simp only [sqrtScalar, Option.bind_eq_bind, Option.bind_eq_some_iff] at hsq
  obtain ⟨hf, hhf, hsq⟩ := hsq
  obtain rfl := half_eq hhf
  obtain ⟨y, hy, eq⟩ := powScalar_lazy h9 (Y := lazyObject ab.floats [⟨half, .const 0⟩]) rfl rfl rfl hsq
  have vy : V (contextEnv outer (baseId [M]) (storedInputs [M])) y √|(c : ℝ)| := by
    rw [Real.sqrt_eq_rpow]
    exact (simp_sound _ k).pow _ _ _ _ _ ⟨.const u, du⟩ v_half (.inl hpos) (.inr (.direct _ ⟨by simp, by simp⟩)) hy
  -- the inverse of that
  have hsq0 := (Real.sqrt_pos.2 hpos).ne'
  obtain ⟨z, ei, wz, vz⟩ := inverse_weight hN hu0 hy vy hsq0 eq hi
  have ez := weight_exponent (L := baseId [M] + 1) (U := baseId [M] + (storedInputs [M]).length) wz
  -- the product
  obtain ⟨e4, h10, h11⟩ := call2_lazy_inv la (by rw [ei]; exact scalar_stored (evaluable_context ez.ev).2.1) hr
  rw [ei, show (lazyObject M.floats a).expr = a from rfl] at h10
  have hz0 : z ≠ .const 0 := by
    rintro rfl
    exact inv_ne_zero hsq0 (by simpa using vz.const_eq)
  have hsc := scale_right (Q := Staging (baseId [M] + 1) (baseId [M] + (storedInputs [M]).length))
    (orth_unit hN (mkSignedFactor_const P Q R) (signed_factor hN) (.inl rfl)).1 (exponent_const 0).staging hz0 a k e4
    w1.1 (inSpaceC_of d1) (fun c hc j z hz => leaf_weight (w1.2 c hc) wz hz) h10
  have hden := (graded_denotes (k := k) hN .gp) _ a _ _ _ _ d1 (single_denotes vz.1 vz.2) h10
  have eA : signedProd P Q R .gp A (Finsupp.single 0 (√|(c : ℝ)|)⁻¹) = (√|(c : ℝ)|)⁻¹ • A := by
    unfold signedProd
    rw [signedFactor_cast P Q R (by omega)]
    exact gp_scalar_right _ _ A
  rw [eA] at hden
  rw [h11] at ho
  exact context_staging (Ms := [M]) hsc.1 hden ho

end GATL
