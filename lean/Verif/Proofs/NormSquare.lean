import Verif.Proofs.InverseMonomial
import Verif.Proofs.ExpTotal

/-!
The norm of a multivector whose squared norm is the square of one stored coefficient.
-/

namespace GATL.Total

open Expr Spec

variable {τ : Types} {ρ : Env} {P Q R k t i : Nat} {M : Object} {A : MV ℝ} {a ra : CSum}

theorem two_half : simp 10 .mul (.const 2) half = some (.const 1) := by decide +kernel

/-- The root of the square of a variable is simplified to the variable. -/
theorem root_of_square : simp 12 .pow (powerOf (.value t i) (.const 2)) half = some (.value t i) := by
  rw [pow_power (by decide) (by decide), simp_mono (by norm_num) _ _ _ _ two_half, Option.bind_some]
  exact pow_one (n := 10) (l := .value t i) (by simp)

/-- `rnorm` compiles, and is the coefficient. -/
theorem rnorm_square_total (h : NormType P Q R ρ M A a ra (powerOf (.value t i) (.const 2))) :
    ∃ k0, ∀ k, k0 ≤ k → ∃ o, normObject P Q R k τ ρ M = some o ∧
      Represents ρ (P + Q + R) o (Finsupp.single 0 ((contextEnv ρ (baseId [M]) (storedInputs [M])).val t i)) := by
  have hst := poly_stored _ h.poly
  have hl : Leaf (baseId [M] + 1) (baseId [M] + (storedInputs [M]).length) (.value t i) := by
    have := (over_fn.1 h.poly).2.1 (.value t i) (by simp)
    rwa [Over] at this
    all_goals simp
  have hlt : baseId [M] + 1 ≤ t ∧ t ≤ baseId [M] + (storedInputs [M]).length := by
    rcases hl with ⟨v, hv⟩ | ⟨t', i', h1, h2, hv⟩
    · cases hv
    · cases hv; exact ⟨h1, h2⟩
  have e1 : Ev (fun k => sqrtExpr k [⟨powerOf (.value t i) (.const 2), .const 0⟩]) [⟨.value t i, .const 0⟩] := by
    have e1 : Ev (fun k => simp k .pow (.const 2) (.const (-1))) half := ev_simp (k := 5) (by decide +kernel)
    have e2 : Ev (fun k => simp k .pow (powerOf (.value t i) (.const 2)) half) (.value t i) := ev_simp root_of_square
    exact e1.bind ((lazyOnly_ev rfl).bind (e2.bind (lazyOnly_ev (scalar_stored rfl))))
  obtain ⟨k1, hk1⟩ := h.expr
  obtain ⟨k2, hk2⟩ := e1
  refine ⟨max (max k1 k2) 10, fun k hk => ?_⟩
  rw [rnorm_pure h.args (leaf_stored h.leaf) (hk1 k (by omega)) (hk2 k (by omega))]
  have gw := ge_value (R := True) (n := k) (i := i) hlt.1 hlt.2
  have dw : V (contextEnv ρ (baseId [M]) (storedInputs [M])) (.value t i)
      ((contextEnv ρ (baseId [M]) (storedInputs [M])).val t i) := ⟨.value _ _, rfl⟩
  have := context_ge (R := True) (τ := τ) (k := k) (Ms := [M]) (N := P + Q + R)
    ⟨canonical_single ⟨0, rfl, by simp [vecs]⟩, by simpa using gw⟩ (single_denotes dw.1 dw.2)
  obtain ⟨o, ho⟩ := this.2 trivial (by omega)
  exact ⟨o, ho, this.1 o ho⟩

/-- The root of a constant that is not negative. -/
theorem root_of_const {c : Int} (h0 : 0 ≤ c) (h : c.natAbs ≤ 2 ^ 62) :
    ∃ α, simp 1 .pow (.const c) half = some α ∧ hasStored α = false ∧ ∀ σ, V σ α (√(c : ℝ)) := by
  suffices ∃ α, simp 1 .pow (.const c) half = some α by
    obtain ⟨α, hα⟩ := this
    refine ⟨α, hα, ?_, fun σ => ?_⟩
    · rcases root_const_shape hα with ⟨r, rfl⟩ | rfl <;> rfl
    · rw [Real.sqrt_eq_rpow]
      have hc : (0 : ℝ) ≤ c := by exact_mod_cast h0
      exact (simp_sound σ 1).pow _ _ _ _ _ (V.const c) v_half (powDefined_root hc) (.inr (.direct _ ⟨by simp, by simp⟩)) hα
  change ∃ α, applyRules (powRules (simp 0)) (.const c) half = some α
  unfold powRules
  by_cases h0 : c = 0
  · subst h0
    exact ⟨_, applyRules_fire (o := some (.const 0)) (by simp [powMisc1, half, asConst, fire])⟩
  by_cases h1 : c = 1
  · subst h1
    exact ⟨_, applyRules_fire (o := some (.const 1)) (by simp [powMisc1, fire])⟩
  rw [applyRules_skip (by simp [powMisc1, h0, h1]), applyRules_skip (by simp [powMisc2, half]),
    applyRules_fire (o := simplerIsqrt c) (by simp [powMisc3, asConst])]
  obtain ⟨a, rfl⟩ := Int.eq_ofNat_of_zero_le ‹0 ≤ c›
  rcases isqrt_total (a := a) (by omega) (by omega) with h | ⟨r, -, h⟩
  · exact ⟨_, h⟩
  · exact ⟨_, h⟩

theorem no_inputs (hp : Plain M.expr) (hs : ∀ c ∈ M.expr, c.coef ≠ .stored) : storedInputs [M] = [] := by
  have : hasStoredC M.expr = false := by
    rw [hasStoredC, List.any_eq_false]
    intro c hc
    obtain ⟨b, hb, -⟩ := hp.1.2.1 c hc
    rcases hp.2 c hc with h | ⟨v, h⟩
    · exact absurd h (hs c hc)
    · simp [h, hb, hasStored, Blade.hasStored]
  simp [storedInputs, this]

/-- The squared norm of a multivector without stored coefficients is a constant. -/
theorem normCoef_closed (hN : P + Q + R ≤ 62) (hM : Represents ρ (P + Q + R) M A) {v : Expr}
    (hv : normCoef P Q R k M = some v) (hp : Poly (baseId [M] + 1) (baseId [M] + (storedInputs [M]).length) v)
    (hs : ∀ c ∈ M.expr, c.coef ≠ .stored) : ∃ c : Int, v = .const c := by
  have hempty : (storedInputs [M]).length = 0 := by rw [no_inputs hM.1 hs]; rfl
  have hno : ∀ t i, ¬ Poly (baseId [M] + 1) (baseId [M] + (storedInputs [M]).length) (powerOf (.value t i) (.const 2)) := by
    intro t i hp
    rcases poly_leaf ((over_fn.1 hp).2.1 (.value t i) (by simp)) (by simp) with ⟨v, hv⟩ | ⟨t', i', h1, h2, hv⟩
    · cases hv
    · omega
  have hnc : ∀ x, Quad.NC x → ¬ Poly (baseId [M] + 1) (baseId [M] + (storedInputs [M]).length) x := by
    rintro x (⟨b, rfl, hb, t, i, rfl⟩ | ⟨c, a, rfl, ⟨b, rfl, hb, t, i, rfl⟩, hkc⟩) hp
    · exact hno t i hp
    · exact hno t i ((over_fn.1 hp).2.1 _ (by simp))
  rcases normCoef_lin hN hM hv with (⟨c, rfl⟩ | hx) | ⟨h, t, rfl, ht, -, hn⟩
  · exact ⟨c, rfl⟩
  · exact absurd hp (hnc _ hx)
  · obtain ⟨x, t', rfl⟩ := List.exists_cons_of_ne_nil ht
    exact absurd ((over_fn.1 hp).2.1 x (by simp)) (hnc x (hn x (by simp)))

theorem norm_const (hN : P + Q + R ≤ 62) (hM : Represents ρ (P + Q + R) M A) {v : Expr} (h : NormType P Q R ρ M A a ra v)
    (hs : ∀ c ∈ M.expr, c.coef ≠ .stored) : ∃ c : Int, v = .const c := by
  obtain ⟨j, hj⟩ := h.coef
  exact normCoef_closed hN hM (hj j le_rfl) h.poly hs

/-- `rnorm` compiles, and is the root of the constant. -/
theorem rnorm_const_total {c : Int} (hp : Plain M.expr) (h : NormType P Q R ρ M A a ra (.const c)) (hs : ∀ c ∈ M.expr, c.coef ≠ .stored)
    (h0 : 0 ≤ c) : ∃ k0, ∀ k, k0 ≤ k → ∃ o, normObject P Q R k τ ρ M = some o ∧
      Reads ρ (P + Q + R) o.expr o.values o.bitsets (Finsupp.single 0 (√(c : ℝ))) := by
  obtain ⟨α, hα, hst, hv⟩ := root_of_const h0 (h.small c rfl)
  have hempty : (storedInputs [M]).isEmpty = true := by rw [no_inputs hp hs]; rfl
  have e1 : Ev (fun k => sqrtExpr k [⟨.const c, .const 0⟩]) [⟨α, .const 0⟩] := by
    have e1 : Ev (fun k => simp k .pow (.const 2) (.const (-1))) half := ev_simp (k := 5) (by decide +kernel)
    exact e1.bind ((lazyOnly_ev rfl).bind ((ev_simp hα).bind (lazyOnly_ev (scalar_stored hst))))
  obtain ⟨k1, hk1⟩ := h.expr
  obtain ⟨k2, hk2⟩ := e1
  refine ⟨max k1 k2, fun k hk => ?_⟩
  rw [rnorm_pure h.args (leaf_stored h.leaf) (hk1 k (by omega)) (hk2 k (by omega))]
  have he : contextEval k τ ρ [M] [⟨α, .const 0⟩] = some ([⟨α, .const 0⟩], [], []) := by simp [contextEval, hempty]
  simp only [contextObject, he, Option.bind_eq_bind, Option.bind_some]
  refine ⟨_, rfl, ?_⟩
  have h1 : WellTyped (P + Q + R) (√(c : ℝ), TBlade.const 0) := by simp [WellTyped, vecs]
  simpa [TBlade.bits] using Reads.cons (.symbolic α _ hst (hv ρ).1 (hv ρ).2) (.const 0) h1 (Reads.nil (ρ := ρ))

end GATL.Total
