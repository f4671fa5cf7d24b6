import Verif.Proofs.NormSquare

/-!
`unit` of a multivector whose squared norm is the square of one stored coefficient, which is positive.
-/

namespace GATL.Total

open Expr Spec

variable {τ : Types} {ρ : Env} {P Q R k n t i : Nat} {L U : Nat} {M : Object} {A : MV ℝ} {a ra : CSum}

/-- `inv` of a variable. -/
theorem inverse_value_ev (hN : P + Q + R ≤ 62) :
    Ev (fun k => inverseExpr P Q R k [⟨.value t i, .const 0⟩]) [⟨inverseValue t i, .const 0⟩] := by
  have hneg : ∃ e, Ev (fun k => simp k .mul (.const (-1)) (.value t i)) e := by
    obtain ⟨z, hz⟩ := mul_leaf_left_total (n := 0) (L := 0) (U := 0) (x := .const (-1)) (w := .value t i) (.inl ⟨_, rfl⟩) rfl
      rfl rfl (by simp [asPower]) (by simp)
    exact ⟨z, ev_simp hz⟩
  have e1 : Ev (fun k => reverseExpr k [⟨.value t i, .const 0⟩]) [⟨.value t i, .const 0⟩] :=
    (scalar_reverse_ev hneg).bind (lazyOnly_ev (scalar_stored rfl))
  have hsq : Ev (fun k => simp k .mul (.value t i) (.value t i)) (powerOf (.value t i) (.const 2)) := by
    refine ev_simp (k := 2) ?_
    rw [mul_self (by simp) rfl rfl]
    exact pow_opaque (by simp) rfl rfl (by decide) (by decide)
  have e2 : Ev (fun k => normExpr P Q R k [⟨.value t i, .const 0⟩]) [⟨powerOf (.value t i) (.const 2), .const 0⟩] :=
    e1.bind ((scalar_mul_ev (scalarMap hN le_rfl (by omega) (signedFactor_small P Q R) (signed_scalar (.inr rfl) hN))
      (by simp) (by simp) hsq).bind (lazyOnly_ev (scalar_stored rfl)))
  have e3 : Ev (fun k => powExpr k [⟨powerOf (.value t i) (.const 2), .const 0⟩] (constSum (-1))) [⟨inverseSquare t i, .const 0⟩] :=
    inverse_square.bind (lazyOnly_ev (scalar_stored rfl))
  have hri : Ev (fun k => simp k .mul (.value t i) (inverseSquare t i)) (inverseValue t i) := ev_simp (value_square (n := 0))
  exact e2.bind (e3.bind (e1.bind ((scalar_mul_ev (scalarMap (N := 0) (by omega) (by omega) le_rfl
    (f := mkRealFactor) (fun b => ⟨1, rfl, by simp⟩) real_scalar) (by simp) (by simp) hri).bind
    (lazyOnly_ev (scalar_stored rfl)))))

/-- The coefficients of the unit multivector. -/
def UnitCoef (L U t i : Nat) (z : Expr) : Prop := z = .const 1 ∨ Quotient L U (inverseValue t i) z

theorem value_over_value : simp (n + 3) .mul (.value t i) (inverseValue t i) = some (.const 1) := by
  change applyRules (mulRules (simp (n + 2))) (.value t i) (inverseValue t i) = _
  unfold mulRules
  rw [applyRules_skip (by simp [mulZero]), applyRules_skip (by simp [mulOne]), applyRules_skip (by simp [mulDistribute, asAdd]),
    applyRules_skip (by simp [mulHelper, asMul, mulCollect1])]
  have h1 : simp (n + 2) .add (.const 1) (.const (-1)) = some (.const 0) := rfl
  have h2 : simp (n + 2) .pow (.value t i) (.const 0) = some (.const 1) := rfl
  exact applyRules_fire (o := some _) (by simp [mulHelper, asMul, mulCollect2, asPower, h1, h2, fire])

theorem leaf_inverse {y : Expr} (hy : Leaf L U y) : ∃ z, simp (n + 3) .mul y (inverseValue t i) = some z ∧ UnitCoef L U t i z := by
  by_cases h : y = .value t i
  · subst h
    exact ⟨_, value_over_value, .inl rfl⟩
  · obtain ⟨z, hz, hq⟩ := quotient_leaf (n := n + 2) (w := inverseValue t i) rfl rfl rfl hy
      (fun b q hb e => by
        simp only [asPower, Option.some.injEq, Prod.mk.injEq] at hb
        exact h (e.symm.trans hb.1.symm))
      (fun e => by rcases hy with ⟨v, h⟩ | ⟨t, i, -, -, h⟩ <;> rw [h] at e <;> cases e)
    exact ⟨z, hz, .inr hq⟩

theorem unitCoef_compile (ht : L ≤ t ∧ t ≤ U) (hf : τ t = true) :
    (∀ z, UnitCoef L U t i z → NoIntQuotient τ z) ∧
    ∃ k0, ∀ k, k0 ≤ k → ∀ z, Evaluable L U .num z → UnitCoef L U t i z → ∃ c, compile k L U z = some c := by
  obtain ⟨h1, k0, h2⟩ := quotients_compile (i := i) ht hf
  refine ⟨fun z h => ?_, k0, fun k hk z hz h => ?_⟩
  · rcases h with rfl | h
    · simp [NoIntQuotient]
    · exact h1 z (.inr h)
  · rcases h with rfl | h
    · exact ⟨_, compile_const 1⟩
    · exact h2 k hk z hz (.inr h)

/-- `unit` compiles and divides by the coefficient. -/
theorem unit_square_total (hN : P + Q + R ≤ 62) (h : NormType P Q R ρ M A a ra (powerOf (.value t i) (.const 2)))
    (hs : scalarCoef M.expr = none) (hf : M.floats = true) (h0 : rnormSqr (signedProd P Q R) A ≠ 0) :
    ∃ k0, ∀ k, k0 ≤ k → ∃ o, unitObject P Q R k τ ρ M = some o ∧
      Stands ρ (P + Q + R) o (((contextEnv ρ (baseId [M]) (storedInputs [M])).val t i)⁻¹ • A) := by
  obtain ⟨hl, hft⟩ := norm_floating (τ := τ) hf h.poly
  have hlt : baseId [M] + 1 ≤ t ∧ t ≤ baseId [M] + (storedInputs [M]).length := by
    rcases hl with ⟨v, hv⟩ | ⟨t', i', h1, h2, hv⟩
    · cases hv
    · cases hv; exact ⟨h1, h2⟩
  obtain ⟨hQI, hQc⟩ := unitCoef_compile (i := i) hlt hft
  have hx0 : (contextEnv ρ (baseId [M]) (storedInputs [M])).val t i ≠ 0 := by
    intro e
    exact h0 (by rw [square_value h.value, e]; simp)
  have vw : V (contextEnv ρ (baseId [M]) (storedInputs [M])) (inverseValue t i)
      ((contextEnv ρ (baseId [M]) (storedInputs [M])).val t i)⁻¹ := by
    simpa using power_value hx0 (-1)
  generalize (contextEnv ρ (baseId [M]) (storedInputs [M])).val t i = x at vw hx0 ⊢
  have fw : Frac (baseId [M] + 1) (baseId [M] + (storedInputs [M]).length) (inverseValue t i) :=
    over_fn.2 ⟨by simp [Alg], by simp [poly_frac (leaf_poly hl), frac_const], fun _ l r e => by cases e; exact ⟨-1, rfl⟩⟩
  have hab : Ev (fun k => mkAbsolute (simp k) (powerOf (.value t i) (.const 2))) (powerOf (.value t i) (.const 2)) := by
    obtain ⟨e, k0, hk⟩ := h.neg
    refine ⟨k0, fun k hj => ?_⟩
    simp only [mkAbsolute, hk k hj, Option.bind_eq_bind, Option.bind_some]
    rfl
  have e1 : Ev (fun k => absExpr k [⟨powerOf (.value t i) (.const 2), .const 0⟩]) [⟨powerOf (.value t i) (.const 2), .const 0⟩] :=
    hab.bind (lazyOnly_ev (scalar_stored rfl))
  have e2 : Ev (fun k => sqrtExpr k [⟨powerOf (.value t i) (.const 2), .const 0⟩]) [⟨.value t i, .const 0⟩] := by
    have e1 : Ev (fun k => simp k .pow (.const 2) (.const (-1))) half := ev_simp (k := 5) (by decide +kernel)
    have e2 : Ev (fun k => simp k .pow (powerOf (.value t i) (.const 2)) half) (.value t i) := ev_simp root_of_square
    exact e1.bind ((lazyOnly_ev rfl).bind (e2.bind (lazyOnly_ev (scalar_stored rfl))))
  have e3 := inverse_value_ev (P := P) (Q := Q) (R := R) (t := t) (i := i) hN
  have hU := (orth_unit hN (mkSignedFactor_const P Q R) (signed_factor hN) (.inl rfl)).1
  obtain ⟨e, e4⟩ := scale_right_total (signed_sign hN .gp) hU (w := inverseValue t i) (by simp) a
    h.leaf.1 (in_of h.leaf.1 h.denotes) (inSpaceC_of h.denotes) fun c hc => by
      obtain ⟨z, hz, -⟩ := leaf_inverse (n := 0) (h.leaf.2 c hc)
      exact ⟨z, ev_simp hz⟩
  obtain ⟨k1, hk1⟩ : Ev (fun k => unitExpr P Q R k a) e := h.expr.bind (e1.bind (e2.bind (e3.bind e4)))
  have ww : Within (Frac (baseId [M] + 1) (baseId [M] + (storedInputs [M]).length)) [⟨inverseValue t i, .const 0⟩] :=
    ⟨canonical_single ⟨0, rfl, by simp [vecs]⟩, fun c hc => by rw [List.mem_singleton.1 hc]; exact fw⟩
  have we := e4.fact (p := fun e => Within (Frac (baseId [M] + 1) (baseId [M] + (storedInputs [M]).length)) e) fun k y hy =>
    (good_graded (k := k) hN .gp).within _ frac_const frac_closed a _ _
      (within_mono (fun _ h => poly_frac (leaf_poly h)) h.leaf) ww hy
  have de := e4.fact (p := fun e => SumDenotes (contextEnv ρ (baseId [M]) (storedInputs [M])) (P + Q + R) e (x⁻¹ • A))
    fun k y hy => by
      have key := (graded_denotes (k := k) hN .gp) _ a _ _ _ _ h.denotes (single_denotes vw.1 vw.2) hy
      unfold signedProd at key
      rw [signedFactor_cast P Q R (by omega)] at key
      rwa [show orthProd _ .gp A (Finsupp.single 0 x⁻¹) = _ from gp_scalar_right _ _ A] at key
  have qe := e4.fact (p := fun e => ∀ c ∈ e, UnitCoef (baseId [M] + 1) (baseId [M] + (storedInputs [M]).length) t i c.coef)
    fun k y hy => (scale_right hU (.inr (.inl rfl)) (by simp) a k y h.leaf.1 (inSpaceC_of h.denotes)
      (fun c hc j z hz => by
        obtain ⟨z', hz', hq⟩ := leaf_inverse (n := 0) (t := t) (i := i) (h.leaf.2 c hc)
        rwa [simp_eq (ev_simp hz') hz]) hy).1.2
  obtain ⟨k2, hk2⟩ := hQc
  refine ⟨max (max k1 k2) 1, fun k hk => ?_⟩
  rw [unit_pure hs h.args (leaf_stored h.leaf) (hk1 k (by omega))]
  have hI : ∀ c ∈ e, NoIntQuotient (contextTypes τ (baseId [M]) (storedInputs [M])) c.coef := fun c hc' => hQI _ (qe c hc')
  obtain ⟨o, ho⟩ := context_frac_total (τ := τ) (k := k) (by omega) we de hI fun c hc' =>
    hk2 k (by omega) _ (frac_evaluable (de.1 c hc').1 (we.2 c hc')) (qe c hc')
  refine ⟨o, ho, stands_iff.2 (contextEval_frac we de ?_ hI (contextObject_eval ho))⟩
  intro hno
  rw [hno] at hlt
  simp at hlt
  omega

end GATL.Total
