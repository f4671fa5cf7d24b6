import Verif.Proofs.InverseMonomial
import Verif.Proofs.Algebras

/-!
# Division by a number compiles
-/

namespace GATL.Total

open Expr Spec

variable {N n k L U : Nat} {ρ : Env} {τ : Types} {t i : Nat}

/-! ## The inverse of a number -/

theorem real_eval : orthMapping 63 mkRealFactor .gp 40 (.const 0) (.const 0) = some [⟨.const 1, .const 0⟩] ∧
    orthMapping 63 mkRealFactor .sp 40 (.const 0) (.const 0) = some [⟨.const 1, .const 0⟩] := by
  decide +kernel

theorem inverse_number : Ev (fun k => inverseExprIn realSpace k [⟨.value t i, .const 0⟩]) [⟨inverseValue t i, .const 0⟩] := by
  have hg : Ev (fun k => orthMapping 63 mkRealFactor .gp k (.const 0) (.const 0)) [⟨.const 1, .const 0⟩] :=
    ⟨40, fun j hj => orth_mono 63 mkRealFactor .gp hj _ _ _ real_eval.1⟩
  have hs : Ev (fun k => orthMapping 63 mkRealFactor .sp k (.const 0) (.const 0)) [⟨.const 1, .const 0⟩] :=
    ⟨40, fun j hj => orth_mono 63 mkRealFactor .sp hj _ _ _ real_eval.2⟩
  have e1 : Ev (fun k => reverseExpr k [⟨.value t i, .const 0⟩]) [⟨.value t i, .const 0⟩] :=
    (scalar_reverse_ev ⟨_, ev_simp (k := 1) rfl⟩).bind (lazyOnly_ev (scalar_stored rfl))
  have hsq : Ev (fun k => simp k .mul (.value t i) (.value t i)) (powerOf (.value t i) (.const 2)) := by
    refine ev_simp (k := 2) ?_
    rw [mul_self (by simp) rfl rfl]
    exact pow_opaque (by simp) rfl rfl (by decide) (by decide)
  have e2 : Ev (fun k => normExprIn realSpace k [⟨.value t i, .const 0⟩]) [⟨powerOf (.value t i) (.const 2), .const 0⟩] :=
    e1.bind ((scalar_mul_ev hs (by simp) (by simp) hsq).bind (lazyOnly_ev (scalar_stored rfl)))
  have e3 : Ev (fun k => powExpr k [⟨powerOf (.value t i) (.const 2), .const 0⟩] (constSum (-1))) [⟨inverseSquare t i, .const 0⟩] :=
    inverse_square.bind (lazyOnly_ev (scalar_stored rfl))
  exact e2.bind (e3.bind (e1.bind ((scalar_mul_ev hg (by simp) (by simp) (ev_simp (value_square (n := 0)))).bind
    (lazyOnly_ev (scalar_stored rfl)))))

/-! ## Quotients -/

/-- The coefficients of the quotient. -/
def Divided (L U t i : Nat) (z : Expr) : Prop := z = .const 1 ∨ Quotient L U (inverseValue t i) z

theorem value_inverse : simp (n + 3) .mul (.value t i) (inverseValue t i) = some (.const 1) := by
  change applyRules (mulRules (simp (n + 2))) (.value t i) (inverseValue t i) = _
  unfold mulRules
  rw [applyRules_skip (by simp [mulZero]), applyRules_skip (by simp [mulOne]), applyRules_skip (by simp [mulDistribute, asAdd]),
    applyRules_skip (by simp [mulHelper, asMul, mulCollect1])]
  have h1 : simp (n + 2) .add (.const 1) (.const (-1)) = some (.const 0) := rfl
  have h2 : simp (n + 2) .pow (.value t i) (.const 0) = some (.const 1) := rfl
  exact applyRules_fire (o := some _) (by simp [mulHelper, asMul, mulCollect2, asPower, h1, h2, fire])

theorem leaf_divided {y : Expr} (hy : Leaf L U y) : ∃ z, Ev (fun j => simp j .mul y (inverseValue t i)) z ∧ Divided L U t i z := by
  by_cases h : y = .value t i
  · subst h
    exact ⟨_, ev_simp (value_inverse (n := 0)), .inl rfl⟩
  · obtain ⟨z, hz, hq⟩ := quotient_leaf (n := 2) (w := inverseValue t i) rfl rfl rfl hy (fun b q hb e => by
        simp only [asPower, Option.some.injEq, Prod.mk.injEq] at hb
        exact h (e.symm.trans hb.1.symm)) (by
        intro e
        rcases hy with ⟨v, h⟩ | ⟨t, i, -, -, h⟩ <;> rw [h] at e <;> cases e)
    exact ⟨z, ev_simp hz, .inr hq⟩

/-! ## The context -/

theorem arguments_number {base : Nat} {x : ℝ} : arguments base [scalarObject true x] = some [[⟨.value (base + 1) 0, .const 0⟩]] := by
  rfl

theorem divide_total (hN : N ≤ 62) {M : Object} {A : MV ℝ} (hM : Represents ρ N M A) {x : ℝ} (hx : x ≠ 0) :
    ∃ k0, ∀ k, k0 ≤ k → ∃ o, divideBy k τ ρ M (scalarObject true x) = some o ∧ Stands ρ N o (x⁻¹ • A) := by
  set S := scalarObject true x with hS
  have hSr : Represents ρ N S (Finsupp.single 0 x) := by
    refine ⟨⟨canonical_single ⟨0, rfl, by simp [vecs]⟩, by simp [hS, scalarObject]⟩, ?_⟩
    have h1 : WellTyped N (x, TBlade.const 0) := by simp [WellTyped, vecs]
    simpa [TBlade.bits, hS, scalarObject] using Reads.cons (.stored x) (.const 0) h1 (Reads.nil (ρ := ρ))
  obtain ⟨as, h1, h2, h3, -⟩ := arguments_ok (outer := ρ) (Ms := [M, S]) (As := [A, Finsupp.single 0 x]) (by omega)
    (.cons hM (.cons hSr .nil))
  obtain ⟨a, as', d1, h3', rfl⟩ := List.forall₂_cons_right_iff.1 h3
  obtain ⟨s, as', d2, h4', rfl⟩ := List.forall₂_cons_right_iff.1 h3'
  obtain rfl := List.forall₂_nil_right_iff.1 h4'
  -- the variable of the divisor
  obtain ⟨t, rfl, hty⟩ : ∃ t, s = [⟨.value t 0, .const 0⟩] ∧ contextTypes τ (baseId [M, S]) (storedInputs [M, S]) t = true := by
    unfold arguments at h1
    split at h1
    · next hm =>
      rw [hS, arguments_number] at h1
      simp only [Option.bind_eq_bind, Option.bind_eq_some_iff, Option.some.injEq, List.cons.injEq] at h1
      obtain ⟨b, -, c, rfl, -, h1⟩ := h1
      refine ⟨_, ((List.cons.inj h1).1).symm, ?_⟩
      have e : storedInputs [M, S] = [M, S] := by
        simp [storedInputs, hm, show hasStoredC S.expr = true from rfl]
      rw [e]
      simp [contextTypes, hS, scalarObject]
    · next hm =>
      rw [hS, arguments_number] at h1
      simp only [Option.bind_eq_bind, Option.bind_some, Option.some.injEq, List.cons.injEq] at h1
      refine ⟨_, h1.2.1.symm, ?_⟩
      have e : storedInputs [M, S] = [S] := by
        simp [storedInputs, hm, show hasStoredC S.expr = true from rfl]
      rw [e]
      simp [contextTypes, hS, scalarObject]
  have w1 := h2 a (by simp)
  have hl : Leaf (baseId [M, S] + 1) (baseId [M, S] + (storedInputs [M, S]).length) (.value t 0) :=
    (h2 [⟨.value t 0, .const 0⟩] (by simp)).2 ⟨.value t 0, .const 0⟩ (List.mem_singleton.2 rfl)
  have hlt : baseId [M, S] + 1 ≤ t ∧ t ≤ baseId [M, S] + (storedInputs [M, S]).length := by
    rcases hl with ⟨v, hv⟩ | ⟨t', i', h1, h2, hv⟩
    · cases hv
    · cases hv; exact ⟨h1, h2⟩
  have vx : (contextEnv ρ (baseId [M, S]) (storedInputs [M, S])).val t 0 = x := by
    have := single_denotes_inv d2
    simpa [Denotes, den] using this
  have hU := (orth_unit hN (factor := mkRealFactor) (fun b => ⟨1, rfl⟩) (q := fun _ => 1) (fun ρ b w h => by
    have : diagFactor (fun _ => (1 : ℝ)) w = 1 := by simp [diagFactor]
    rw [this]
    exact Props.realFactor_ok ρ b w h) (.inr rfl : (63 : Nat) = N ∨ (63 : Nat) = 63)).1
  obtain ⟨e, e3⟩ := scale_right_total (N := N) (orth_sign hN (by omega) le_rfl (f := mkRealFactor)
    (fun b => ⟨1, rfl, by simp⟩) .gp) hU (w := inverseValue t 0) (by simp) a w1.1 (in_of w1.1 d1) (inSpaceC_of d1) fun c hc => by
      obtain ⟨z, hz, -⟩ := leaf_divided (t := t) (i := 0) (w1.2 c hc)
      exact ⟨z, hz⟩
  have vw : V (contextEnv ρ (baseId [M, S]) (storedInputs [M, S])) (inverseValue t 0) x⁻¹ := by
    have := power_value (σ := contextEnv ρ (baseId [M, S]) (storedInputs [M, S])) (t := t) (i := 0) (by rw [vx]; exact hx) (-1)
    rwa [vx, zpow_neg_one] at this
  have dw : SumDenotes (contextEnv ρ (baseId [M, S]) (storedInputs [M, S])) N [⟨inverseValue t 0, .const 0⟩]
    (Finsupp.single 0 x⁻¹) := single_denotes vw.1 vw.2
  have fw : Frac (baseId [M, S] + 1) (baseId [M, S] + (storedInputs [M, S]).length) (inverseValue t 0) :=
    over_fn.2 ⟨by simp [Alg], by simp [poly_frac (leaf_poly hl), frac_const], fun _ l r e => by cases e; exact ⟨-1, rfl⟩⟩
  have ww : Within (Frac (baseId [M, S] + 1) (baseId [M, S] + (storedInputs [M, S]).length)) [⟨inverseValue t 0, .const 0⟩] :=
    ⟨canonical_single ⟨0, rfl, by simp [vecs]⟩, fun c hc => by rw [List.mem_singleton.1 hc]; exact fw⟩
  have we := e3.fact (p := fun e => Within (Frac (baseId [M, S] + 1) (baseId [M, S] + (storedInputs [M, S]).length)) e) fun k y hy =>
    within_mul frac_const frac_closed (orthMapping_const le_rfl (f := mkRealFactor) (fun b => ⟨1, rfl⟩) .gp) k _ _ _
      (within_mono (fun _ h => poly_frac (leaf_poly h)) w1) ww hy
  have de := e3.fact (p := fun e => SumDenotes (contextEnv ρ (baseId [M, S]) (storedInputs [M, S])) N e (x⁻¹ • A)) fun k y hy => by
    have key := Props.C23_scalar_operand _ N 0 0 (by omega) .gp k _ _ y _ _ (.inr ⟨_, rfl⟩) d1 dw hy
    unfold signedProd at key
    rw [signedFactor_cast N 0 0 (by omega)] at key
    rwa [show orthProd _ .gp A (Finsupp.single 0 x⁻¹) = _ from gp_scalar_right _ _ A] at key
  have qe := e3.fact (p := fun e => ∀ c ∈ e, Divided (baseId [M, S] + 1) (baseId [M, S] + (storedInputs [M, S]).length) t 0 c.coef)
    fun k y hy => (scale_right hU (.inr (.inl rfl)) (by simp) a k y w1.1 (inSpaceC_of d1)
    (fun c hc j z hz => by
      obtain ⟨z', hz', hq⟩ := leaf_divided (t := t) (i := 0) (w1.2 c hc)
      rwa [simp_eq hz' hz]) hy).1.2
  have ee : Ev (fun k => Rational.divideProgram.typeOfIn realSpace k [a, [⟨.value t 0, .const 0⟩]]) e := by
    have i0 : Ev (fun _ => lazyOnly a) a := lazyOnly_ev (leaf_stored w1)
    have i1 : Ev (fun _ => lazyOnly [⟨.value t 0, .const 0⟩]) [⟨.value t 0, .const 0⟩] := lazyOnly_ev (scalar_stored rfl)
    have i2 : Ev (fun _ => lazyOnly [⟨inverseValue t 0, .const 0⟩]) [⟨inverseValue t 0, .const 0⟩] := lazyOnly_ev (scalar_stored rfl)
    exact i1.bind (inverse_number.bind (i0.bind (i2.bind (e3.bind (lazyOnly_ev (within_stored frac_stored we))))))
  obtain ⟨k1, hk1⟩ := ee
  obtain ⟨q1, k2, hk2⟩ := quotients_compile (τ := contextTypes τ (baseId [M, S]) (storedInputs [M, S])) (i := 0) hlt hty
  have hI : ∀ c ∈ e, NoIntQuotient (contextTypes τ (baseId [M, S]) (storedInputs [M, S])) c.coef := fun c hc => by
    rcases qe c hc with h | h
    · rw [h]; simp [NoIntQuotient]
    · exact q1 _ (.inr h)
  refine ⟨max (max k1 k2) 1, fun k hk => ?_⟩
  obtain ⟨o, ho⟩ := context_frac_total (τ := τ) (k := k) (by omega) we de hI fun c hc' => by
    rcases qe c hc' with h | h
    · rw [h]; exact ⟨_, compile_const 1⟩
    · exact hk2 k (by omega) _ (frac_evaluable (de.1 c hc').1 (we.2 c hc')) (.inr h)
  refine ⟨o, ?_, stands_iff.2 (contextEval_frac we de ?_ hI (contextObject_eval ho))⟩
  · unfold divideBy Rational.runLazyIn
    rw [lazyTypeIn_pure h1 (hk1 k (by omega))]
    exact ho
  · intro hno
    exfalso
    rw [hno] at hlt
    simp at hlt
    omega

end GATL.Total
