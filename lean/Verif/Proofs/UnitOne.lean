import Verif.Proofs.ConstNorm

/-!
`unit` of a multivector whose squared norm is known to be `1` or `-1` at compile time.
-/

namespace GATL.Total

open Expr Spec

variable {τ : Types} {ρ : Env} {P Q R k : Nat} {M : Object} {A : MV ℝ} {a ra : CSum}

theorem inverse_one_ev (hN : P + Q + R ≤ 62) :
    Ev (fun k => inverseExpr P Q R k [⟨.const 1, .const 0⟩]) [⟨.const 1, .const 0⟩] := by
  have e1 : Ev (fun k => reverseExpr k [⟨.const 1, .const 0⟩]) [⟨.const 1, .const 0⟩] :=
    (scalar_reverse_ev ⟨.const (-1), mul_one_ev _⟩).bind (lazyOnly_ev (scalar_stored rfl))
  have h1 : Ev (fun k => simp k .mul (.const 1) (.const 1)) (.const 1) := mul_one_ev _
  have e2 : Ev (fun k => normExpr P Q R k [⟨.const 1, .const 0⟩]) [⟨.const 1, .const 0⟩] :=
    e1.bind ((scalar_mul_ev (scalarMap hN le_rfl (by omega) (signedFactor_small P Q R) (signed_scalar (.inr rfl) hN))
      (by simp) (by simp) h1).bind (lazyOnly_ev (scalar_stored rfl)))
  have h2 : Ev (fun k => simp k .pow (.const 1) (.const (-1))) (.const 1) := ev_simp (k := 5) (by decide +kernel)
  have e3 : Ev (fun k => powExpr k [⟨.const 1, .const 0⟩] (constSum (-1))) [⟨.const 1, .const 0⟩] :=
    h2.bind (lazyOnly_ev (scalar_stored rfl))
  exact e2.bind (e3.bind (e1.bind ((scalar_mul_ev (scalarMap (N := 0) (by omega) (by omega) le_rfl
    (f := mkRealFactor) (fun b => ⟨1, rfl, by simp⟩) real_scalar) (by simp) (by simp) h1).bind
    (lazyOnly_ev (scalar_stored rfl)))))

/-- `unit` compiles and changes nothing. -/
theorem unit_one_total (hN : P + Q + R ≤ 62) {c : Int} (h : NormType P Q R ρ M A a ra (.const c)) (hc : c = 1 ∨ c = -1)
    (hs : scalarCoef M.expr = none) :
    ∃ k0, ∀ k, k0 ≤ k → ∃ o, unitObject P Q R k τ ρ M = some o ∧ Represents ρ (P + Q + R) o A := by
  have hab : Ev (fun k => mkAbsolute (simp k) (.const c)) (.const 1) := by
    have h1 : Ev (fun k => simp k .mul (.const (-1)) (.const c)) (.const (-c)) := by
      rcases hc with rfl | rfl <;> exact ev_simp (k := 5) (by decide +kernel)
    obtain ⟨k0, hk⟩ := h1
    refine ⟨k0, fun k hj => ?_⟩
    simp only [mkAbsolute, hk k hj, Option.bind_eq_bind, Option.bind_some]
    rcases hc with rfl | rfl <;> rfl
  have e1 : Ev (fun k => absExpr k [⟨.const c, .const 0⟩]) [⟨.const 1, .const 0⟩] := hab.bind (lazyOnly_ev (scalar_stored rfl))
  have e2 : Ev (fun k => sqrtExpr k [⟨.const 1, .const 0⟩]) [⟨.const 1, .const 0⟩] := by
    have e1 : Ev (fun k => simp k .pow (.const 2) (.const (-1))) half := ev_simp (k := 5) (by decide +kernel)
    have e2 : Ev (fun k => simp k .pow (.const 1) half) (.const 1) := ev_simp (k := 5) (by decide +kernel)
    exact e1.bind ((lazyOnly_ev rfl).bind (e2.bind (lazyOnly_ev (scalar_stored rfl))))
  have e3 := inverse_one_ev (P := P) (Q := Q) (R := R) hN
  have hU := (orth_unit hN (mkSignedFactor_const P Q R) (signed_factor hN) (.inl rfl)).1
  obtain ⟨e, e4⟩ := scale_right_total (signed_sign hN .gp) hU (w := .const 1) (by simp) a
    h.leaf.1 (in_of h.leaf.1 h.denotes) (inSpaceC_of h.denotes) fun c hc => ⟨_, mul_one_ev _⟩
  obtain ⟨k1, hk1⟩ : Ev (fun k => unitExpr P Q R k a) e := h.expr.bind (e1.bind (e2.bind (e3.bind e4)))
  have v1 : V (contextEnv ρ (baseId [M]) (storedInputs [M])) (.const 1) (1 : ℝ) := by simpa using V.const (1 : Int)
  have de := e4.fact (p := fun e => SumDenotes (contextEnv ρ (baseId [M]) (storedInputs [M])) (P + Q + R) e A)
    fun k y hy => by
      have key := (graded_denotes (k := k) hN .gp) _ a _ _ _ _ h.denotes (single_denotes v1.1 v1.2) hy
      unfold signedProd at key
      rw [signedFactor_cast P Q R (by omega)] at key
      rwa [show orthProd _ .gp A (Finsupp.single 0 (1 : ℝ)) = _ from gp_scalar_right _ _ A, one_smul] at key
  have qe := e4.fact (p := fun e => Canonical e ∧ ∀ c ∈ e, Leaf (baseId [M] + 1) (baseId [M] + (storedInputs [M]).length) c.coef)
    fun k y hy => by
      have hq := scale_right (Q := Leaf (baseId [M] + 1) (baseId [M] + (storedInputs [M]).length)) hU (.inl ⟨0, rfl⟩) (by simp) a k y h.leaf.1 (inSpaceC_of h.denotes)
        (fun c hc j z hz => by
          rw [simp_eq (mul_one_ev c.coef) hz]
          exact h.leaf.2 c hc) hy
      exact ⟨hq.1.1, hq.1.2⟩
  refine ⟨max k1 1, fun k hk => ?_⟩
  rw [unit_pure hs h.args (leaf_stored h.leaf) (hk1 k (by omega))]
  have := context_ge (R := True) (τ := τ) (k := k) (Ms := [M]) (N := P + Q + R)
    ⟨qe.1, fun c hc => (leaf_ge (qe.2 c hc)).1⟩ de
  obtain ⟨o, ho⟩ := this.2 trivial (by omega)
  exact ⟨o, ho, this.1 o ho⟩

end GATL.Total
