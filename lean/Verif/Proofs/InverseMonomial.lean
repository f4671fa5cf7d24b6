import Verif.Proofs.InverseTotal
import Verif.Proofs.NormForm

/-!
# Inverses whose squared norm is the square of one coefficient compile
-/

namespace GATL.Total

open Expr Spec

variable {N n k L U : Nat} {ρ : Env} {τ : Types} {P Q R : Nat} {t i : Nat}

/-! ## The reciprocal of a square -/

/-- `x ^ -2` -/
abbrev inverseSquare (t i : Nat) : Expr := powerOf (.value t i) (.const (-2))
/-- `x ^ -1` -/
abbrev inverseValue (t i : Nat) : Expr := powerOf (.value t i) (.const (-1))

theorem inverse_square : Ev (fun j => simp j .pow (powerOf (.value t i) (.const 2)) (.const (-1))) (inverseSquare t i) := by
  refine ev_simp (k := 3) ?_
  rw [pow_power (by decide) (by decide), show simp 2 .mul (.const 2) (.const (-1)) = some (.const (-2)) from rfl, Option.bind_some]
  exact pow_opaque (by simp) rfl rfl (by decide) (by decide)

theorem lt_square {c : Int} : lt (.const c) (inverseSquare t i) = true := by simp [lt, ltF, isLiteral]
theorem lt_inverse {c : Int} : lt (.const c) (inverseValue t i) = true := by simp [lt, ltF, isLiteral]

theorem inverse_negSquare : Ev (fun j => simp j .pow (.fn .mul [.const (-1), powerOf (.value t i) (.const 2)]) (.const (-1)))
    (.fn .mul [.const (-1), inverseSquare t i]) := by
  refine ev_simp (k := 4) ?_
  show applyRules (powRules (simp 3)) (.fn .mul [.const (-1), powerOf (.value t i) (.const 2)]) (.const (-1)) = _
  unfold powRules
  rw [applyRules_skip (by simp [powMisc1]), applyRules_skip (by simp [powMisc2]),
    applyRules_skip (by simp [powMisc3, asConst])]
  have h1 : simp 3 .pow (.const (-1)) (.const (-1)) = some (.const (-1)) := rfl
  have h2 : simp 3 .pow (powerOf (.value t i) (.const 2)) (.const (-1)) = some (inverseSquare t i) := by
    rw [pow_power (by decide) (by decide), show simp 2 .mul (.const 2) (.const (-1)) = some (.const (-2)) from rfl, Option.bind_some]
    exact pow_opaque (by simp) rfl rfl (by decide) (by decide)
  have h3 : simp 3 .mul (.const (-1)) (inverseSquare t i) = some (.fn .mul [.const (-1), inverseSquare t i]) := by
    rfl
  refine applyRules_fire (o := some _) (by simp [powDistribute, asMul, mkMul, h1, h2, h3, fire])

/-! ## Products -/

/-- The coefficients of the inverse. -/
def Quotients (L U t i : Nat) (z : Expr) : Prop := Quotient L U (inverseSquare t i) z ∨ Quotient L U (inverseValue t i) z

theorem value_square : simp (n + 3) .mul (.value t i) (inverseSquare t i) = some (inverseValue t i) := by
  change applyRules (mulRules (simp (n + 2))) (.value t i) (inverseSquare t i) = _
  unfold mulRules
  rw [applyRules_skip (by simp [mulZero]), applyRules_skip (by simp [mulOne]), applyRules_skip (by simp [mulDistribute, asAdd]),
    applyRules_skip (by simp [mulHelper, asMul, mulCollect1])]
  have h1 : simp (n + 2) .add (.const 1) (.const (-2)) = some (.const (-1)) := rfl
  have h2 : simp (n + 2) .pow (.value t i) (.const (-1)) = some (inverseValue t i) :=
    pow_opaque (by simp) rfl rfl (by decide) (by decide)
  exact applyRules_fire (o := some _) (by simp [mulHelper, asMul, mulCollect2, asPower, h1, h2, fire])

theorem square_ne {y : Expr} (hy : Leaf L U y) (hne : y ≠ .value t i) : (∀ b q, asPower (inverseSquare t i) = some (b, q) → b ≠ y) ∧
    y ≠ inverseSquare t i := by
  constructor
  · intro b q hb e
    simp only [asPower, Option.some.injEq, Prod.mk.injEq] at hb
    exact hne (e.symm.trans hb.1.symm)
  · intro e
    rcases hy with ⟨v, h⟩ | ⟨t, i, -, -, h⟩ <;> rw [h] at e <;> cases e

/-- The product of a leaf with `x ^ -2`. -/
theorem leaf_square {y : Expr} (hy : Leaf L U y) : ∃ z, simp (n + 3) .mul y (inverseSquare t i) = some z ∧ Quotients L U t i z := by
  by_cases h : y = .value t i
  · subst h
    exact ⟨_, value_square, .inr (.inr (.inl rfl))⟩
  · obtain ⟨h1, h2⟩ := square_ne hy h
    obtain ⟨z, hz, hq⟩ := quotient_leaf (n := n + 2) (w := inverseSquare t i) rfl rfl rfl hy h1 h2
    exact ⟨z, hz, .inl hq⟩

/-- The negative of the product of a variable with `x ^ -2`. -/
theorem neg_square {s j : Nat} (hL : L ≤ s) (hU : s ≤ U) : ∃ z, simp (n + 3) .mul (.value s j) (inverseSquare t i) = some z ∧
    ∃ y, simp (n + 3) .mul (.const (-1)) z = some y ∧ Quotients L U t i y := by
  by_cases h : Expr.value s j = .value t i
  · rw [h]
    obtain ⟨y, hy, hq⟩ := quotient_leaf (n := n + 2) (L := L) (U := U) (w := inverseValue t i) (x := .const (-1)) rfl rfl rfl
      (.inl ⟨_, rfl⟩) (by simp [asPower]) (by simp)
    exact ⟨_, value_square, y, hy, .inr hq⟩
  · have hy : Leaf L U (.value s j) := .inr ⟨s, j, hL, hU, rfl⟩
    obtain ⟨h1, h2⟩ := square_ne hy h
    obtain ⟨z, hz⟩ := mul_leaf_left_total (n := n + 2) (w := inverseSquare t i) hy rfl rfl rfl h1 h2
    obtain ⟨y, hy, hq⟩ := neg_quotient (n := n + 2) (w := inverseSquare t i) rfl rfl rfl lt_square (by simp [asPower]) hL hU
      (mul_leaf_left hy rfl rfl rfl h1 h2 hz)
    exact ⟨z, hz, y, hy, .inl hq⟩

theorem signed_square {x : Expr} (hx : SignedLeaf L U x) : ∃ z, Ev (fun j => simp j .mul x (inverseSquare t i)) z ∧
    Quotients L U t i z := by
  rcases hx with hx | ⟨s, j, hL, hU, rfl⟩
  · obtain ⟨z, hz, hq⟩ := leaf_square (n := 0) hx
    exact ⟨z, ev_simp hz, hq⟩
  · obtain ⟨z, hz, y, hy, hq⟩ := neg_square (n := 0) (t := t) (i := i) (j := j) hL hU
    exact ⟨y, ev_simp (neg_step (w := inverseSquare t i) rfl rfl rfl lt_square (by simp [asPower]) hz hy), hq⟩

/-- The product with `-x ^ -2`. -/
theorem signed_negSquare {x : Expr} (hx : SignedLeaf L U x) (hn : ∃ e, Ev (fun j => simp j .mul x (.const (-1))) e) :
    ∃ z, Ev (fun j => simp j .mul x (.fn .mul [.const (-1), inverseSquare t i])) z ∧ Quotients L U t i z := by
  have hneg : Quotients L U t i (.fn .mul [.const (-1), inverseSquare t i]) := .inl (.inr (.inr (.inl ⟨.const (-1), .inl ⟨_, rfl⟩, .inl rfl⟩)))
  rcases hx with (⟨d, rfl⟩ | ⟨s, j, hL, hU, rfl⟩) | ⟨s, j, hL, hU, rfl⟩
  · -- a constant
    by_cases h0 : d = 0
    · subst h0
      exact ⟨_, ev_simp (k := 1) (by rfl), .inl (.inl rfl)⟩
    by_cases h1 : d = 1
    · subst h1
      exact ⟨_, ev_simp (k := 1) (by rfl), hneg⟩
    by_cases hm : d = -1
    · subst hm
      exact ⟨inverseSquare t i, ev_simp (k := 4) (by rfl), .inl (.inr (.inl rfl))⟩
    · obtain ⟨e, m, hm'⟩ := hn
      have hmk : mkConst (-d) = some (.const (-d)) := by
        have h := hm' (m + 1) (by omega)
        change applyRules (mulRules (simp m)) (.const d) (.const (-1)) = _ at h
        unfold mulRules at h
        rw [applyRules_skip (by simp [mulZero, h0]), applyRules_skip (by simp [mulOne, h1]),
          applyRules_skip (by simp [mulDistribute, asAdd]), applyRules_skip (by simp [mulHelper, asMul, mulCollect1, hm]),
          applyRules_skip (by simp [mulHelper, asMul, mulCollect2, asPower]),
          applyRules_skip (by simp [mulHelper, asMul, mulCollect3, asPower])] at h
        rcases hc : i64 (-d) with _ | y
        · simp [applyRules, mulHelper, asMul, mulConst1, asConst, mkConst, hc, fire] at h
        · have : y = -d := by
            unfold i64 at hc
            split at hc <;> simp_all
          simp [mkConst, hc, this]
      obtain ⟨z, hz, hq⟩ := leaf_square (n := 0) (L := L) (U := U) (t := t) (i := i) (y := .const (-d)) (.inl ⟨_, rfl⟩)
      refine ⟨z, ev_simp (k := 4) ?_, hq⟩
      change applyRules (mulRules (simp 3)) (.const d) (.fn .mul [.const (-1), inverseSquare t i]) = _
      unfold mulRules
      rw [applyRules_skip (by simp [mulZero, h0]), applyRules_skip (by simp [mulOne, h1]),
        applyRules_skip (by simp [mulDistribute, asAdd]), applyRules_skip (by simp [mulHelper, asMul, mulCollect1, hm]),
        applyRules_skip (by simp [mulHelper, asMul, mulCollect2, asPower]),
        applyRules_skip (by simp [mulHelper, asMul, mulCollect3, asPower])]
      refine applyRules_fire (o := some z) ?_
      simp [mulHelper, asMul, mulConst1, asConst, hmk, fire, mkMul, hz]
  · -- a variable
    obtain ⟨z, hz, y, hy, hq⟩ := neg_square (n := 0) (t := t) (i := i) (j := j) hL hU
    refine ⟨y, ev_simp (k := 4) ?_, hq⟩
    change applyRules (mulRules (simp 3)) (.value s j) (.fn .mul [.const (-1), inverseSquare t i]) = _
    unfold mulRules
    rw [applyRules_skip (by simp [mulZero]), applyRules_skip (by simp [mulOne]),
      applyRules_skip (by simp [mulDistribute, asAdd]), applyRules_skip (by simp [mulHelper, asMul, mulCollect1]),
      applyRules_skip (by simp [mulHelper, asMul, mulCollect2, asPower]),
      applyRules_skip (by simp [mulHelper, asMul, mulCollect3, asPower]),
      applyRules_skip (by simp [mulHelper, asMul, mulConst1, asConst, asRecip]),
      applyRules_skip (by simp [mulConst2, asConst, asRecip]),
      applyRules_skip (by simp [mulMergeLt, asMul, show lt (.value s j) (.const (-1)) = false from rfl])]
    refine applyRules_fire (o := some y) ?_
    simp [mulMergeGt, asMul, lt_value, fire, mkMul, hz, hy]
  · -- the negative of a variable
    have hy : Leaf L U (.value s j) := .inr ⟨s, j, hL, hU, rfl⟩
    obtain ⟨z, hz, hq⟩ := leaf_square (n := 0) (t := t) (i := i) hy
    refine ⟨z, ev_simp (k := 4) ?_, hq⟩
    change applyRules (mulRules (simp 3)) (.fn .mul [.const (-1), .value s j]) (.fn .mul [.const (-1), inverseSquare t i]) = _
    unfold mulRules
    have h1 : simp 3 .pow (.const (-1)) (.const 2) = some (.const 1) := rfl
    have h2 : simp 3 .mul (.const 1) z = some z := by
      by_cases hz0 : z = .const 0
      · subst hz0; rfl
      change applyRules (mulRules (simp 2)) (.const 1) z = _
      unfold mulRules
      rw [applyRules_skip (by simp [mulZero, hz0]), applyRules_fire (o := some z) (by simp [mulOne, fire])]
    rw [applyRules_skip (by simp [mulZero]), applyRules_skip (by simp [mulOne]),
      applyRules_skip (by simp [mulDistribute, asAdd])]
    refine applyRules_fire (o := some z) ?_
    simp [mulHelper, asMul, mulCollect1, fire, mkMul, hz, h1, h2]

/-! ## Inverses -/

variable {M : Object} {A : MV ℝ} {a ra : CSum}

theorem power_value {σ : Env} (h0 : σ.val t i ≠ 0) (m : Int) : V σ (powerOf (.value t i) (.const m)) (σ.val t i ^ m) := by
  have := V.power (ρ := σ) (l := .value t i) (x := σ.val t i) ⟨.value _ _, rfl⟩ (V.const (ρ := σ) m) ⟨by simp, by simp⟩ (by
    rcases lt_trichotomy (σ.val t i) 0 with h | h | h
    · exact .inr (.inr ⟨h, m, rfl⟩)
    · exact absurd h h0
    · exact .inl h)
  rwa [Real.rpow_intCast] at this

/-- The value of a squared norm that is the square of one coefficient. -/
theorem square_value {σ : Env} {x : ℝ} (h : Denotes σ (powerOf (.value t i) (.const 2)) x) : x = σ.val t i ^ 2 := by
  have hp : PowDefined (σ.val t i) ((2 : Int) : ℝ) := by
    rcases lt_trichotomy (σ.val t i) 0 with h | h | h
    · exact .inr (.inr ⟨h, 2, rfl⟩)
    · exact .inr (.inl ⟨h, by norm_num⟩)
    · exact .inl h
  have := (V.power (ρ := σ) (l := .value t i) (x := σ.val t i) ⟨.value _ _, rfl⟩ (V.const (ρ := σ) 2) ⟨by simp, by simp⟩ hp).2
  have := h.symm.trans this
  simpa using this

theorem square_product {σ : Env} {c : Int} {x : ℝ} (h : Denotes σ (.fn .mul [.const c, powerOf (.value t i) (.const 2)]) x) :
    x = c * σ.val t i ^ 2 := by
  have hp : PowDefined (σ.val t i) 2 := by
    rcases lt_trichotomy (σ.val t i) 0 with h | h | h
    · exact .inr (.inr ⟨h, 2, by norm_num⟩)
    · exact .inr (.inl ⟨h, by norm_num⟩)
    · exact .inl h
  have h' : Denotes σ (.fn .mul [.const c, powerOf (.value t i) (.const 2)]) (c * σ.val t i ^ 2) := by
    simp [Denotes, den, denList, interp, hp, prodVals]
  simpa using h.symm.trans h'

theorem quotients_compile (ht : L ≤ t ∧ t ≤ U) (hf : τ t = true) :
    (∀ z, Quotients L U t i z → NoIntQuotient τ z) ∧
    ∃ k0, ∀ k, k0 ≤ k → ∀ z, Evaluable L U .num z → Quotients L U t i z → ∃ c, compile k L U z = some c := by
  have gv := fun k => ge_value (R := True) (n := k + 2) (i := i) ht.1 ht.2
  have g1 := fun k => ge_power_total (n := k + 2) (by omega) (gv k) rfl ⟨by simp, by simp⟩
    (exponent_const (-1)) (by decide) (by decide) (compile_const (-1))
  have g2 := fun k => ge_power_total (n := k + 2) (by omega) (gv k) rfl ⟨by simp, by simp⟩
    (exponent_const (-2)) (by decide) (by decide) (compile_const (-2))
  constructor
  · rintro z (h | h)
    · exact quotient_noInt ((g2 0).noInt _) (fun r e => by cases e) h
    · exact quotient_noInt ((g1 0).noInt _) (fun r e => by cases e; simpa [floating] using hf) h
  · refine ⟨2, fun k hk z hz h => ?_⟩
    obtain ⟨m, rfl⟩ : ∃ m, k = m + 2 := ⟨k - 2, by omega⟩
    rcases h with h | h
    · exact quotient_compile (g2 m) rfl hz h
    · exact quotient_compile (g1 m) rfl hz h

theorem inverse_square_total {v : Expr} (hN : P + Q + R ≤ 62) (h : NormType P Q R ρ M A a ra v) (hf : M.floats = true)
    (hv : v = powerOf (.value t i) (.const 2) ∨ v = .fn .mul [.const (-1), powerOf (.value t i) (.const 2)])
    (h0 : rnormSqr (signedProd P Q R) A ≠ 0) : ∃ k0, ∀ k, k0 ≤ k → ∃ o, inverse P Q R k τ ρ M = some o ∧
      Stands ρ (P + Q + R) o ((rnormSqr (signedProd P Q R) A)⁻¹ • GATL.reverse A) := by
  have hsl := h.rev.fact (p := fun e => ∀ d ∈ e, SignedLeaf (baseId [M] + 1) (baseId [M] + (storedInputs [M]).length) d.coef)
    fun k y hy => reverse_leaf h.leaf hy
  have hpv : Poly (baseId [M] + 1) (baseId [M] + (storedInputs [M]).length) (powerOf (.value t i) (.const 2)) := by
    rcases hv with rfl | rfl
    · exact h.poly
    · exact (over_fn.1 h.poly).2.1 _ (by simp)
  obtain ⟨hl, hft⟩ := norm_floating (τ := τ) hf hpv
  have hlt : baseId [M] + 1 ≤ t ∧ t ≤ baseId [M] + (storedInputs [M]).length := by
    rcases hl with ⟨v, hv⟩ | ⟨t', i', h1, h2, hv⟩
    · cases hv
    · cases hv; exact ⟨h1, h2⟩
  obtain ⟨q1, q2⟩ := quotients_compile (i := i) hlt hft
  have fv : ∀ m, Frac (baseId [M] + 1) (baseId [M] + (storedInputs [M]).length) (powerOf (.value t i) (.const m)) := fun m =>
    over_fn.2 ⟨by simp [Alg], by simp [poly_frac (leaf_poly hl), frac_const], fun _ l r e => by cases e; exact ⟨m, rfl⟩⟩
  have hzero : Quotients (baseId [M] + 1) (baseId [M] + (storedInputs [M]).length) t i (.const 0) := .inl (.inl rfl)
  have hx : rnormSqr (signedProd P Q R) A = (contextEnv ρ (baseId [M]) (storedInputs [M])).val t i ^ 2 ∨ 
      rnormSqr (signedProd P Q R) A = -(contextEnv ρ (baseId [M]) (storedInputs [M])).val t i ^ 2 := by
    rcases hv with rfl | rfl
    · exact .inl (square_value h.value)
    · exact .inr ((square_product h.value).trans (by push_cast; ring))
  have hx0 : (contextEnv ρ (baseId [M]) (storedInputs [M])).val t i ≠ 0 := by
    intro e
    rw [e] at hx
    rcases hx with hx | hx <;> exact h0 (by simpa using hx)
  rcases hv with rfl | rfl
  · refine inverse_total_of (w := inverseSquare t i) hN h rfl rfl rfl inverse_square ?_ (fv _) hzero
      (fun c hc => signed_square (hsl c hc)) q1 q2
    refine (power_value hx0 (-2)).of_eq ?_
    rw [square_value h.value, zpow_neg]
    rfl
  · refine inverse_total_of (w := .fn .mul [.const (-1), inverseSquare t i]) hN h rfl rfl rfl inverse_negSquare ?_
      (over_fn.2 ⟨by simp [Alg], by simp [fv, frac_const], by simp⟩) hzero
      (fun c hc => signed_negSquare (hsl c hc) (h.revNeg c hc)) q1 q2
    have hm : mkMul [.const (-1), inverseSquare t i] = some (.fn .mul [.const (-1), inverseSquare t i]) := by simp [mkMul]
    refine ((ProdV.cons (V.const (-1)) (ProdV.cons (power_value hx0 (-2)) ProdV.nil)).mkMul (by simp) hm).of_eq ?_
    rw [square_product h.value, mul_inv, zpow_neg]
    push_cast
    rw [mul_one]
    congr 1
    norm_num

/-- The type of a squared norm that is not constant: a sum, a square, or the negative of a square. -/
theorem normCoef_shape (hN : P + Q + R ≤ 62) (hM : Represents ρ (P + Q + R) M A) {v : Expr}
    (hv : normCoef P Q R k M = some v) (hc : ¬ ConstantNorm ρ P Q R M) :
    (∃ args, v = .fn .add args ∧ ∃ a ∈ args, ∃ t i, a = powerOf (.value t i) (.const 2) ∨
      ∃ c, a = .fn .mul [.const c, powerOf (.value t i) (.const 2)]) ∨
    ∃ t i, v = powerOf (.value t i) (.const 2) ∨ v = .fn .mul [.const (-1), powerOf (.value t i) (.const 2)] := by
  rcases normCoef_lin hN hM hv with (⟨c, rfl⟩ | ⟨b, rfl, hb, t, i, rfl⟩ | ⟨c, a, rfl, ⟨b, rfl, hb, t, i, rfl⟩, hkc⟩) |
    ⟨h, t, rfl, ht, -, hn⟩
  · refine absurd ⟨(c : ℝ), fun vs A hA => ?_⟩ hc
    have := normCoef_values hN hM.1 hv hA
    simpa [Denotes, den] using this.symm
  · exact .inr ⟨t, i, .inl rfl⟩
  · refine .inr ⟨t, i, .inr ?_⟩
    have huniq : ∀ vs A, Reads ρ (P + Q + R) M.expr vs M.bitsets A → rnormSqr (signedProd P Q R) A =
        c * (contextEnv ρ (baseId [M]) (storedInputs [{ M with values := vs }])).val t i ^ 2 := fun vs A hA =>
      square_product (normCoef_values hN hM.1 hv hA)
    rcases value_context (outer := ρ) (M := M) (base := baseId [M]) (t := t) (i := i) with h | ⟨r, h⟩
    · rcases monomial_unit hM (fun vs A hA => by rw [huniq vs A hA, h]) hc with h1 | h1
      · exact absurd (by exact_mod_cast h1) hkc.2
      · rw [show c = -1 by exact_mod_cast h1]
    · exact absurd ⟨c * r ^ 2, fun vs A hA => by rw [huniq vs A hA, h]⟩ hc
  · obtain ⟨x, t', rfl⟩ := List.exists_cons_of_ne_nil ht
    refine .inl ⟨_, rfl, x, by simp, ?_⟩
    rcases hn x (by simp) with ⟨b, rfl, hb, t, i, rfl⟩ | ⟨c, a, rfl, ⟨b, rfl, hb, t, i, rfl⟩, hkc⟩
    · exact ⟨t, i, .inl rfl⟩
    · exact ⟨t, i, .inr ⟨c, rfl⟩⟩

end GATL.Total
