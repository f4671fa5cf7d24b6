import Verif.Proofs.UnitConstTotal
import Verif.Proofs.InverseMonomial

/-!
Inverses of multivectors whose squared norm is a positive constant, or `-1`, at compile time.
-/

namespace GATL.Total

open Expr Spec

variable {τ : Types} {ρ : Env} {P Q R k L U : Nat} {M : Object} {A : MV ℝ} {a ra : CSum}

theorem minus_stored : ∃ z, Ev (fun k => simp k .mul (.const (-1)) .stored) z := by
  obtain ⟨z, hz⟩ := mul_leaf_left_total (n := 0) (L := 0) (U := 0) (x := .const (-1)) (w := .stored) (.inl ⟨-1, rfl⟩)
    rfl rfl rfl (by simp [asPower]) (by simp)
  exact ⟨z, ev_simp hz⟩

/-- The negative of a variable times the inverse of an integer. -/
theorem minus_recip {d : Int} (hd : 2 ≤ d) (t i : Nat) : Ev (fun k => simp k .mul (.fn .mul [.const (-1), .value t i]) (recip d))
    (.fn .mul [.const (-1), recip d, .value t i]) := by
  have hd' : d ≠ -1 := by omega
  have g : lt (.const (-1)) (recip d) = true := rfl
  refine ev_simp (k := 1 + 1) ?_
  show applyRules (mulRules (simp 1)) (.fn .mul [.const (-1), .value t i]) (recip d) = _
  have h1 : simp 1 .mul (.value t i) (recip d) = some (.fn .mul [recip d, .value t i]) := value_power d (.inl rfl) t i
  have h2 : simp 1 .mul (.const (-1)) (.fn .mul [recip d, .value t i]) = some (.fn .mul [.const (-1), recip d, .value t i]) := by
    show applyRules (mulRules (simp 0)) (.const (-1)) (.fn .mul [recip d, .value t i]) = _
    unfold mulRules
    rw [applyRules_skip (by simp [mulZero]), applyRules_skip (by simp [mulOne]),
      applyRules_skip (by simp [mulDistribute, asAdd]),
      applyRules_skip (by simp [mulHelper, asMul, mulCollect1]),
      applyRules_skip (by simp [mulHelper, asMul, mulCollect2, asPower, hd']),
      applyRules_skip (by simp [mulHelper, asMul, mulCollect3, asPower]),
      applyRules_skip (by simp [mulHelper, asMul, mulConst1, asConst, asRecip]),
      applyRules_skip (by simp [mulConst2, asConst, asRecip]),
      applyRules_fire (o := mkMul [.const (-1), recip d, .value t i]) (by simp [mulMergeLt, asMul, g])]
    simp [mkMul]
  unfold mulRules
  rw [applyRules_skip (by simp [mulZero]), applyRules_skip (by simp [mulOne]),
    applyRules_skip (by simp [mulDistribute, asAdd]),
    applyRules_skip (by simp [mulHelper, asMul, mulCollect1]),
    applyRules_skip (by simp [mulHelper, asMul, mulCollect2, asPower, hd']),
    applyRules_skip (by simp [mulHelper, asMul, mulCollect3, asPower]),
    applyRules_skip (by simp [mulHelper, asMul, mulConst1, asConst, asRecip]),
    applyRules_skip (by simp [mulConst2, asConst, asRecip])]
  exact applyRules_fire (o := some (.fn .mul [.const (-1), recip d, .value t i])) (by
    simp only [mulMergeLt, asMul, g, if_true, mkMul, Option.bind_eq_bind, Option.bind_some, h1, h2])

/-- What is asked of the coefficients of the result. -/
def Kept (L U : Nat) (z : Expr) : Prop := Staging L U z ∧ Compiles L U z

theorem minus_compiles {y : Expr} {ys : List Expr} {p : List Instr} (hy : Ev (fun k => compileMul k L U (y :: ys)) (.stored, p))
    (hev : Evaluable L U .num (.fn .mul (.const (-1) :: y :: ys))) : Compiles L U (.fn .mul (.const (-1) :: y :: ys)) := by
  obtain ⟨z, k1, hz⟩ := minus_stored
  obtain ⟨k2, hk2⟩ := hy
  refine ⟨(.stored, [.value (.fn .mul (.const (-1) :: y :: ys))]), max k1 k2, fun k hk => ?_⟩
  have e1 : simp k .mul (.const (-1)) .stored = _ := hz k (by omega)
  have e2 : compileMul k L U (y :: ys) = _ := hk2 k (by omega)
  show (do
    let (l', p) ← compile k L U (.const (-1))
    let (r', q) ← compileMul k L U (y :: ys)
    let e ← simp k .mul l' r'
    if anyIs .stored l' r' then storeValue L U (.fn .mul (.const (-1) :: y :: ys)) else some (e, p ++ q)) = _
  simp only [compile_const, e2, e1, Option.bind_eq_bind, Option.bind_some]
  rw [if_pos (by rfl), storeValue, if_pos (evaluable_context hev).1]

theorem compile_value {t i : Nat} (h1 : L ≤ t) (h2 : t ≤ U) : compile k L U (.value t i) = some (.stored, [.value (.value t i)]) := by
  rw [compile, if_pos ⟨h1, h2⟩]
  simp [storeValue, inRange, h1, h2]

/-- Coefficients of the reverse. -/
theorem signed_fine {x : Expr} (hx : SignedLeaf L U x) : Kept L U x := by
  rcases hx with (⟨v, rfl⟩ | ⟨t, i, h1, h2, rfl⟩) | ⟨t, i, h1, h2, rfl⟩
  · exact ⟨(exponent_const v).staging, compiles_const v⟩
  · exact ⟨⟨.value t i h1 h2, .inr fun τ => trivial⟩, _, 0, fun k _ => compile_value h1 h2⟩
  · have hev : Evaluable L U .num (.fn .mul [.const (-1), .value t i]) :=
      .mul _ (by simp) (by simp [Evaluable.const, Evaluable.value t i h1 h2])
    refine ⟨⟨hev, .inr fun τ => ?_⟩, minus_compiles ⟨0, fun k _ => compile_value h1 h2⟩ hev⟩
    rw [NoIntQuotient]
    refine ⟨by simp [NoIntQuotientAll, NoIntQuotient], fun pre l r e => ?_⟩
    have := congrArg (fun x => x.reverse[0]?) e
    simp at this

theorem signed_total {x : Expr} {d : Int} (hd : 2 ≤ d) (hx : SignedLeaf L U x) (hb : ∀ v, x = .const v → v.natAbs < 2 ^ 63) :
    ∃ z, Ev (fun k => simp k .mul x (recip d)) z ∧ Kept L U z := by
  have hi : Inverse (recip d) := ⟨d, hd, .inl rfl⟩
  rcases hx with hx | ⟨t, i, h1, h2, rfl⟩
  · obtain ⟨z, hz, hc⟩ := weight_total hx hb hi
    exact ⟨z, hz, hz.fact (p := fun z => Staging L U z) fun k y h => leaf_weight hx (inverse_is_weight hi) h, hc⟩
  · have ew := weight_exponent (L := L) (U := U) (inverse_is_weight hi)
    have hev : Evaluable L U .num (.fn .mul [.const (-1), recip d, .value t i]) :=
      .mul _ (by simp) (by simp [Evaluable.const, ew.ev, Evaluable.value t i h1 h2])
    refine ⟨_, minus_recip hd t i, ⟨hev, .inr fun τ => ?_⟩, minus_compiles (value_compile hi h1 h2).2 hev⟩
    rw [NoIntQuotient]
    refine ⟨by simp [NoIntQuotientAll, NoIntQuotient], fun pre l r e => ?_⟩
    have := congrArg (fun x => x.reverse[0]?) e
    simp at this

theorem signed_minus {x : Expr} (hx : SignedLeaf L U x) (hb : ∀ v, x = .const v → v.natAbs < 2 ^ 31) :
    ∃ z, Ev (fun k => simp k .mul x (.const (-1))) z ∧ Kept L U z := by
  rcases hx with (⟨v, rfl⟩ | ⟨t, i, h1, h2, rfl⟩) | ⟨t, i, h1, h2, rfl⟩
  · exact ⟨_, ev_mul (m := 2 ^ 31) (by norm_num) (by have := hb v rfl; omega), signed_fine (.inl (.inl ⟨_, rfl⟩))⟩
  · exact ⟨_, ev_simp (k := 6) (by rfl), signed_fine (.inr ⟨t, i, h1, h2, rfl⟩)⟩
  · exact ⟨.value t i, ev_simp (k := 6) (by rfl), signed_fine (.inl (.inr ⟨t, i, h1, h2, rfl⟩))⟩

/-- Constants of the reverse are no larger than those of the multivector. -/
theorem reverse_small {n : Nat} {pattern : Word} {s e : CSum} (hs : Within (Leaf L U) s) (h : gradedMinusC n pattern s = some e)
    {b : Nat} (hb : ∀ c ∈ s, ∀ v, c.coef = .const v → v.natAbs ≤ b) : ∀ d ∈ e, ∀ v, d.coef = .const v → v.natAbs ≤ b := by
  intro d hd v hv
  rcases (minus_comps hs.1 h).2 d hd with h0 | ⟨c, hc, -, h1 | ⟨j, hj⟩⟩
  · rw [h0] at hv; cases hv; simp
  · exact hb c hc v (h1 ▸ hv)
  · rcases hs.2 c hc with ⟨u, hu⟩ | ⟨t, i, hL, hU, hu⟩
    · obtain ⟨ρ⟩ := mapping_env
      rw [hu, hv] at hj
      have := (simp_sound ρ j).mul _ _ _ _ _ (V.const (-1)) (V.const u) hj
      have e : v = -1 * u := by exact_mod_cast this.const_eq.symm
      have := hb c hc u hu
      omega
    · rw [hu, hv] at hj
      have := GATL.simp_eq (j := j) (k := 1) hj (x := .fn .mul [.const (-1), .value t i]) rfl
      cases this

/-- Inverses compile and are right if the squared norm is a positive constant or `-1`. -/
theorem inverse_const_total (hN : P + Q + R ≤ 62) {c : Int} (hM : Represents ρ (P + Q + R) M A) (hw : weightC M.expr < 2 ^ 31)
    (h : NormType P Q R ρ M A a ra (.const c)) (hc : 0 < c ∨ c = -1) :
    ∃ k0, ∀ k, k0 ≤ k → ∃ o, inverse P Q R k τ ρ M = some o ∧
      Reads ρ (P + Q + R) o.expr o.values o.bitsets ((rnormSqr (signedProd P Q R) A)⁻¹ • GATL.reverse A) := by
  have hN0 : rnormSqr (signedProd P Q R) A = c := by simpa [Denotes, den] using h.value.symm
  have hc' : PowDefined (c : ℝ) (-1) := by
    rcases hc with hc | rfl
    · exact .inl (by exact_mod_cast hc)
    · exact .inr (.inr ⟨by norm_num, -1, by norm_num⟩)
  -- the coefficients of the reverse
  have hPw : PlainWs M.expr (weightC M.expr) := plainWs_weight hM.1.2
  obtain ⟨as, h1, has⟩ := arguments_total (baseId [M]) [M] [weightC M.expr]
    (fun X hX => by rw [List.mem_singleton] at hX; subst hX; exact hM.1) (.cons hPw .nil)
  rw [h.args] at h1
  obtain rfl := Option.some.inj h1
  have wa : Weighs 1 a (weightC M.expr) := (List.forall₂_cons.1 has).1
  have hsl := h.rev.fact (p := fun e => ∀ d ∈ e, SignedLeaf (baseId [M] + 1) (baseId [M] + (storedInputs [M]).length) d.coef)
    fun k y hy => reverse_leaf h.leaf hy
  have hsm := h.rev.fact (p := fun e => ∀ d ∈ e, ∀ v, d.coef = .const v → v.natAbs ≤ weightC M.expr)
    fun k y hy => reverse_small h.leaf hy fun x hx v e => pw_const_weight (e ▸ wa.mem x hx)
  -- the inverse of the squared norm
  obtain ⟨w, hinv, hstw, hw0, hq⟩ : ∃ w, Ev (fun k => simp k .pow (.const c) (.const (-1))) w ∧ hasStored w = false ∧ w ≠ .const 0 ∧
      ∀ x ∈ ra, ∃ z, Ev (fun k => simp k .mul x.coef w) z ∧
        Kept (baseId [M] + 1) (baseId [M] + (storedInputs [M]).length) z := by
    by_cases hm : c = -1
    · subst hm
      exact ⟨.const (-1), ev_simp (k := 6) (by decide +kernel), rfl, by simp, fun x hx => signed_minus (hsl x hx) fun v e =>
        lt_of_le_of_lt (hsm x hx v e) hw⟩
    by_cases h1 : c = 1
    · subst h1
      exact ⟨.const 1, ev_simp (k := 5) (by decide +kernel), rfl, by simp, fun x hx => ⟨_, mul_one_ev _, signed_fine (hsl x hx)⟩⟩
    · exact ⟨recip c, inv_ev (by omega), rfl, by simp, fun x hx => signed_total (by omega) (hsl x hx) fun v e => by
        have := hsm x hx v e
        omega⟩
  have vw : V (contextEnv ρ (baseId [M]) (storedInputs [M])) w (c : ℝ)⁻¹ := hinv.fact
    (p := fun w => V (contextEnv ρ (baseId [M]) (storedInputs [M])) w (c : ℝ)⁻¹) fun k y h => by
      have := (simp_sound (contextEnv ρ (baseId [M]) (storedInputs [M])) k).pow _ _ _ _ _ (V.const c) (V.const (-1)) (by simpa using hc')
        (.inl ⟨-1, rfl⟩) h
      simpa [Real.rpow_neg_one] using this
  have e1 : Ev (fun k => powExpr k [⟨.const c, .const 0⟩] (constSum (-1))) [⟨w, .const 0⟩] :=
    hinv.bind (lazyOnly_ev (scalar_stored hstw))
  have e2 : Ev (fun k => reverseExpr k a) ra := h.rev.bind (lazyOnly_ev (within_stored poly_stored h.revPoly))
  -- the product
  have hU := (orth_unit hN (factor := mkRealFactor) (fun b => ⟨1, rfl⟩) (q := fun _ => 1) (fun ρ b w h => by
    have : diagFactor (fun _ => (1 : ℝ)) w = 1 := by simp [diagFactor]
    rw [this]
    exact Props.realFactor_ok ρ b w h) (.inr rfl : (63 : Nat) = P + Q + R ∨ (63 : Nat) = 63)).1
  obtain ⟨e, e3⟩ := scale_right_total (N := P + Q + R) (orth_sign hN (by omega) le_rfl (f := mkRealFactor)
    (fun b => ⟨1, rfl, by simp⟩) .gp) hU (w := w) hw0 ra
    h.revPoly.1 (in_of h.revPoly.1 h.revDenotes) (inSpaceC_of h.revDenotes) fun x hx => (hq x hx).imp fun _ => And.left
  have dw : SumDenotes (contextEnv ρ (baseId [M]) (storedInputs [M])) (P + Q + R) [⟨w, .const 0⟩]
    (Finsupp.single 0 (c : ℝ)⁻¹) := single_denotes vw.1 vw.2
  have de := e3.fact (p := fun e => SumDenotes (contextEnv ρ (baseId [M]) (storedInputs [M])) (P + Q + R) e
      ((c : ℝ)⁻¹ • GATL.reverse A)) fun k y hy => by
    have key := Props.C23_scalar_operand _ (P + Q + R) 0 0 (by omega) .gp k _ _ y _ _ (.inr ⟨_, rfl⟩) h.revDenotes dw hy
    unfold signedProd at key
    rw [signedFactor_cast (P + Q + R) 0 0 (by omega)] at key
    rwa [show orthProd _ .gp (GATL.reverse A) (Finsupp.single 0 (c : ℝ)⁻¹) = _ from
      gp_scalar_right _ _ (GATL.reverse A)] at key
  have qe := e3.fact (p := fun e => Within (Kept (baseId [M] + 1) (baseId [M] + (storedInputs [M]).length)) e)
    fun k y hy => (scale_right hU (Q := Kept (baseId [M] + 1) (baseId [M] + (storedInputs [M]).length))
      ⟨(exponent_const 0).staging, compiles_const 0⟩ hw0 ra k y h.revPoly.1 (inSpaceC_of h.revDenotes)
      (fun x hx j z hz => by
        obtain ⟨z', h1, h2⟩ := hq x hx
        rwa [simp_eq h1 hz]) hy).1
  obtain ⟨k1, hk1⟩ : Ev (fun k => inverseExpr P Q R k a) e :=
    h.expr.bind (e1.bind (e2.bind (e3.bind (lazyOnly_ev (within_stored (fun z hz => (evaluable_context hz.1.ev).2.1) qe)))))
  obtain ⟨k2, hk2⟩ := Compiles.all fun x hx => (qe.2 x hx).2
  refine ⟨max (max k1 k2) 1, fun k hk => ?_⟩
  rw [inverse_stored h.args (leaf_stored h.leaf) (hk1 k (by omega)), hN0]
  obtain ⟨o, ho⟩ := context_staging_total (τ := τ) (ρ := ρ) (M := M) (k := k) (by omega) (within_mono (fun _ => And.left) qe) (hk2 k (by omega)) de
  exact ⟨o, ho, context_staging (Ms := [M]) (within_mono (fun _ => And.left) qe) de ho⟩

end GATL.Total
