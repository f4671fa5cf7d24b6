import Verif.Proofs.UnitTotal
import Verif.Proofs.Rational

/-!
# Inverses compile
-/

namespace GATL.Total

open Expr Spec

variable {N n k L U : Nat} {ρ : Env} {τ : Types} {P Q R : Nat}

/-! ## The squared norm -/

/-- A sum with a square of a variable is not constant. -/
theorem sum_not_constant {args : List Expr} (h : ∃ a ∈ args, ∃ t i, a = powerOf (.value t i) (.const 2) ∨
    ∃ c, a = .fn .mul [.const c, powerOf (.value t i) (.const 2)]) : isConstant (.fn .add args) = false := by
  obtain ⟨a, ha, t, i, h⟩ := h
  have hc : isConstant a = false := by rcases h with rfl | ⟨c, rfl⟩ <;> simp [isConstant, isConstantAll]
  rw [isConstant]
  induction args with
  | nil => simp at ha
  | cons b bs ih =>
    rw [isConstantAll]
    rcases List.mem_cons.1 ha with rfl | ha
    · simp [hc]
    · simp [ih ha]

/-! ## The reverse -/

/-- A leaf, or the negative of a variable. -/
def SignedLeaf (L U : Nat) (x : Expr) : Prop := Leaf L U x ∨ ∃ t i, L ≤ t ∧ t ≤ U ∧ x = .fn .mul [.const (-1), .value t i]

theorem neg_leaf {x z : Expr} (hx : Leaf L U x) (h : simp n .mul (.const (-1)) x = some z) : SignedLeaf L U z := by
  rcases hx with ⟨v, rfl⟩ | ⟨t, i, hL, hU, rfl⟩
  · exact .inl (.inl ((expClosed_const n _ _ (isConst_const (-1)) (isConst_const v)).2 _ h))
  · exact .inr ⟨t, i, hL, hU, GATL.simp_eq (j := n) (k := 1) h rfl⟩

theorem reverse_leaf {pattern : Word} {s e : CSum} (hs : Within (Leaf L U) s) (h : gradedMinusC n pattern s = some e) :
    ∀ d ∈ e, SignedLeaf L U d.coef := by
  intro d hd
  rcases (minus_comps hs.1 h).2 d hd with h0 | ⟨c, hc, -, h1 | ⟨j, hj⟩⟩
  · rw [h0]; exact .inl (.inl ⟨0, rfl⟩)
  · rw [h1]; exact .inl (hs.2 c hc)
  · exact neg_leaf (hs.2 c hc) hj

/-! ## Products with a reciprocal -/

/-- The reciprocal of a sum. -/
abbrev reciprocal (args : List Expr) : Expr := powerOf (.fn .add args) (.const (-1))

theorem lt_value {c : Int} {t i : Nat} : lt (.const c) (.value t i) = true := rfl
theorem lt_reciprocal {c : Int} {args : List Expr} : lt (.const c) (reciprocal args) = true := by simp [lt, ltF, isLiteral]

/-- `-1` times a product that does not begin with a constant. -/
theorem neg_product {b : Expr} {bs : List Expr} (hc : isConstant b = false) (hb : ∀ p q, asPower b = some (p, q) → p ≠ .const (-1))
    (hl : lt (.const (-1)) b = true) (h0 : ∀ v, .const v ∉ bs) :
    simp (n + 1) .mul (.const (-1)) (.fn .mul (b :: bs)) = some (.fn .mul (.const (-1) :: b :: bs)) := by
  have hw := ne_const hc
  change applyRules (mulRules (simp n)) (.const (-1)) (.fn .mul (b :: bs)) = _
  unfold mulRules
  have hc2 : mulCollect2 (simp n) (.const (-1)) b = some none := by
    unfold mulCollect2
    cases hw' : asPower b with
    | none => rfl
    | some p => obtain ⟨p, q⟩ := p; simp [asPower, hb p q hw']
  rw [applyRules_skip (by simp [mulZero]), applyRules_skip (by simp [mulOne]), applyRules_skip (by simp [mulDistribute, asAdd]),
    applyRules_skip (by simp [mulHelper, asMul, mulCollect1, Ne.symm (hw (-1))]),
    applyRules_skip (by simp [mulHelper, asMul, hc2]),
    applyRules_skip (by simp [mulHelper, asMul, mulCollect3, asPower]),
    applyRules_skip (by simp [mulHelper, asMul, mulConst1, asConst_var hc, asRecip]),
    applyRules_skip (by simp [mulConst2, asRecip, asConst])]
  refine applyRules_fire (o := mkMul (.const (-1) :: b :: bs)) (by simp [mulMergeLt, asMul, hl]) |>.trans ?_
  simp [mkMul, h0, Ne.symm (hw 0), Ne.symm (hw 1)]

/-- The products of the coefficients of a reverse with the reciprocal. -/
def Quotient (L U : Nat) (w z : Expr) : Prop := z = .const 0 ∨ z = w ∨ (∃ x, Leaf L U x ∧ (z = .fn .mul [x, w] ∨ z = .fn .mul [w, x])) ∨
  ∃ t i, L ≤ t ∧ t ≤ U ∧ (z = .fn .mul [.const (-1), .value t i, w] ∨ z = .fn .mul [.const (-1), w, .value t i])

theorem over_ne {args : List Expr} {x : Expr} (hx : Leaf L U x) : (∀ b q, asPower (reciprocal args) = some (b, q) → b ≠ x) ∧ x ≠ reciprocal args := by
  constructor
  · intro b q hb e
    simp only [asPower, Option.some.injEq, Prod.mk.injEq] at hb
    rcases hx with ⟨v, h⟩ | ⟨t, i, -, -, h⟩ <;> rw [h, ← hb.1] at e <;> cases e
  · intro e
    rcases hx with ⟨v, h⟩ | ⟨t, i, -, -, h⟩ <;> rw [h] at e <;> cases e

section
variable {w : Expr} (hc : isConstant w = false) (ha : asAdd w = none) (hm : asMul w = none)
include hc ha hm

theorem quotient_leaf {x : Expr} (hx : Leaf L U x) (h1 : ∀ b q, asPower w = some (b, q) → b ≠ x) (h2 : x ≠ w) :
    ∃ z, simp (n + 1) .mul x w = some z ∧ Quotient L U w z := by
  obtain ⟨z, hz⟩ := mul_leaf_left_total (n := n) hx hc ha hm h1 h2
  refine ⟨z, hz, ?_⟩
  rcases mul_leaf_left hx hc ha hm h1 h2 hz with h | h | h | h
  · exact .inl h
  · exact .inr (.inl h)
  · exact .inr (.inr (.inl ⟨x, hx, .inl h⟩))
  · exact .inr (.inr (.inl ⟨x, hx, .inr h⟩))

/-- `(-1 * x) * w` is computed as `-1 * (x * w)`. -/
theorem neg_step (hl : lt (.const (-1)) w = true) (hm1 : ∀ b q, asPower w = some (b, q) → b ≠ .const (-1)) {t i : Nat} {z y : Expr}
    (hz : simp n .mul (.value t i) w = some z) (hy : simp n .mul (.const (-1)) z = some y) :
    simp (n + 1) .mul (.fn .mul [.const (-1), .value t i]) w = some y := by
  change applyRules (mulRules (simp n)) (.fn .mul [.const (-1), .value t i]) w = _
  unfold mulRules
  have hw := ne_const hc
  have m1 : asMul (.fn .mul [.const (-1), .value t i]) = some (.const (-1), [.value t i]) := rfl
  have m2 : asAdd (.fn .mul [.const (-1), .value t i]) = none := rfl
  have m3 : asPower (.const (-1)) = none := rfl
  have m4 : asConst (.fn .mul [.const (-1), .value t i]) = none := rfl
  have m5 : asRecip (.fn .mul [.const (-1), .value t i]) = none := rfl
  have hc2 : mulCollect2 (simp n) (.const (-1)) w = some none := by
    unfold mulCollect2
    cases hw' : asPower w with
    | none => rfl
    | some p => obtain ⟨p, q⟩ := p; simp [asPower, hm1 p q hw']
  rw [applyRules_skip (by simp [mulZero, hw]), applyRules_skip (by simp [mulOne, hw]), applyRules_skip (by simp [mulDistribute, m2, ha]),
    applyRules_skip (by simp [mulHelper, hm, m1, mulCollect1, Ne.symm (hw (-1))]),
    applyRules_skip (by simp [mulHelper, hm, m1, hc2]),
    applyRules_skip (by simp [mulHelper, hm, m1, mulCollect3, m3]),
    applyRules_skip (by simp [mulHelper, hm, m1, mulConst1, asConst_var hc, asRecip_var hc, show asRecip (.const (-1)) = none from rfl]),
    applyRules_skip (by simp [mulConst2, m4, m5])]
  refine applyRules_fire (o := some y) ?_
  simp [mulMergeLt, m1, hm, hl, mkMul, hz, hy, fire]

/-- `-1` times a product with `w`. -/
theorem neg_quotient (hl : lt (.const (-1)) w = true) (hm1 : ∀ b q, asPower w = some (b, q) → b ≠ .const (-1)) {t i : Nat}
    (hL : L ≤ t) (hU : t ≤ U) {z : Expr} (hz : LeafProduct (.value t i) w z) :
    ∃ y, simp (n + 1) .mul (.const (-1)) z = some y ∧ Quotient L U w y := by
  rcases hz with rfl | rfl | rfl | rfl
  · exact ⟨_, rfl, .inl rfl⟩
  · exact quotient_leaf hc ha hm (.inl ⟨_, rfl⟩) hm1 (Ne.symm (ne_const hc (-1)))
  · exact ⟨_, neg_product rfl (by simp [asPower]) lt_value (by simpa using fun v => Ne.symm (ne_const hc v)), .inr (.inr (.inr ⟨t, i, hL, hU, .inl rfl⟩))⟩
  · exact ⟨_, neg_product hc (fun p q h => hm1 p q h) hl (by simp), .inr (.inr (.inr ⟨t, i, hL, hU, .inr rfl⟩))⟩

theorem quotient_signed (hl : lt (.const (-1)) w = true) (hm1 : ∀ b q, asPower w = some (b, q) → b ≠ .const (-1)) {x : Expr}
    (hx : SignedLeaf L U x) (hne : ∀ y, Leaf L U y → (x = y ∨ x = .fn .mul [.const (-1), y]) →
      (∀ b q, asPower w = some (b, q) → b ≠ y) ∧ y ≠ w) :
    ∃ z, Ev (fun j => simp j .mul x w) z ∧ Quotient L U w z := by
  rcases hx with hx | ⟨t, i, hL, hU, rfl⟩
  · obtain ⟨h1, h2⟩ := hne x hx (.inl rfl)
    obtain ⟨z, hz, hq⟩ := quotient_leaf (n := 0) hc ha hm hx h1 h2
    exact ⟨z, ev_simp hz, hq⟩
  · obtain ⟨h1, h2⟩ := hne _ (.inr ⟨t, i, hL, hU, rfl⟩) (.inr rfl)
    obtain ⟨z, hz⟩ := mul_leaf_left_total (n := 0) (L := L) (U := U) (.inr ⟨t, i, hL, hU, rfl⟩) hc ha hm h1 h2
    obtain ⟨y, hy, hq⟩ := neg_quotient (n := 0) hc ha hm hl hm1 hL hU
      (mul_leaf_left (L := L) (U := U) (.inr ⟨t, i, hL, hU, rfl⟩) hc ha hm h1 h2 hz)
    exact ⟨y, ev_simp (neg_step hc ha hm hl hm1 hz hy), hq⟩

end

theorem quotient_total {args : List Expr} (hc : isConstant (reciprocal args) = false) {x : Expr} (hx : SignedLeaf L U x) :
    ∃ z, Ev (fun j => simp j .mul x (reciprocal args)) z ∧ Quotient L U (reciprocal args) z :=
  quotient_signed hc rfl rfl lt_reciprocal (by simp [asPower]) hx fun _ hy _ => over_ne hy

/-! ## Evaluation -/

theorem compile_mul {a b a' b' e : Expr} {bs : List Expr} {p q : List Instr} (h1 : compile n L U a = some (a', p))
    (h2 : compileMul n L U (b :: bs) = some (b', q)) (h3 : simp n .mul a' b' = some e)
    (hev : Evaluable L U .num (.fn .mul (a :: b :: bs))) : ∃ c, compile n L U (.fn .mul (a :: b :: bs)) = some c := by
  change ∃ c, (do
    let (l', p) ← compile n L U a
    let (r', q) ← compileMul n L U (b :: bs)
    let e ← simp n .mul l' r'
    if anyIs .stored l' r' then storeValue L U (.fn .mul (a :: b :: bs)) else some (e, p ++ q)) = some c
  simp only [h1, h2, h3, Option.bind_eq_bind, Option.bind_some]
  split
  · exact ⟨_, by rw [storeValue, if_pos (evaluable_context hev).1]⟩
  · exact ⟨_, rfl⟩

theorem compile_stored_mul {a b : Expr} {p q : List Instr} (h1 : compile (n + 2) L U a = some (.stored, p))
    (h2 : compile (n + 2) L U b = some (.stored, q)) (ha : Evaluable L U .num a) (hb : Evaluable L U .num b) :
    compileMul (n + 2) L U [a, b] = some (.stored, [.value (.fn .mul [a, b])]) := by
  change (do
    let (l', p) ← compile (n + 2) L U a
    let (r', q) ← compile (n + 2) L U b
    let e ← simp (n + 2) .mul l' r'
    if anyIs .stored l' r' then storeValue L U (.fn .mul [a, b]) else some (e, p ++ q)) = _
  have hs : simp (n + 2) .mul .stored .stored = some (powerOf .stored (.const 2)) := rfl
  have hev : Evaluable L U .num (.fn .mul [a, b]) := .mul _ (by simp) (by simp [ha, hb])
  simp only [h1, h2, hs, Option.bind_eq_bind, Option.bind_some]
  rw [if_pos (by decide), storeValue, if_pos (evaluable_context hev).1]

/-- The quotients are evaluated. -/
theorem quotient_compile {w z : Expr} (hw : GE True (n + 2) L U w) (hc : isConstant w = false)
    (hz : Evaluable L U .num z) (h : Quotient L U w z) : ∃ c, compile (n + 2) L U z = some c := by
  obtain ⟨q, hq⟩ := compile_var hw hc
  rcases h with rfl | rfl | ⟨x, hx, h⟩ | ⟨t, i, hL, hU, h⟩
  · exact ⟨_, compile_const 0⟩
  · exact ⟨_, hq⟩
  · have hx' : ∃ x' p, compile (n + 2) L U x = some (x', p) ∧ (∃ z, simp (n + 2) .mul x' .stored = some z) ∧
        ∃ z, simp (n + 2) .mul .stored x' = some z := by
      rcases hx with ⟨v, rfl⟩ | ⟨t, i, hL, hU, rfl⟩
      · exact ⟨_, _, compile_const v,
          mul_leaf_left_total (L := 0) (U := 0) (.inl ⟨v, rfl⟩) rfl rfl rfl (by simp [asPower]) (by simp),
          mul_leaf_right_total (L := 0) (U := 0) (.inl ⟨v, rfl⟩) rfl rfl rfl (by simp [asPower]) (by simp)⟩
      · obtain ⟨p, hp⟩ := compile_var (ge_value (R := True) (n := n + 2) (i := i) hL hU) rfl
        exact ⟨_, p, hp, ⟨_, rfl⟩, ⟨_, rfl⟩⟩
    obtain ⟨x', p, hx', ⟨z1, hz1⟩, ⟨z2, hz2⟩⟩ := hx'
    rcases h with rfl | rfl
    · exact compile_mul hx' hq hz1 hz
    · exact compile_mul hq hx' hz2 hz
  · obtain ⟨p, hp⟩ := compile_var (ge_value (R := True) (n := n + 2) (i := i) hL hU) rfl
    obtain ⟨y, hy⟩ := mul_leaf_left_total (n := n + 1) (L := 0) (U := 0) (x := .const (-1)) (w := .stored) (.inl ⟨-1, rfl⟩)
      rfl rfl rfl (by simp [asPower]) (by simp)
    rcases h with rfl | rfl
    · exact compile_mul (compile_const (-1)) (compile_stored_mul hp hq (.value _ _ hL hU) hw.ev) hy hz
    · exact compile_mul (compile_const (-1)) (compile_stored_mul hq hp hw.ev (.value _ _ hL hU)) hy hz

/-- They are no quotients of integers. -/
theorem quotient_noInt {w z : Expr} (hw : NoIntQuotient τ w) (hf : ∀ r, w = powerOf r (.const (-1)) → floating τ r = true)
    (h : Quotient L U w z) : NoIntQuotient τ z := by
  have leaf : ∀ x, Leaf L U x → NoIntQuotient τ x := by
    rintro _ (⟨v, rfl⟩ | ⟨t, i, -, -, rfl⟩) <;> simp [NoIntQuotient]
  have nl : ∀ x b, Leaf L U x → x ≠ powerOf b (.const (-1)) := by
    rintro _ b (⟨v, rfl⟩ | ⟨t, i, -, -, rfl⟩) <;> simp
  have last : ∀ {pre xs : List Expr} {l r y : Expr}, xs ++ [y] = pre ++ [l, powerOf r (.const (-1))] → y = powerOf r (.const (-1)) := by
    intro pre xs l r y h
    have : pre ++ [l, powerOf r (.const (-1))] = (pre ++ [l]) ++ [powerOf r (.const (-1))] := by simp
    rw [this] at h
    simpa using (List.append_inj' h rfl).2
  have fin : ∀ xs : List Expr, ∀ pre l r, xs ++ [w] = pre ++ [l, powerOf r (.const (-1))] →
      l = .const (-1) ∨ floating τ l = true ∨ floating τ r = true := by
    intro xs pre l r h
    exact .inr (.inr (hf r (last h)))
  rcases h with rfl | rfl | ⟨x, hx, rfl | rfl⟩ | ⟨t, i, hL, hU, rfl | rfl⟩
  · simp [NoIntQuotient]
  · exact hw
  · rw [NoIntQuotient]
    exact ⟨by simp only [NoIntQuotientAll]; exact ⟨leaf x hx, hw, trivial⟩, fin [x]⟩
  · rw [NoIntQuotient]
    exact ⟨by simp only [NoIntQuotientAll]; exact ⟨hw, leaf x hx, trivial⟩, fun pre l r h => absurd (last (xs := [_]) h) (nl x r hx)⟩
  · have hx : Leaf L U (.value t i) := .inr ⟨t, i, hL, hU, rfl⟩
    rw [NoIntQuotient]
    exact ⟨by simp only [NoIntQuotientAll]; exact ⟨leaf _ (.inl ⟨_, rfl⟩), leaf _ hx, hw, trivial⟩, fin [_, _]⟩
  · have hx : Leaf L U (.value t i) := .inr ⟨t, i, hL, hU, rfl⟩
    rw [NoIntQuotient]
    exact ⟨by simp only [NoIntQuotientAll]; exact ⟨leaf _ (.inl ⟨_, rfl⟩), hw, leaf _ hx, trivial⟩,
      fun pre l r h => absurd (last (xs := [_, _]) h) (nl _ r hx)⟩

/-- Evaluation of a sum of components. -/
theorem compileC_staged {B : Nat} (hn : n ≠ 0) : ∀ s : CSum, Canonical s → (∀ c ∈ s, Staged n B U c) →
    (∀ c ∈ s, ∃ d, compile n (B + 1) U c.coef = some d) → ∃ c, compileC n (B + 1) U s = some c
  | [], hs, _, _ => absurd rfl hs.1
  | c :: cs, hs, hst, hcm => by
    obtain ⟨b, eb, hbx⟩ := canonical_known hs c (by simp)
    obtain ⟨x, hx⟩ := hcm c (by simp)
    obtain ⟨⟨c', p'⟩, h1⟩ : ∃ d, compileComp n (B + 1) U c = some d := ⟨_, by simp [compileComp, hx, eb, compileBlade]; rfl⟩
    rcases cs with _ | ⟨d, ds⟩
    · exact ⟨_, by simp [compileC, h1]; rfl⟩
    · obtain ⟨t1, t2, t3, t4, t5⟩ := canonical_tail hs (by simp)
      obtain ⟨⟨u, q⟩, h2⟩ := compileC_staged hn (d :: ds) t1 (fun x hx => hst x (by simp at hx ⊢; tauto))
        (fun x hx => hcm x (by simp at hx ⊢; tauto))
      obtain ⟨hp1, hp2⟩ := List.pairwise_cons.1 (canonical_iff.1 hs).2.2.1
      obtain ⟨k1, ho, k2, k3⟩ := compileComp_known (hst c (by simp)) h1
      obtain ⟨⟨hcu, hbu, hwu⟩, -⟩ := compileC_out (d :: ds) u q (by simp)
        (fun x hx => hst x (by simp at hx ⊢; tauto)) hp2 h2
      have hco : IsZero u ∨ c'.coef = .const 0 ∨ ∀ x ∈ u, BeforeC c' x := by
        by_cases h0 : c'.coef = .const 0
        · exact .inr (.inl h0)
        · rcases hbu with hz | hbu
          · exact .inl hz
          · refine .inr (.inr fun x hx => ?_)
            obtain ⟨y, hy, e⟩ := hbu x hx
            exact beforeC_congr_left (beforeC_congr_right (hp1 y hy) e) (k2 h0)
      obtain ⟨m, rfl⟩ := Nat.exists_eq_succ_of_ne_zero hn
      obtain ⟨e, he, -⟩ := addC_front (k := m) k1 hcu hco
      refine ⟨(e, p' ++ q), ?_⟩
      rw [compileC.eq_def]
      simp only [h1, h2, Option.bind_eq_bind, Option.bind_some]
      rw [Nat.succ_eq_add_one, he]
      rfl

/-- Evaluation of sums, products and integer powers in a context. -/
theorem context_frac_total {Ms : List Object} {e : CSum} {A : MV ℝ} (hk : k ≠ 0)
    (hw : Within (Frac (baseId Ms + 1) (baseId Ms + (storedInputs Ms).length)) e)
    (hA : SumDenotes (contextEnv ρ (baseId Ms) (storedInputs Ms)) N e A)
    (hI : ∀ c ∈ e, NoIntQuotient (contextTypes τ (baseId Ms) (storedInputs Ms)) c.coef)
    (hc : ∀ c ∈ e, ∃ d, compile k (baseId Ms + 1) (baseId Ms + (storedInputs Ms).length) c.coef = some d) :
    ∃ o, contextObject k τ ρ Ms e = some o := by
  by_cases hs : (storedInputs Ms).isEmpty = true
  · have he : contextEval k τ ρ Ms e = some (e, [], []) := by simp [contextEval, hs]
    simp only [contextObject, he, Option.bind_eq_bind, Option.bind_some]
    exact ⟨_, rfl⟩
  · have hb : ∀ c ∈ e, Built c.coef := fun c hc => (hA.1 c hc).1
    have hst : ∀ c ∈ e, Staged k (baseId Ms) (baseId Ms + (storedInputs Ms).length) c := fun c h' =>
      ⟨canonical_known hw.1 c h', fun d hd => (compile_out (frac_evaluable (hb c h') (hw.2 c h')) d hd).coef⟩
    obtain ⟨⟨s', code⟩, hcc⟩ := compileC_staged hk e hw.1 hst hc
    obtain ⟨ho, hr⟩ := compileC_out e s' code hw.1.1 hst (canonical_iff.1 hw.1).2.2.1 hcc
    obtain ⟨vs, h1, -⟩ := hr (contextTypes τ (baseId Ms) (storedInputs Ms)) _ ρ N A
      (fun t ht i => ((context_agree ρ _ (storedInputs Ms)) t ht i).imp Eq.symm Eq.symm) hA hI
    simp only [contextObject, contextEval, hs, Bool.false_eq_true, if_false, hcc, h1, Option.bind_eq_bind, Option.bind_some]
    exact ⟨_, rfl⟩

/-! ## Inverses -/

theorem floating_add {args : List Expr} {a : Expr} (ha : a ∈ args) (hf : floating τ a = true) : floating τ (.fn .add args) = true := by
  rw [floating]
  induction args with
  | nil => simp at ha
  | cons b bs ih =>
    rw [floatingAdd]
    rcases List.mem_cons.1 ha with rfl | ha
    · simp [hf]
    · simp [ih ha]

theorem inverse_stored {M : Object} {a e : CSum} (ha : arguments (baseId [M]) [M] = some [a]) (hl : hasStoredC a = false)
    (he : inverseExpr P Q R k a = some e) : inverse P Q R k τ ρ M = contextObject k τ ρ [M] e := by
  simp only [inverseExpr, Option.bind_eq_bind, Option.bind_eq_some_iff, lazyOnly_some] at he
  obtain ⟨s, hs, i, hi, r, hr, u, hu, rfl, he⟩ := he
  have hX : hasStoredC (lazyObject M.floats a).expr = false := hl
  obtain ⟨⟨rv, fl1, e1, e2⟩, hs'⟩ := norm_pure (P := P) (Q := Q) (R := R) (τ := τ) (outer := ρ) hX hs
  obtain ⟨⟨fl3, e4⟩, hr'⟩ := reverse_pure (τ := τ) (outer := ρ) hX hr
  have en : ∃ fl, normSqrObject P Q R k τ ρ (lazyObject M.floats a) = some ⟨fl, s, [], []⟩ := by
    have hl' : ∀ Y ∈ [lazyObject M.floats a], hasStoredC Y.expr = false := by simpa using hX
    unfold normSqrObject Program.runLazy
    rw [arguments_lazy _ hl']
    simp only [List.map_cons, List.map_nil, Option.bind_eq_bind, Option.bind_some, List.zipWith_cons_cons,
      List.zipWith_nil_right, Program.run, List.getElem?_cons_zero]
    have e1' : call1 k τ ρ (gradedMinusC k 0xcccccccccccccccc)
      (lazyObject (lazyObject M.floats a).floats (lazyObject M.floats a).expr) = some rv := e1
    have e2' : call2 k τ ρ (mulC (orthMapping (P + Q + R) (mkSignedFactor P Q R) .sp) k)
      (lazyObject (lazyObject M.floats a).floats (lazyObject M.floats a).expr) rv = some ⟨fl1, s, [], []⟩ := e2
    rw [e1', Option.bind_some, e2', Option.bind_some]
    simp only [contextObject, contextEval_lazy hl', Option.bind_eq_bind, Option.bind_some]
    exact ⟨_, rfl⟩
  obtain ⟨fl5, en⟩ := en
  obtain ⟨⟨fl6, e6⟩, hi'⟩ := pow_pure (τ := τ) (outer := ρ) (X := ⟨fl5, s, [], []⟩) hs' (Y := constObject (-1)) rfl hi
  obtain ⟨fl7, e7⟩ := call2_lazy (k := k) (τ := τ) (outer := ρ) (X := ⟨fl3, r, [], []⟩) (Y := ⟨fl6, i, [], []⟩) hr' hi' hu
  simp only [inverse, ha, Option.bind_eq_bind, Option.bind_some, en, e6, e4, e7]

variable {M : Object} {A : MV ℝ} {a ra : CSum} {args : List Expr}

theorem poly_frac {e : Expr} (h : Poly L U e) : Frac L U e := by
  refine over_induct (motive := Frac L U) ?_ ?_ e h
  · intro e he hp
    cases e with
    | fn name args => exact absurd rfl (he name args)
    | _ => exact hp
  · intro name args h ih
    obtain ⟨h1, h2, h3⟩ := over_fn.1 h
    exact over_fn.2 ⟨h1, ih, fun hn l r e => by obtain ⟨v, -, hv⟩ := h3 hn l r e; exact ⟨v, hv⟩⟩

/-- The variables of the squared norm are floating-point numbers. -/
theorem norm_floating (hf : M.floats = true) {t i : Nat}
    (hp : Poly (baseId [M] + 1) (baseId [M] + (storedInputs [M]).length) (powerOf (.value t i) (.const 2))) :
    Leaf (baseId [M] + 1) (baseId [M] + (storedInputs [M]).length) (.value t i) ∧
      contextTypes τ (baseId [M]) (storedInputs [M]) t = true := by
  have hv : Leaf (baseId [M] + 1) (baseId [M] + (storedInputs [M]).length) (.value t i) := by
    have := (over_fn.1 hp).2.1 (.value t i) (by simp)
    rwa [Over] at this
    all_goals simp
  refine ⟨hv, ?_⟩
  rcases hv with ⟨v, hv⟩ | ⟨t', i', h1, h2, hv⟩
  · cases hv
  · cases hv
    have hl : (storedInputs [M]).length ≤ 1 := by simpa [storedInputs] using List.length_filter_le _ [M]
    have hne : storedInputs [M] = [M] := by
      unfold storedInputs
      by_cases hm : hasStoredC M.expr = true
      · simp [hm]
      · simp [storedInputs, hm] at h2; omega
    rw [hne] at h2 ⊢
    simp only [List.length_singleton] at h2
    have : t = baseId [M] + 1 := by omega
    simp [contextTypes, this, hf]

/-- The reciprocal of the squared norm has a value. -/
theorem reciprocal_value {σ : Env} {v : Expr} {x : ℝ} (hv : V σ v x) (hd : Direct v) (h0 : x ≠ 0) : V σ (powerOf v (.const (-1))) x⁻¹ := by
  have := V.power hv (V.const (-1)) hd (y := ((-1 : ℤ) : ℝ)) (by
    rcases lt_trichotomy x 0 with h | h | h
    · exact .inr (.inr ⟨h, -1, rfl⟩)
    · exact absurd h h0
    · exact .inl h)
  rwa [Real.rpow_intCast, zpow_neg_one] at this

/-- Inverses compile if their coefficients do. -/
theorem inverse_total_of {v w : Expr} {Qt : Expr → Prop} (hN : P + Q + R ≤ 62) (h : NormType P Q R ρ M A a ra v)
    (hc : isConstant v = false) (hcw : isConstant w = false) (hstw : hasStored w = false)
    (hinv : Ev (fun k => simp k .pow v (.const (-1))) w)
    (vw : V (contextEnv ρ (baseId [M]) (storedInputs [M])) w (rnormSqr (signedProd P Q R) A)⁻¹)
    (fw : Frac (baseId [M] + 1) (baseId [M] + (storedInputs [M]).length) w) (hQ0 : Qt (.const 0))
    (hq : ∀ c ∈ ra, ∃ z, Ev (fun j => simp j .mul c.coef w) z ∧ Qt z)
    (hQI : ∀ z, Qt z → NoIntQuotient (contextTypes τ (baseId [M]) (storedInputs [M])) z)
    (hQc : ∃ k0, ∀ k, k0 ≤ k → ∀ z, Evaluable (baseId [M] + 1) (baseId [M] + (storedInputs [M]).length) .num z → Qt z →
      ∃ c, compile k (baseId [M] + 1) (baseId [M] + (storedInputs [M]).length) z = some c) :
    ∃ k0, ∀ k, k0 ≤ k → ∃ o, inverse P Q R k τ ρ M = some o ∧
      Stands ρ (P + Q + R) o ((rnormSqr (signedProd P Q R) A)⁻¹ • GATL.reverse A) := by
  have hw0 : w ≠ .const 0 := ne_const hcw 0
  have e1 : Ev (fun k => powExpr k [⟨v, .const 0⟩] (constSum (-1))) [⟨w, .const 0⟩] :=
    hinv.bind (lazyOnly_ev (scalar_stored hstw))
  have e2 : Ev (fun k => reverseExpr k a) ra := h.rev.bind (lazyOnly_ev (within_stored poly_stored h.revPoly))
  have hU := (orth_unit hN (factor := mkRealFactor) (fun b => ⟨1, rfl⟩) (q := fun _ => 1) (fun ρ b w h => by
    have : diagFactor (fun _ => (1 : ℝ)) w = 1 := by simp [diagFactor]
    rw [this]
    exact Props.realFactor_ok ρ b w h) (.inr rfl : (63 : Nat) = P + Q + R ∨ (63 : Nat) = 63)).1
  obtain ⟨e, e3⟩ := scale_right_total (N := P + Q + R) (orth_sign hN (by omega) le_rfl (f := mkRealFactor)
    (fun b => ⟨1, rfl, by simp⟩) .gp) hU (w := w) hw0 ra
    h.revPoly.1 (in_of h.revPoly.1 h.revDenotes) (inSpaceC_of h.revDenotes) fun c hc => by
      obtain ⟨z, hz, -⟩ := hq c hc
      exact ⟨z, hz⟩
  -- its value
  have dw : SumDenotes (contextEnv ρ (baseId [M]) (storedInputs [M])) (P + Q + R) [⟨w, .const 0⟩]
    (Finsupp.single 0 (rnormSqr (signedProd P Q R) A)⁻¹) := single_denotes vw.1 vw.2
  have ww : Within (Frac (baseId [M] + 1) (baseId [M] + (storedInputs [M]).length)) [⟨w, .const 0⟩] :=
    ⟨canonical_single ⟨0, rfl, by simp [vecs]⟩, fun c hc => by rw [List.mem_singleton.1 hc]; exact fw⟩
  have we := e3.fact (p := fun e => Within (Frac (baseId [M] + 1) (baseId [M] + (storedInputs [M]).length)) e) fun k y hy =>
    within_mul frac_const frac_closed (orthMapping_const le_rfl (f := mkRealFactor) (fun b => ⟨1, rfl⟩) .gp) k _ _ _
      (within_mono (fun _ => poly_frac) h.revPoly) ww hy
  have de := e3.fact (p := fun e => SumDenotes (contextEnv ρ (baseId [M]) (storedInputs [M])) (P + Q + R) e
      ((rnormSqr (signedProd P Q R) A)⁻¹ • GATL.reverse A)) fun k y hy => by
    have key := Props.C23_scalar_operand _ (P + Q + R) 0 0 (by omega) .gp k _ _ y _ _ (.inr ⟨_, rfl⟩) h.revDenotes dw hy
    generalize (rnormSqr (signedProd P Q R) A)⁻¹ = x at key ⊢
    unfold signedProd at key
    rw [signedFactor_cast (P + Q + R) 0 0 (by omega)] at key
    rwa [show orthProd _ .gp (GATL.reverse A) (Finsupp.single 0 x) = _ from
      gp_scalar_right _ _ (GATL.reverse A)] at key
  have qe := e3.fact (p := fun e => ∀ c ∈ e, Qt c.coef) fun k y hy =>
    (scale_right hU hQ0 hw0 ra k y h.revPoly.1 (inSpaceC_of h.revDenotes)
    (fun c hc j z hz => by
      obtain ⟨z', hz', hq⟩ := hq c hc
      rwa [simp_eq hz' hz]) hy).1.2
  obtain ⟨k1, hk1⟩ : Ev (fun k => inverseExpr P Q R k a) e :=
    h.expr.bind (e1.bind (e2.bind (e3.bind (lazyOnly_ev (within_stored frac_stored we)))))
  obtain ⟨k2, hk2⟩ := hQc
  refine ⟨max (max k1 k2) 1, fun k hk => ?_⟩
  rw [inverse_stored h.args (leaf_stored h.leaf) (hk1 k (by omega))]
  have hI : ∀ c ∈ e, NoIntQuotient (contextTypes τ (baseId [M]) (storedInputs [M])) c.coef := fun c hc' => hQI _ (qe c hc')
  obtain ⟨o, ho⟩ := context_frac_total (τ := τ) (k := k) (by omega) we de hI fun c hc' =>
    hk2 k (by omega) _ (frac_evaluable (de.1 c hc').1 (we.2 c hc')) (qe c hc')
  refine ⟨o, ho, stands_iff.2 (contextEval_frac we de ?_ hI (contextObject_eval ho))⟩
  intro hno
  have := (evaluable_context (poly_evaluable h.built h.poly)).2.2 (by rw [hno]; simp)
  rw [hc] at this
  cases this

theorem inverse_total (hN : P + Q + R ≤ 62) (h : NormType P Q R ρ M A a ra (.fn .add args)) (hf : M.floats = true)
    (hc : isConstant (.fn .add args) = false) (hsq : ∃ b ∈ args, ∃ t i, b = powerOf (.value t i) (.const 2) ∨
      ∃ c, b = .fn .mul [.const c, powerOf (.value t i) (.const 2)])
    (h0 : rnormSqr (signedProd P Q R) A ≠ 0) : ∃ k0, ∀ k, k0 ≤ k → ∃ o, inverse P Q R k τ ρ M = some o ∧
      Stands ρ (P + Q + R) o ((rnormSqr (signedProd P Q R) A)⁻¹ • GATL.reverse A) := by
  have hst := poly_stored _ h.poly
  have hfl : floating (contextTypes τ (baseId [M]) (storedInputs [M])) (.fn .add args) = true := by
    obtain ⟨b, hb, t, i, hbt⟩ := hsq
    have hpb : Poly (baseId [M] + 1) (baseId [M] + (storedInputs [M]).length) b := (over_fn.1 h.poly).2.1 b hb
    refine floating_add hb ?_
    rcases hbt with rfl | ⟨c, rfl⟩
    · have ht := (norm_floating (τ := τ) hf hpb).2
      simp [floating, ht]
    · have ht := (norm_floating (τ := τ) hf ((over_fn.1 hpb).2.1 (powerOf (.value t i) (.const 2)) (by simp))).2
      simp [floating, floatingMul, ht]
  have hcw : isConstant (reciprocal args) = false := by
    simp only [isConstant, isConstantAll] at hc ⊢
    simp [hc]
  have hstw : hasStored (reciprocal args) = false := by simp only [hasStored, hasStoredAny] at hst ⊢; simp [hst]
  have hsl := h.rev.fact (p := fun e => ∀ d ∈ e, SignedLeaf (baseId [M] + 1) (baseId [M] + (storedInputs [M]).length) d.coef)
    fun k y hy => reverse_leaf h.leaf hy
  obtain ⟨k2, hk2⟩ := h.ge hc
  have gw := fun k (hk : max k2 2 ≤ k) => ge_power_total (n := k) (by omega) (hk2 k (by omega)) hc ⟨by simp, by simp⟩
    (exponent_const (-1)) (by decide) (by decide) (compile_const (-1))
  refine inverse_total_of (w := reciprocal args) (Qt := Quotient (baseId [M] + 1) (baseId [M] + (storedInputs [M]).length) (reciprocal args))
    hN h hc hcw hstw (ev_simp (pow_opaque (n := 0) (ne_const hc) rfl rfl (by decide) (by decide)))
    (reciprocal_value ⟨h.built, h.value⟩ ⟨by simp, by simp⟩ h0)
    (over_fn.2 ⟨by simp [Alg], by simp [poly_frac h.poly, frac_const], fun _ l r e => by cases e; exact ⟨-1, rfl⟩⟩) (.inl rfl)
    (fun c hc => quotient_total hcw (hsl c hc)) (fun z hz => quotient_noInt ((gw _ le_rfl).noInt _) (fun r e => by cases e; exact hfl) hz)
    ⟨max k2 2, fun k hk z hz hq => ?_⟩
  obtain ⟨m, rfl⟩ : ∃ m, k = m + 2 := ⟨k - 2, by omega⟩
  exact quotient_compile (gw _ hk) hcw hz hq

end GATL.Total
