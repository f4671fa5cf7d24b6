import Verif.Proofs.Quadratic
import Verif.Proofs.Unit

/-!
The type of the scalar product of a multivector with itself or with its reverse: a sum of squares.
-/

namespace GATL

open Expr Spec

variable {ρ outer : Env} {τ : Types} {N n k L U : Nat}

/-! ### Products of variables -/

theorem value_opaque (t i : Nat) : Opaque (.value t i) := ⟨rfl, rfl, rfl, rfl⟩

theorem square_value {t i : Nat} {z : Expr} (h : simp n .mul (.value t i) (.value t i) = some z) :
    z = powerOf (.value t i) (.const 2) := by
  refine simp_eq h (k := 2) ?_
  rw [mul_self (by simp) rfl rfl]
  exact pow_opaque (by simp) rfl rfl (by simp) (by simp)

theorem minus_value (t i : Nat) : simp (n + 1) .mul (.const (-1)) (.value t i)
    = some (.fn .mul [.const (-1), .value t i]) := by
  show applyRules (mulRules (simp n)) (.const (-1)) (.value t i) = _
  unfold mulRules
  rw [applyRules_skip (by simp [mulZero]), applyRules_skip (by simp [mulOne]),
    applyRules_skip (by simp [mulDistribute, asAdd]),
    applyRules_skip (by simp [mulHelper, asMul, mulCollect1]),
    applyRules_skip (by simp [mulHelper, asMul, mulCollect2, asPower]),
    applyRules_skip (by simp [mulHelper, asMul, mulCollect3, asPower]),
    applyRules_skip (by simp [mulHelper, asMul, mulConst1, asConst, asRecip]),
    applyRules_skip (by simp [mulConst2, asConst, asRecip])]
  have : lt (.const (-1)) (.value t i) = true := rfl
  exact applyRules_fire (o := some (.fn .mul [.const (-1), .value t i]))
    (by simp [mulMergeLt, asMul, this, mkMul, fire])

theorem minus_square (t i : Nat) : simp (n + 1) .mul (.const (-1)) (powerOf (.value t i) (.const 2))
    = some (.fn .mul [.const (-1), powerOf (.value t i) (.const 2)]) := by
  show applyRules (mulRules (simp n)) (.const (-1)) (powerOf (.value t i) (.const 2)) = _
  unfold mulRules
  rw [applyRules_skip (by simp [mulZero]), applyRules_skip (by simp [mulOne]),
    applyRules_skip (by simp [mulDistribute, asAdd]),
    applyRules_skip (by simp [mulHelper, asMul, mulCollect1]),
    applyRules_skip (by simp [mulHelper, asMul, mulCollect2, asPower]),
    applyRules_skip (by simp [mulHelper, asMul, mulCollect3, asPower]),
    applyRules_skip (by simp [mulHelper, asMul, mulConst1, asConst, asRecip]),
    applyRules_skip (by simp [mulConst2, asConst, asRecip])]
  have : lt (.const (-1)) (powerOf (.value t i) (.const 2)) = true :=
    Quad.lt_const_nc (.inl ⟨_, rfl, rfl, t, i, rfl⟩) _
  exact applyRules_fire (o := some (.fn .mul [.const (-1), powerOf (.value t i) (.const 2)]))
    (by simp [mulMergeLt, asMul, this, mkMul, fire])

theorem value_minus {t i : Nat} {z : Expr}
    (h : simp n .mul (.value t i) (.fn .mul [.const (-1), .value t i]) = some z) :
    z = .fn .mul [.const (-1), powerOf (.value t i) (.const 2)] := by
  refine simp_eq h (k := 3 + 1) ?_
  show applyRules (mulRules (simp 3)) (.value t i) (.fn .mul [.const (-1), .value t i]) = _
  unfold mulRules
  rw [applyRules_skip (by simp [mulZero]), applyRules_skip (by simp [mulOne]),
    applyRules_skip (by simp [mulDistribute, asAdd]),
    applyRules_skip (by simp [mulHelper, asMul, mulCollect1]),
    applyRules_skip (by simp [mulHelper, asMul, mulCollect2, asPower]),
    applyRules_skip (by simp [mulHelper, asMul, mulCollect3, asPower]),
    applyRules_skip (by simp [mulHelper, asMul, mulConst1, asConst, asRecip]),
    applyRules_skip (by simp [mulConst2, asConst, asRecip])]
  have h1 : lt (.value t i) (.const (-1)) = false := rfl
  have h2 : lt (.const (-1)) (.value t i) = true := rfl
  rw [applyRules_skip (by simp [mulMergeLt, asMul, h1])]
  have h3 : simp 3 .mul (.value t i) (.value t i) = some (powerOf (.value t i) (.const 2)) := by
    rw [mul_self (by simp) rfl rfl]
    exact pow_opaque (by simp) rfl rfl (by simp) (by simp)
  exact applyRules_fire (o := some (.fn .mul [.const (-1), powerOf (.value t i) (.const 2)]))
    (by simp [mulMergeGt, asMul, h2, mkMul, h3, minus_square])

/-- A leaf times itself or times its opposite. -/
theorem leaf_square {x y z : Expr} (hx : Leaf L U x) (hy : y = x ∨ ∃ j, simp j .mul (.const (-1)) x = some y)
    (h : simp n .mul x y = some z) : Quad.Mono z := by
  rcases hx with ⟨v, rfl⟩ | ⟨t, i, -, -, rfl⟩
  · have : ∃ w, y = .const w := by
      rcases hy with rfl | ⟨j, hj⟩
      · exact ⟨_, rfl⟩
      · exact mul_const_const hj
    obtain ⟨w, rfl⟩ := this
    exact .inl (mul_const_const h)
  · rcases hy with rfl | ⟨j, hj⟩
    · exact .inr (.inl ⟨_, square_value h, rfl, t, i, rfl⟩)
    · obtain rfl := simp_eq hj (minus_value (n := 0) t i)
      exact .inr (.inr ⟨-1, _, value_minus h, ⟨_, rfl, rfl, t, i, rfl⟩, by decide⟩)

/-- A summand times a constant. -/
theorem mono_const (k : Nat) : ∀ {c : Int} {m e : Expr}, Quad.Mono m →
    simp k .mul m (.const c) = some e → Quad.Mono e := by
  cases k with
  | zero => intro c m e _ h; simp [simp] at h
  | succ k =>
    intro c m e hm h
    rcases id hm with ⟨d, rfl⟩ | ⟨b, rfl, hb, hv⟩ | ⟨d, a, rfl, ⟨b, rfl, hb, hv⟩, hkd⟩
    · exact .inl (mul_const_const h)
    · change applyRules (mulRules (simp k)) _ _ = _ at h
      unfold mulRules at h
      rcases applyRules_cons h with hr | ⟨-, h⟩
      · rw [mulZero] at hr
        by_cases h0 : c = 0
        · simp [h0] at hr
          exact .inl ⟨0, hr.symm⟩
        · simp [h0] at hr
      rcases applyRules_cons h with hr | ⟨-, h⟩
      · rw [mulOne] at hr
        by_cases h0 : c = 1
        · simp [h0] at hr
          exact hr ▸ hm
        · simp [h0] at hr
      have hne : b ≠ .const c := by rintro rfl; simp [isConstant] at hb
      rcases applyRules_cons h with hr | ⟨-, h⟩
      · simp [mulDistribute, asAdd] at hr
      rcases applyRules_cons h with hr | ⟨-, h⟩
      · simp [mulHelper, asMul, mulCollect1] at hr
      rcases applyRules_cons h with hr | ⟨-, h⟩
      · simp [mulHelper, asMul, mulCollect2, asPower, hne] at hr
      rcases applyRules_cons h with hr | ⟨-, h⟩
      · simp [mulHelper, asMul, mulCollect3, asPower] at hr
      rcases applyRules_cons h with hr | ⟨-, h⟩
      · simp [mulHelper, asMul, mulConst1, asConst, asRecip] at hr
      rcases applyRules_cons h with hr | ⟨-, h⟩
      · cases b <;> simp [mulConst2, asConst, asRecip] at hr
      have hnc : Quad.NC (.fn .power [b, .const 2]) := .inl ⟨b, rfl, hb, by assumption⟩
      rcases applyRules_cons h with hr | ⟨-, h⟩
      · simp [mulMergeLt, asMul, Quad.lt_nc_const hnc] at hr
      rcases applyRules_cons h with hr | ⟨hr, h⟩
      · simp only [mulMergeGt, asMul, Quad.lt_const_nc hnc, if_true, fire_some, mkMul] at hr
        split_ifs at hr
        obtain rfl := Option.some.inj hr
        exact .inr (.inr ⟨c, _, rfl, ⟨b, rfl, hb, by assumption⟩, Quad.factor_ne (by assumption)⟩)
      · simp only [mulMergeGt, asMul, Quad.lt_const_nc hnc, if_true] at hr
        exact absurd hr fire_ne
    · have ha : Quad.Mono (.fn .power [b, .const 2]) := .inr (.inl ⟨b, rfl, hb, hv⟩)
      change applyRules (mulRules (simp k)) _ _ = _ at h
      unfold mulRules at h
      rcases applyRules_cons h with hr | ⟨-, h⟩
      · rw [mulZero] at hr
        by_cases h0 : c = 0
        · simp [h0] at hr
          exact .inl ⟨0, hr.symm⟩
        · simp [h0] at hr
      rcases applyRules_cons h with hr | ⟨-, h⟩
      · rw [mulOne] at hr
        by_cases h0 : c = 1
        · simp [h0] at hr
          exact hr ▸ hm
        · simp [h0] at hr
      rcases applyRules_cons h with hr | ⟨-, h⟩
      · simp [mulDistribute, asAdd] at hr
      rcases applyRules_cons h with hr | ⟨-, h⟩
      · simp only [mulHelper, asMul, mulCollect1] at hr
        split_ifs at hr
        · cases hp : simp k .pow (.const d) (.const 2) with
          | none => simp [fire, hp] at hr
          | some p =>
            obtain ⟨q, rfl⟩ := pow_two_const hp
            simp only [fire, hp, Option.map_some, Option.bind_eq_bind, Option.bind_some, mkMul] at hr
            simp at hr
            exact Quad.mul_mono k ha hr
        · simp at hr
      rcases applyRules_cons h with hr | ⟨-, h⟩
      · simp [mulHelper, asMul, mulCollect2, asPower] at hr
      rcases applyRules_cons h with hr | ⟨-, h⟩
      · simp [mulHelper, asMul, mulCollect3, asPower] at hr
      rcases applyRules_cons h with hr | ⟨hr, h⟩
      · simp only [mulHelper, asMul, mulConst1, asConst] at hr
        cases hp : i64 (d * c) with
        | none => simp [fire, mkConst, hp] at hr
        | some p =>
          simp [fire, mkConst, hp, mkMul] at hr
          exact Quad.mul_mono k ha hr
      · simp only [mulHelper, asMul, mulConst1, asConst] at hr
        cases hp : i64 (d * c) with
        | none => simp [fire, mkConst, hp] at hr
        | some p => simp [fire, mkConst, hp, mkMul] at hr

/-! ### The scalar product -/

/-- A scalar whose coefficient is a sum of squares. -/
def ScalarQuad (e : CSum) : Prop := ∃ c, e = [c] ∧ (c.coef = .const 0 ∨ c.blade = .const 0 ∧ Quad.Lin c.coef)

theorem scalarQuad_add {a b e : CSum} (ha : ScalarQuad a) (hb : ScalarQuad b) (h : addC k a b = some e) :
    ScalarQuad e := by
  obtain ⟨c, rfl, hc⟩ := ha
  obtain ⟨d, rfl, hd⟩ := hb
  cases k with
  | zero => simp [addC] at h
  | succ k =>
    unfold addC at h
    simp only [and_true] at h
    by_cases hc0 : c.coef = .const 0
    · rw [if_pos hc0] at h
      by_cases hd0 : d.coef = .const 0
      · rw [if_pos hd0] at h
        cases h
        exact ⟨c, rfl, hc⟩
      · rw [if_neg hd0] at h
        cases h
        exact ⟨d, rfl, hd⟩
    · rw [if_neg hc0] at h
      by_cases hd0 : d.coef = .const 0
      · rw [if_pos hd0] at h
        cases h
        exact ⟨c, rfl, hc⟩
      · rw [if_neg hd0] at h
        obtain ⟨b1, l1⟩ := hc.resolve_left hc0
        obtain ⟨b2, l2⟩ := hd.resolve_left hd0
        rw [if_pos (by rw [b1, b2])] at h
        simp only [Option.bind_eq_bind, Option.bind_eq_some_iff, Option.some.injEq] at h
        obtain ⟨x, hx, rfl⟩ := h
        have hl := Quad.add_lin k l1 l2 hx
        have hg : (Blade.const 0).grades ≠ 0 := by decide
        refine ⟨_, rfl, .inr ?_⟩
        rw [b1, mkComp, if_neg hg]
        exact ⟨by split <;> rfl, hl⟩

theorem mul_zero_right {z y : Expr} (h : simp n .mul z (.const 0) = some y) : y = .const 0 := by
  refine simp_eq h (k := 1) ?_
  show applyRules (mulRules (simp 0)) z (.const 0) = _
  unfold mulRules
  exact applyRules_fire (o := some (.const 0)) (by simp [mulZero, fire])

/-- The scalar product of two basis blades. -/
theorem sp_const (hN : N ≤ 62) {factor : Expr → Expr} (hc : ∀ b, IsConst (factor (.cbits b))) {q : Fin 64 → ℝ}
    (hf : ∀ ρ b w, BV ρ b w → V ρ (factor b) (diagFactor q w)) {l r : Word} {es : CSum}
    (hl : ∀ i ∈ vecs l, i.val < N) (hr : ∀ i ∈ vecs r, i.val < N)
    (h : orthMapping N factor .sp k (.const l) (.const r) = some es) :
    ∃ v b, es = [⟨.const v, .const b⟩] ∧ (v = 0 ∨ l = r ∧ b = 0) := by
  obtain ⟨ρ⟩ := mapping_env
  obtain ⟨⟨c, bl⟩, rfl, ⟨v, e⟩, ⟨b', eb, -⟩⟩ := orthMapping_const (dims := N) (by omega) hc .sp k l r es
    (fun i hi => by have := hl i hi; omega) (fun i hi => by have := hr i hi; omega) h
  dsimp only at e eb
  subst e eb
  obtain ⟨-, A, hA, -, hs⟩ := orthMapping_ok (ρ := ρ) hN (hf ρ) .sp N k (.const l) (.const r) _ (.const l) (.const r) 1
    (.inl rfl) h (fun _ _ h => by cases h) (fun _ _ h => by cases h) rfl rfl hl hr
  obtain ⟨⟨z, t⟩, A', ⟨hz, ht⟩, hA', rfl⟩ := List.forall₂_cons_left_iff.1 hA
  obtain rfl := List.forall₂_nil_left_iff.1 hA'
  have ht : t = .const b' := ht
  have hz' : some (Val.num (v : ℝ)) = some (.num z) := hz
  simp only [Option.some.injEq, Val.num.injEq] at hz'
  subst ht hz'
  have hsp := sp_single (diagFactor q) l r (1 : ℝ) 1
  unfold orthProd at hsp
  simp only [List.map_cons, List.map_nil, List.sum_cons, List.sum_nil, add_zero, one_mul, one_smul,
    TBlade.bits] at hs
  rw [hsp] at hs
  refine ⟨v, b', rfl, ?_⟩
  rcases Finsupp.single_eq_single_iff .. |>.1 hs with ⟨rfl, h1⟩ | ⟨h1, -⟩
  · by_cases hlr : l = r
    · exact .inr ⟨hlr, rfl⟩
    · rw [if_neg hlr] at h1
      exact .inl (by simpa using h1)
  · exact .inl (by exact_mod_cast h1)

section
variable {factor : Expr → Expr} (hc : ∀ b, IsConst (factor (.cbits b))) {q : Fin 64 → ℝ}
  (hf : ∀ ρ b w, BV ρ b w → V ρ (factor b) (diagFactor q w)) (hN : N ≤ 62)
include hc hf hN

theorem scalarQuad_mul (k : Nat) : ∀ {a b e : CSum}, (∀ c ∈ a, Known c) → (∀ c ∈ b, Known c) →
    InSpaceC N a → InSpaceC N b → (∀ c ∈ a, ∀ d ∈ b, c.blade = d.blade → ∀ j z, simp j .mul c.coef d.coef = some z → Quad.Mono z) →
    mulC (orthMapping N factor .sp) k a b = some e → ScalarQuad e := by
  induction k with
  | zero => intro a b e _ _ _ _ _ h; simp [mulC] at h
  | succ k ih =>
    intro a b e ka kb ha hb H h
    cases a with
    | nil => simp [mulC] at h
    | cons x as =>
    cases b with
    | nil => simp [mulC] at h
    | cons y bs =>
    have sub : ∀ {a' b' : CSum} {e' : CSum}, a' ⊆ x :: as → b' ⊆ y :: bs →
        mulC (orthMapping N factor .sp) k a' b' = some e' → ScalarQuad e' := fun h1 h2 h3 =>
      ih (fun c hc => ka c (h1 hc)) (fun c hc => kb c (h2 hc)) (fun c hc => ha c (h1 hc)) (fun d hd => hb d (h2 hd)) (fun c hc d hd => H c (h1 hc) d (h2 hd)) h3
    unfold mulC at h
    by_cases h1 : x.coef = .const 0 ∧ as = []
    · rw [if_pos h1] at h
      cases h
      exact ⟨x, rfl, .inl h1.1⟩
    rw [if_neg h1] at h
    by_cases h2 : y.coef = .const 0 ∧ bs = []
    · rw [if_pos h2] at h
      cases h
      exact ⟨y, rfl, .inl h2.1⟩
    rw [if_neg h2] at h
    split at h
    · simp only [Option.bind_eq_bind, Option.bind_eq_some_iff] at h
      obtain ⟨z, hz, es, hes, h⟩ := h
      obtain ⟨l, el, -⟩ := ka x (by simp)
      obtain ⟨r, er, -⟩ := kb y (by simp)
      have hl := ha x (by simp) l el
      have hr := hb y (by simp) r er
      rw [el, er] at hes
      obtain ⟨v, b, rfl, hv⟩ := sp_const hN hc hf hl hr hes
      simp only [distribute, Option.bind_eq_bind, Option.bind_eq_some_iff, Option.some.injEq] at h
      obtain ⟨w, hw, rfl⟩ := h
      refine ⟨_, rfl, ?_⟩
      rcases hv with rfl | ⟨rfl, rfl⟩
      · left
        obtain rfl := mul_zero_right hw
        unfold mkComp
        dsimp only
        split <;> rfl
      · right
        have hg : (Blade.const 0).grades ≠ 0 := by decide
        have hm := mono_const k (H x (by simp) y (by simp) (el.trans er.symm) _ _ hz) hw
        rw [mkComp, if_neg hg]
        exact ⟨by split <;> rfl, .inl hm⟩
    all_goals simp only [Option.bind_eq_bind, Option.bind_eq_some_iff] at h
    · obtain ⟨u, hu, v, hv, h⟩ := h
      exact scalarQuad_add (sub (by simp) (by simp) hu) (sub (by simp) (by simp) hv) h
    · obtain ⟨u, hu, v, hv, h⟩ := h
      exact scalarQuad_add (sub (by simp) (by simp) hu) (sub (by simp) (by simp) hv) h
    · obtain ⟨u1, h1, u2, h2, u, hu, v1, h3, v2, h4, v, hv, h⟩ := h
      exact scalarQuad_add (scalarQuad_add (sub (by simp) (by simp) h1) (sub (by simp) (by simp) h2) hu)
        (scalarQuad_add (sub (by simp) (by simp) h3) (sub (by simp) (by simp) h4) hv) h

end

/-- What the components of a reverse, involution or conjugation look like. -/
def Minus (s : CSum) (d : Comp) : Prop := d.coef = .const 0 ∨ ∃ c ∈ s, d.blade = c.blade ∧
  (d.coef = c.coef ∨ ∃ j, simp j .mul (.const (-1)) c.coef = some d.coef)

theorem minus_comps {pattern : Word} : ∀ {s e : CSum}, Canonical s → gradedMinusC k pattern s = some e →
    Canonical e ∧ ∀ d ∈ e, Minus s d := by
  have hcomp : ∀ c c', Known c → gradedMinusComp k pattern c = some c' → Known c' ∧ Minus [c] c' := by
    intro c c' hk h
    simp only [gradedMinusComp, Option.bind_eq_bind, Option.bind_eq_some_iff] at h
    obtain ⟨x, hx, h⟩ := h
    obtain ⟨b, e1, hb⟩ := id hk
    rw [e1] at h
    simp only [Option.some.injEq] at h
    subst h
    split
    · exact ⟨hk, .inr ⟨c, by simp, rfl, .inl rfl⟩⟩
    · rw [← e1]
      have hm := mkComp_known (c := x) hk
      refine ⟨hm.1, ?_⟩
      by_cases h0 : x = .const 0
      · exact .inl (by rw [hm.2.1, h0])
      · exact .inr ⟨c, by simp, hm.2.2 h0, .inr ⟨k, by rw [hm.2.1]; exact hx⟩⟩
  intro s
  induction s with
  | nil => intro e _ h; simp [gradedMinusC] at h
  | cons c cs ih =>
    intro e hs h
    have kc := canonical_known hs c (by simp)
    rcases cs with _ | ⟨d, ds⟩
    · simp only [gradedMinusC, Option.bind_eq_bind, Option.bind_eq_some_iff, Option.some.injEq] at h
      obtain ⟨c', hc, rfl⟩ := h
      obtain ⟨h1, h2⟩ := hcomp c c' kc hc
      exact ⟨canonical_single h1, by simpa using h2⟩
    · simp only [gradedMinusC, Option.bind_eq_bind, Option.bind_eq_some_iff] at h
      obtain ⟨c', hc, u, hu, h⟩ := h
      obtain ⟨h1, h2⟩ := hcomp c c' kc hc
      obtain ⟨hcs, hbef, -, -, -⟩ := canonical_tail hs (by simp)
      obtain ⟨h3, h4⟩ := ih hcs hu
      have hfront : IsZero u ∨ c'.coef = .const 0 ∨ ∀ d ∈ u, BeforeC c' d := by
        by_cases hz : IsZero u
        · exact .inl hz
        by_cases h0 : c'.coef = .const 0
        · exact .inr (.inl h0)
        right; right
        intro x hx
        obtain ⟨y, hy, ey, -⟩ := (h4 x hx).resolve_left
          ((canonical_iff.1 h3).2.2.2.resolve_left hz x hx)
        obtain ⟨z, hz', ez, -⟩ := h2.resolve_left h0
        obtain rfl := List.mem_singleton.1 hz'
        intro a b ea eb
        exact hbef y hy a b (ez ▸ ea) (ey ▸ eb)
      obtain ⟨h5, -, h6⟩ := addC_front_eq h1 h3 hfront h
      refine ⟨h5, ?_⟩
      have m1 : Minus (c :: d :: ds) c' := h2.imp id fun ⟨x, hx, h⟩ => ⟨x, by simp_all, h⟩
      have m2 : ∀ x ∈ u, Minus (c :: d :: ds) x := fun x hx =>
        (h4 x hx).imp id fun ⟨y, hy, h⟩ => ⟨y, List.mem_cons_of_mem _ hy, h⟩
      rcases h6 with ⟨-, -, rfl⟩ | ⟨-, -, rfl⟩ | ⟨-, -, rfl⟩ | ⟨-, -, rfl⟩
      · simpa using m1
      · exact m2
      · simpa using m1
      · intro x hx
        rcases List.mem_cons.1 hx with rfl | hx
        · exact m1
        · exact m2 x hx

theorem canonical_inj {s : CSum} (h : Canonical s) {c d : Comp} (hc : c ∈ s) (hd : d ∈ s)
    (e : c.blade = d.blade) : c = d := by
  obtain ⟨-, hk, hp, -⟩ := canonical_iff.1 h
  clear h
  induction s with
  | nil => simp at hc
  | cons x xs ih =>
    rw [List.pairwise_cons] at hp
    rcases List.mem_cons.1 hc with rfl | hc' <;> rcases List.mem_cons.1 hd with rfl | hd'
    · rfl
    · exact absurd e (beforeC_ne (hk _ (by simp)) (hp.1 _ hd'))
    · exact absurd e.symm (beforeC_ne (hk _ (by simp)) (hp.1 _ hc'))
    · exact ih hc' hd' (fun c hc => hk c (by simp [hc])) hp.2

/-- Products of the components of a sum of leaves with those of its reverse. -/
theorem reverse_square {s : CSum} (hs : Within (Leaf L U) s) {c d : Comp} (hc : c ∈ s) (hd : Minus s d)
    (e : c.blade = d.blade) (j : Nat) (z : Expr) (h : simp j .mul c.coef d.coef = some z) : Quad.Mono z := by
  rcases hd with h0 | ⟨c', hc', e', hd⟩
  · rw [h0] at h
    exact .inl ⟨0, mul_zero_right h⟩
  · obtain rfl := canonical_inj hs.1 hc hc' (e.trans e')
    exact leaf_square (hs.2 c hc) hd h

section
variable {P Q R : Nat}

/-- The type of the squared norm of a plain multivector is a sum of squares. -/
theorem normCoef_lin (hN : P + Q + R ≤ 62) {M : Object} {A : MV ℝ} (hM : Represents outer (P + Q + R) M A) {v : Expr}
    (hv : normCoef P Q R k M = some v) : Quad.Lin v := by
  obtain ⟨as, h1, h2, h3, -⟩ := arguments_ok (outer := outer) (Ms := [M]) (As := [A]) (by omega) (.cons hM .nil)
  obtain ⟨a, as', d1, h3', rfl⟩ := List.forall₂_cons_right_iff.1 h3
  obtain rfl := List.forall₂_nil_right_iff.1 h3'
  have w1 := h2 a (by simp)
  simp only [normCoef, h1, Option.bind_eq_bind, Option.bind_some, Option.bind_eq_some_iff] at hv
  obtain ⟨ra, hra, sa, hsa, hv⟩ := hv
  obtain rfl := scalarCoef_inv hv
  obtain ⟨c1, c2⟩ := minus_comps w1.1 hra
  obtain ⟨c, ec, hc⟩ := scalarQuad_mul (mkSignedFactor_const P Q R) (signed_factor hN) hN k
    (canonical_known w1.1) (canonical_known c1) (inSpaceC_of d1)
    (inSpaceC_of ((good_reverse (by omega)).denotes _ _ _ _ d1 hra))
    (fun c hc d hd e => reverse_square w1 hc (c2 d hd) e) hsa
  cases ec
  rcases hc with h0 | ⟨-, h⟩
  · exact .inl (.inl ⟨0, h0⟩)
  · exact h

end

end GATL
