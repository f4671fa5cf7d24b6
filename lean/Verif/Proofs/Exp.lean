import Verif.Proofs.ExpAdd
import Verif.Spec.Exp

/-!
The exponential of a blade: the types that `exp` computes and what they denote.
-/

namespace GATL

open Expr Spec

variable {ρ outer : Env} {τ : Types} {N n k L U : Nat}

/-! ### Products and choices -/

/-- The product of two expressions that share nothing. -/
theorem mul_pair {x w z : Expr} (hx : isConstant x = false) (hc : isConstant w = false) (l1 : asAdd x = none)
    (l2 : asMul x = none) (l3 : asPower x = none) (ha : asAdd w = none) (hm : asMul w = none)
    (hp : ∀ b q, asPower w = some (b, q) → b ≠ x) (hne : x ≠ w) (h : simp n .mul x w = some z) :
    z = .fn .mul [x, w] ∨ z = .fn .mul [w, x] := by
  cases n with
  | zero => simp [simp] at h
  | succ n =>
    have hw := ne_const hc
    have hx' := ne_const hx
    have l4 := asRecip_var hx
    change applyRules (mulRules (simp n)) x w = _ at h
    unfold mulRules at h
    rw [applyRules_skip (by simp [mulZero, hx', hw]), applyRules_skip (by simp [mulOne, hx', hw]),
      applyRules_skip (by simp [mulDistribute, l1, ha]),
      applyRules_skip (by simp [mulHelper, l2, hm, mulCollect1, hne])] at h
    have hc2 : mulCollect2 (simp n) x w = some none := by
      unfold mulCollect2
      rw [l3]
      cases hw' : asPower w with
      | none => rfl
      | some p => obtain ⟨b, q⟩ := p; simp [hp b q hw']
    rw [applyRules_skip (by simp [mulHelper, l2, hm, hc2]),
      applyRules_skip (by simp [mulHelper, l2, hm, mulCollect3, l3]),
      applyRules_skip (by simp [mulHelper, l2, hm, mulConst1, asConst_var hc, l4]),
      applyRules_skip (by simp [mulConst2, asRecip_var hc, l4])] at h
    by_cases hlt : lt x w = true
    · rw [applyRules_fire (o := mkMul [x, w]) (by simp [mulMergeLt, l2, hm, hlt])] at h
      exact .inl (mkMul_two h)
    rw [applyRules_skip (by simp [mulMergeLt, l2, hm, hlt])] at h
    by_cases hgt : lt w x = true
    · rw [applyRules_fire (o := mkMul [w, x]) (by simp [mulMergeGt, l2, hm, hgt])] at h
      exact .inr (mkMul_two h)
    rw [applyRules_skip (by simp [mulMergeGt, l2, hm, hgt]),
      applyRules_fire (o := mkMul [x, w]) (by simp [mulMergeEq, l2, hm])] at h
    exact .inl (mkMul_two h)

/-- The product of a function of an expression and something it shares nothing with. -/
theorem mul_pair_fn {x w z : Expr} (hx : ∀ v, x ≠ .const v) (l1 : asAdd x = none) (l2 : asMul x = none)
    (l3 : asPower x = none) (l4 : asRecip x = none) (h0 : w ≠ .const 0) (h1 : w ≠ .const 1) (ha : asAdd w = none)
    (hm : asMul w = none) (hp : ∀ b q, asPower w = some (b, q) → b ≠ x) (hne : x ≠ w) (h : simp n .mul x w = some z) :
    z = .fn .mul [x, w] ∨ z = .fn .mul [w, x] := by
  cases n with
  | zero => simp [simp] at h
  | succ n =>
    change applyRules (mulRules (simp n)) x w = _ at h
    unfold mulRules at h
    rw [applyRules_skip (by simp [mulZero, hx, h0]), applyRules_skip (by simp [mulOne, hx, h1]),
      applyRules_skip (by simp [mulDistribute, l1, ha]),
      applyRules_skip (by simp [mulHelper, l2, hm, mulCollect1, hne])] at h
    have hc2 : mulCollect2 (simp n) x w = some none := by
      unfold mulCollect2
      rw [l3]
      cases hw' : asPower w with
      | none => rfl
      | some p => obtain ⟨b, q⟩ := p; simp [hp b q hw']
    rw [applyRules_skip (by simp [mulHelper, l2, hm, hc2]),
      applyRules_skip (by simp [mulHelper, l2, hm, mulCollect3, l3]),
      applyRules_skip (by simp [mulHelper, l2, hm, mulConst1, asConst_ne hx, l4]),
      applyRules_skip (by simp [mulConst2, asConst_ne hx, l4])] at h
    by_cases hlt : lt x w = true
    · rw [applyRules_fire (o := mkMul [x, w]) (by simp [mulMergeLt, l2, hm, hlt])] at h
      exact .inl (mkMul_two h)
    rw [applyRules_skip (by simp [mulMergeLt, l2, hm, hlt])] at h
    by_cases hgt : lt w x = true
    · rw [applyRules_fire (o := mkMul [w, x]) (by simp [mulMergeGt, l2, hm, hgt])] at h
      exact .inr (mkMul_two h)
    rw [applyRules_skip (by simp [mulMergeGt, l2, hm, hgt]),
      applyRules_fire (o := mkMul [x, w]) (by simp [mulMergeEq, l2, hm])] at h
    exact .inl (mkMul_two h)

theorem ge_exponent {R : Prop} {e : Expr} (h : GE R n L U e) : Exponent L U e := ⟨h.ev, h.built, h.noInt⟩

theorem exponent_elementary {name : Name} {a : Expr} (hn : name ∈ elementary) (h : Exponent L U a) :
    Exponent L U (.fn name [a]) := by
  refine ⟨.elementary name a hn h.ev, .fn _ _ (by simp [h.built]) ?_ ?_ ?_, fun τ => ?_⟩
  · rintro rfl; simp [elementary] at hn
  · rintro rfl; simp [elementary] at hn
  · rintro rfl; simp [elementary] at hn
  · simp only [elementary, List.mem_cons, List.not_mem_nil, or_false] at hn
    rcases hn with rfl | rfl | rfl | rfl | rfl | rfl | rfl | rfl <;>
      simp [NoIntQuotient, NoIntQuotientAll, h.noInt]

/-- A product with a floating-point factor in front of an inverse. -/
theorem exponent_mul {x w : Expr} (hx : Exponent L U x) (hw : Exponent L U w)
    (hf : ∀ τ, floating τ x = true) (hp : asPower x = none) {z : Expr}
    (h : z = .fn .mul [x, w] ∨ z = .fn .mul [w, x]) : Exponent L U z := by
  rcases h with rfl | rfl
  · refine ⟨.mul _ (by simp) (by simp [hx.ev, hw.ev]), .fn _ _ (by simp [hx.built, hw.built])
      (fun h => by cases h) (fun _ => by simp) (fun h => by cases h), fun τ => ?_⟩
    rw [NoIntQuotient]
    refine ⟨by simp [NoIntQuotientAll, hx.noInt, hw.noInt], fun pre l r e => .inr (.inl ?_)⟩
    have := congrArg (fun x => x.reverse[1]?) e
    simp at this
    rw [← this]
    exact hf τ
  · refine ⟨.mul _ (by simp) (by simp [hx.ev, hw.ev]), .fn _ _ (by simp [hx.built, hw.built])
      (fun h => by cases h) (fun _ => by simp) (fun h => by cases h), fun τ => ?_⟩
    rw [NoIntQuotient]
    refine ⟨by simp [NoIntQuotientAll, hx.noInt, hw.noInt], fun pre l r e => ?_⟩
    have := congrArg (fun x => x.reverse[0]?) e
    simp at this
    rw [this] at hp
    simp [asPower] at hp

/-- What a choice between two expressions is. -/
theorem choose_ok {t a b : Expr} {β : Bool} {x : ℝ} (ht : GT False n L U t) (hd : den ρ t = some (.bool β))
    (ea : Exponent L U a) (eb : Exponent L U b) (va : β = true → V ρ a x) (vb : β = false → V ρ b x) :
    Exponent L U (mkIfElse t a b) ∧ V ρ (mkIfElse t a b) x ∧
      (mkIfElse t a b = a ∨ t = .cbool false ∧ mkIfElse t a b = b ∨
        mkIfElse t a b = .fn .ifElse [t, a, b] ∧ GE False n L U (mkIfElse t a b) ∧
          isConstant (mkIfElse t a b) = false) := by
  have hv := gt_var ht
  rcases ht with ⟨b', rfl⟩ | ⟨t1, t2, t3, -⟩
  · simp only [den, Option.some.injEq, Val.bool.injEq] at hd
    subst hd
    cases b'
    · exact ⟨eb, vb rfl, .inr (.inl ⟨rfl, rfl⟩)⟩
    · exact ⟨ea, va rfl, .inl rfl⟩
  have hV : V ρ (.fn .ifElse [t, a, b]) x := by
    refine ⟨.fn _ _ (by simp [t2, ea.built, eb.built]) (by simp) (by simp) (by simp), ?_⟩
    cases β
    · simpa [Denotes, den, denList, interp, hd] using (vb rfl).2
    · simpa [Denotes, den, denList, interp, hd] using (va rfl).2
  have hE : Exponent L U (.fn .ifElse [t, a, b]) :=
    ⟨.ifElse t a b t1 ea.ev eb.ev, hV.1, fun τ => by
      simp [NoIntQuotient, NoIntQuotientAll, t3, ea.noInt, eb.noInt]⟩
  have hc : isConstant (.fn .ifElse [t, a, b]) = false := by simp [isConstant, isConstantAll, hv]
  have hm : mkIfElse t a b = if a = b ∧ hasStored a = false then a else .fn .ifElse [t, a, b] := by
    unfold mkIfElse
    split
    · cases t1
    · cases t1
    · rfl
  rw [hm]
  split_ifs with h
  · obtain ⟨rfl, -⟩ := h
    refine ⟨ea, ?_, .inl rfl⟩
    cases β
    · exact vb rfl
    · exact va rfl
  · exact ⟨hE, hV, .inr (.inr ⟨rfl, ⟨hE.ev, hE.built, (fun h => by rw [hc] at h; cases h), hE.noInt,
      fun h => h.elim⟩, hc⟩)⟩

/-! ### The sum of a scalar and a multiple of the blade -/

/-- The coefficients that `exp` computes: one, or a choice at run time. -/
def ExpCoef (n L U : Nat) (w : Expr) : Prop :=
  w = .const 1 ∨ (∃ t a b, w = .fn .ifElse [t, a, b]) ∧ GE False n L U w ∧ isConstant w = false

theorem expCoef_ne {w : Expr} (h : ExpCoef n L U w) : w ≠ .const 0 := by
  rcases h with rfl | ⟨⟨t, a, b, rfl⟩, -⟩ <;> simp

theorem expCoef_ge {w : Expr} (h : ExpCoef n L U w) : GE False n L U w := by
  rcases h with rfl | ⟨-, h, -⟩
  · exact ge_const 1
  · exact h

theorem expCoef_comp {w : Expr} : mkComp w (.const 0) = ⟨w, .const 0⟩ := by
  have : (Blade.const 0).grades ≠ 0 := by decide
  unfold mkComp
  rw [if_neg this]
  split_ifs <;> rfl

theorem simp_one_mul {z y : Expr} (h : simp n .mul (.const 1) z = some y) : y = z ∨ y = .const 0 := by
  cases n with
  | zero => simp [simp] at h
  | succ n =>
    change applyRules (mulRules (simp n)) (.const 1) z = _ at h
    unfold mulRules at h
    by_cases h0 : z = .const 0
    · rw [applyRules_fire (o := some (.const 0)) (by simp [mulZero, h0, fire])] at h
      cases h; exact .inr rfl
    · rw [applyRules_skip (by simp [mulZero, h0]), applyRules_fire (o := some z) (by simp [mulOne, fire])] at h
      cases h; exact .inl rfl

theorem exp_assemble (hN : N ≤ 62) {b : CSum} {B : MV ℝ} (hb : Within (Leaf L U) b) (dB : SumDenotes ρ N b B)
    {c w : Expr} {x y : ℝ} (hc : ExpCoef k L U c) (hw : ExpCoef k L U w)
    (vc : V ρ c x) (vw : V ρ w y) {u e : CSum} (hu : mulC (extMapping N) k [mkComp w (.const 0)] b = some u)
    (he : addC k [mkComp c (.const 0)] u = some e) :
    Within (GE False k L U) e ∧ SumDenotes ρ N e (Finsupp.single 0 x + y • B) := by
  rw [expCoef_comp] at hu
  rw [expCoef_comp] at he
  have hsc := scale_left (Q := fun z => GE False k L U z ∧ Summand L U w z) (ext_unit hN) ⟨ge_const 0, .inl (.inl ⟨0, rfl⟩)⟩
    (expCoef_ne hw) b k u hb.1 (inSpaceC_of dB)
    (fun d hd j z hz => by
      have hl := hb.2 d hd
      rcases hw with rfl | ⟨⟨t, p, q, rfl⟩, gw, hcw⟩
      · rcases simp_one_mul hz with rfl | rfl
        · exact ⟨(leaf_ge hl).1, .inl hl⟩
        · exact ⟨ge_const 0, .inl (.inl ⟨0, rfl⟩)⟩
      · have hp := mul_leaf_right hl hcw rfl rfl (by simp [asPower]) (by
          intro e
          rcases hl with ⟨v, h⟩ | ⟨t, i, -, -, h⟩ <;> rw [h] at e <;> cases e) hz
        refine ⟨ge_product hl gw hcw rfl (by simp) hp, ?_⟩
        by_cases h1 : d.coef = .const 1
        · rw [h1] at hz
          obtain rfl := simp_mul_one hz
          exact .inr ⟨⟨_, _, _, rfl⟩, hcw, .inl rfl⟩
        · rcases hp with rfl | rfl | h | h
          · exact .inl (.inl ⟨0, rfl⟩)
          · exact .inr ⟨⟨_, _, _, rfl⟩, hcw, .inl rfl⟩
          · exact .inr ⟨⟨_, _, _, rfl⟩, hcw, .inr ⟨_, hl, h1, .inl h⟩⟩
          · exact .inr ⟨⟨_, _, _, rfl⟩, hcw, .inr ⟨_, hl, h1, .inr h⟩⟩) hu
  have dU := (op_denotes hN) ρ _ b u _ B (single_denotes (N := N) vw.1 vw.2) dB hu
  have dE := addC_ok (by omega) k _ u e _ _ (single_denotes (N := N) vc.1 vc.2) dU he
  have hop : op (Finsupp.single 0 y) B = y • B := op_scalar_left y B
  rw [hop] at dE
  refine ⟨addC_scalar_within (expCoef_ge hc) (within_mono (fun _ h => h.1) hsc.1) (fun d hd j z hz => ?_) he, dE⟩
  refine add_summand ?_ (expCoef_ge hc) (hsc.1.2 d hd).2 (hsc.1.2 d hd).1 hz
  rcases hc with h | ⟨h, -, h'⟩
  · exact .inl h
  · exact .inr ⟨h, h'⟩

/-! ### The two coefficients -/

/-- What `exp` needs to know about the square `s` of the blade: its absolute value `sq`, a square root `α`
of that and the inverse `i` of the root. -/
structure RootData (ρ : Env) (n L U : Nat) (s sq t α i : Expr) (x y : ℝ) : Prop where
  vs : V ρ s x
  gs : GE False n L U s
  vq : V ρ sq |x|
  gq : GE False n L U sq
  sqrt : y ^ 2 = |x|
  va : V ρ α y
  ea : Exponent L U α
  vi : x ≠ 0 → V ρ i y⁻¹
  prod : ∀ name z, name = .sine ∨ name = .hsine → simp n .mul (.fn name [α]) i = some z → Exponent L U z
  ne : mkLessOrEqual sq t ≠ .cbool false

theorem v_elementary {name : Name} {a : Expr} {y z : ℝ} (hn : name ∈ elementary) (h : V ρ a y)
    (hi : interp name [some (.num y)] = some (.num z)) : V ρ (.fn name [a]) z := by
  refine ⟨.fn _ _ (by simp [h.1]) ?_ ?_ ?_, ?_⟩
  · rintro rfl; simp [elementary] at hn
  · rintro rfl; simp [elementary] at hn
  · rintro rfl; simp [elementary] at hn
  · have := h.2
    unfold Denotes at this ⊢
    simp only [den, denList, this, hi]

/-- The coefficient of the scalar part. -/
noncomputable def cosCoef (x y tol : ℝ) : ℝ :=
  if |x| ≤ tol then 1 else if x ≤ 0 then Real.cos y else Real.cosh y

/-- The coefficient of the blade. -/
noncomputable def sinCoef (x y tol : ℝ) : ℝ :=
  if |x| ≤ tol then 1 else if x ≤ 0 then Real.sin y * y⁻¹ else Real.sinh y * y⁻¹

theorem two_choices {s sq t α i c1 c2 : Expr} {x y tol z1 z2 : ℝ} (hR : RootData ρ n L U s sq t α i x y)
    (ht : Leaf L U t) (vt : Denotes ρ t tol) (h1 : Exponent L U c1) (h2 : Exponent L U c2)
    (v1 : ¬ |x| ≤ tol → x ≤ 0 → V ρ c1 z1) (v2 : ¬ |x| ≤ tol → ¬ x ≤ 0 → V ρ c2 z2) :
    ExpCoef n L U (mkIfElse (mkLessOrEqual sq t) (.const 1) (mkIfElse (mkLessOrEqual s (.const 0)) c1 c2)) ∧
      V ρ (mkIfElse (mkLessOrEqual sq t) (.const 1) (mkIfElse (mkLessOrEqual s (.const 0)) c1 c2))
        (if |x| ≤ tol then 1 else if x ≤ 0 then z1 else z2) := by
  have gt1 := gt_le hR.gq (leaf_ge (R := False) (n := n) ht).1
  have gt2 := gt_le hR.gs (ge_const (R := False) (n := n) (L := L) (U := U) 0)
  have d1 := le_den hR.vq.2 vt
  have d2 := le_den hR.vs.2 (V.const (ρ := ρ) 0).2
  by_cases hle : |x| ≤ tol
  · rw [decide_eq_true hle] at d1
    have e2 : Exponent L U (mkIfElse (mkLessOrEqual s (.const 0)) c1 c2) := by
      have hv := gt_var gt2
      rcases gt2 with ⟨b', hb⟩ | ⟨t1, t2, t3, -⟩
      · rw [hb]; cases b'
        · exact h2
        · exact h1
      · unfold mkIfElse
        split
        · exact h1
        · exact h2
        · split_ifs
          · exact h1
          · exact ⟨.ifElse _ _ _ t1 h1.ev h2.ev, .fn _ _ (by simp [t2, h1.built, h2.built]) (by simp) (by simp)
              (by simp), fun τ => by simp [NoIntQuotient, NoIntQuotientAll, t3, h1.noInt, h2.noInt]⟩
    obtain ⟨-, r2, r3⟩ := choose_ok (ρ := ρ) (x := 1) gt1 d1 (exponent_const 1) e2
      (fun _ => by simpa using V.const (ρ := ρ) 1) (fun h => by cases h)
    rw [if_pos hle]
    refine ⟨?_, r2⟩
    rcases r3 with h | ⟨h, -⟩ | ⟨h, g, hc⟩
    · exact .inl h
    · exact absurd h hR.ne
    · exact .inr ⟨⟨_, _, _, h⟩, g, hc⟩
  · rw [decide_eq_false hle] at d1
    obtain ⟨e2, w2, -⟩ := choose_ok (ρ := ρ) (x := if x ≤ 0 then z1 else z2) gt2 d2 h1 h2
      (fun h => by
        have h : x ≤ 0 := by simpa using h
        rw [if_pos h]; exact v1 hle h)
      (fun h => by
        have h : ¬ x ≤ 0 := by simpa using h
        rw [if_neg h]; exact v2 hle h)
    obtain ⟨-, r2, r3⟩ := choose_ok (ρ := ρ) (x := if x ≤ 0 then z1 else z2) gt1 d1 (exponent_const 1) e2
      (fun h => by cases h) (fun _ => w2)
    rw [if_neg hle]
    refine ⟨?_, r2⟩
    rcases r3 with h | ⟨h, -⟩ | ⟨h, g, hc⟩
    · exact .inl h
    · exact absurd h hR.ne
    · exact .inr ⟨⟨_, _, _, h⟩, g, hc⟩

theorem exp_core {P Q R : Nat} (hN : P + Q + R ≤ 62) {b e : CSum} {B : MV ℝ} (hb : Within (Leaf L U) b)
    (dB : SumDenotes ρ (P + Q + R) b B) {s sq t α i : Expr} {x y tol : ℝ}
    (ht : Leaf L U t) (vt : Denotes ρ t tol) (h0 : 0 ≤ tol)
    (hR : RootData ρ k L U s sq t α i x y)
    (h1 : mulC (orthMapping (P + Q + R) (mkSignedFactor P Q R) .sp) k b b = some [⟨s, .const 0⟩])
    (h2 : mkAbsolute (simp k) s = some sq) (h3 : simp k .pow sq half = some α)
    (h4 : simp k .pow α (.const (-1)) = some i) (he : expExpr P Q R k b t = some e) :
    Within (GE False k L U) e ∧
      SumDenotes ρ (P + Q + R) e (Finsupp.single 0 (cosCoef x y tol) + sinCoef x y tol • B) := by
  simp only [expExpr, h1, scalarCoef_single, h2, Option.bind_eq_bind, Option.bind_some, Option.bind_eq_some_iff] at he
  obtain ⟨hf, hhf, α', h3', i', h4', z1, hz1, z2, hz2, u, hu, he⟩ := he
  obtain rfl := half_eq hhf
  rw [h3] at h3'; cases h3'
  rw [h4] at h4'; cases h4'
  have hx : ¬ |x| ≤ tol → x ≠ 0 := by
    rintro h rfl
    exact h (by simpa using h0)
  have vcos := v_elementary (ρ := ρ) (name := .cosine) (z := Real.cos y) (by simp [elementary]) hR.va rfl
  have vcosh := v_elementary (ρ := ρ) (name := .hcosine) (z := Real.cosh y) (by simp [elementary]) hR.va rfl
  have vsin := v_elementary (ρ := ρ) (name := .sine) (z := Real.sin y) (by simp [elementary]) hR.va rfl
  have vsinh := v_elementary (ρ := ρ) (name := .hsine) (z := Real.sinh y) (by simp [elementary]) hR.va rfl
  obtain ⟨c1, c2⟩ := two_choices (z1 := Real.cos y) (z2 := Real.cosh y) hR ht vt
    (exponent_elementary (name := .cosine) (by simp [elementary]) hR.ea)
    (exponent_elementary (name := .hcosine) (by simp [elementary]) hR.ea)
    (fun _ _ => vcos) (fun _ _ => vcosh)
  obtain ⟨w1, w2⟩ := two_choices (z1 := Real.sin y * y⁻¹) (z2 := Real.sinh y * y⁻¹) hR ht vt
    (hR.prod _ _ (.inl rfl) hz1) (hR.prod _ _ (.inr rfl) hz2)
    (fun h _ => (simp_sound ρ k).mul _ _ _ _ _ vsin (hR.vi (hx h)) hz1)
    (fun h _ => (simp_sound ρ k).mul _ _ _ _ _ vsinh (hR.vi (hx h)) hz2)
  exact exp_assemble hN hb dB c1 w1 c2 w2 hu he

/-! ### The square of the blade -/

theorem le_ne_false {l r : Expr} (h : ∀ v, l ≠ .const v) (h' : ∀ v, l ≠ .cbits v) :
    mkLessOrEqual l r ≠ .cbool false := by
  unfold mkLessOrEqual
  split
  · exact absurd rfl (h _)
  · exact absurd rfl (h' _)
  · split_ifs <;> simp

/-- A square that is not known to be non-negative. -/
theorem root_abs {s sq t α i : Expr} {x : ℝ} (vs : V ρ s x) (gs : GE False k L U s) (hs : TraitSafe s)
    (hc : isConstant s = false) (hn : isNonNegative s = some false) (h2 : mkAbsolute (simp k) s = some sq)
    (h3 : simp k .pow sq half = some α) (h4 : simp k .pow α (.const (-1)) = some i) :
    RootData ρ k L U s sq t α i x √|x| := by
  have hk : k ≠ 0 := by rintro rfl; simp [simp] at h3
  have gq := ge_abs gs hk h2
  have vq := abs_den gs.lit gs.built hs vs.2 h2
  have eq : sq = .fn .absolute [s] := by
    simp only [mkAbsolute, hn, hc, Option.bind_eq_bind, Option.bind_some, Option.bind_eq_some_iff,
      Bool.false_and, Bool.false_eq_true, if_false, Option.some.injEq] at h2
    obtain ⟨-, -, h⟩ := h2
    exact h.symm
  have oq : Opaque sq := eq ▸ abs_opaque hc
  have dq : Direct sq := eq ▸ abs_direct
  obtain rfl := root_eq oq h3
  obtain rfl := inv_root oq h4
  have ga := ge_power gq oq.1 dq exponent_half
  have gi := ge_power gq oq.1 dq exponent_minusHalf
  refine ⟨vs, gs, ⟨gq.built, vq⟩, gq, Real.sq_sqrt (abs_nonneg x), ?_, ge_exponent ga, fun hx => ?_, ?_, ?_⟩
  · rw [Real.sqrt_eq_rpow]
    refine V.power ⟨gq.built, vq⟩ v_half dq ?_
    rcases (abs_nonneg x).lt_or_eq with h | h
    · exact .inl h
    · exact .inr (.inl ⟨h.symm, by norm_num⟩)
  · rw [Real.sqrt_eq_rpow, ← Real.rpow_neg (abs_nonneg x)]
    exact V.power ⟨gq.built, vq⟩ v_minusHalf dq (.inl (abs_pos.2 hx))
  · intro name z hname hz
    have hel : name ∈ elementary := by rcases hname with rfl | rfl <;> simp [elementary]
    refine exponent_mul (exponent_elementary hel (ge_exponent ga)) (ge_exponent gi)
      (fun τ => by rcases hname with rfl | rfl <;> rfl) (by rcases hname with rfl | rfl <;> rfl)
      (mul_pair ?_ (by simp [isConstant, isConstantAll, oq.1]) ?_ ?_ ?_ rfl rfl ?_ ?_ hz)
    · simp [isConstant, isConstantAll, oq.1]
    · rcases hname with rfl | rfl <;> rfl
    · rcases hname with rfl | rfl <;> rfl
    · rcases hname with rfl | rfl <;> rfl
    · intro b q hb e
      simp only [asPower, Option.some.injEq, Prod.mk.injEq] at hb
      rw [← hb.1, eq] at e
      rcases hname with rfl | rfl <;> simp at e
    · rcases hname with rfl | rfl <;> simp
  · rw [eq]; exact le_ne_false (by simp) (by simp)

theorem two_half : simp 10 .mul (.const 2) half = some (.const 1) := by decide +kernel

/-- The square of a stored coefficient. -/
theorem root_atom {v i' : Nat} {sq t α i : Expr} (hL : L ≤ v) (hU : v ≤ U)
    (h2 : mkAbsolute (simp k) (powerOf (.value v i') (.const 2)) = some sq)
    (h3 : simp k .pow sq half = some α) (h4 : simp k .pow α (.const (-1)) = some i) :
    RootData ρ k L U (powerOf (.value v i') (.const 2)) sq t α i (ρ.val v i' ^ 2) (ρ.val v i') := by
  have hv : V ρ (.value v i') (ρ.val v i') := ⟨.value v i', rfl⟩
  have gv : GE False k L U (.value v i') := ge_value hL hU
  have dv : Direct (.value v i') := ⟨by simp, by simp⟩
  have gs := ge_power gv rfl dv (exponent_const 2)
  have vs : V ρ (powerOf (.value v i') (.const 2)) (ρ.val v i' ^ 2) := by
    have := V.power (ρ := ρ) hv (V.const (ρ := ρ) 2) dv (by
      rcases lt_trichotomy (ρ.val v i') 0 with h | h | h
      · exact .inr (.inr ⟨h, 2, rfl⟩)
      · exact .inr (.inl ⟨h, by norm_num⟩)
      · exact .inl h)
    simpa using this
  have eq : sq = powerOf (.value v i') (.const 2) := by
    simp only [mkAbsolute, isNonNegative, isEven, Option.bind_eq_bind, Option.bind_some, Option.bind_eq_some_iff] at h2
    simp at h2
    exact h2.2.symm
  subst eq
  have ea : α = .value v i' := by
    refine simp_eq h3 (k := 10 + 1) ?_
    rw [pow_power (by decide) (by decide), two_half]
    exact pow_one (n := 9) (l := .value v i') (by simp)
  subst ea
  obtain rfl := simp_eq h4 (pow_opaque (n := 0) (by simp) rfl rfl (by decide) (by decide))
  have gi := ge_power gv rfl dv (exponent_const (-1))
  refine ⟨vs, gs, by rwa [abs_of_nonneg (sq_nonneg _)], gs, by rw [abs_of_nonneg (sq_nonneg _)], hv,
    ge_exponent gv, fun hx => ?_, ?_, le_ne_false (by simp) (by simp)⟩
  · have hx' : ρ.val v i' ≠ 0 := by simpa using hx
    have := V.power (ρ := ρ) hv (V.const (ρ := ρ) (-1)) dv (by
      rcases lt_or_gt_of_ne hx' with h | h
      · exact .inr (.inr ⟨h, -1, rfl⟩)
      · exact .inl h)
    simpa [Real.rpow_neg_one] using this
  · intro name z hname hz
    have hel : name ∈ elementary := by rcases hname with rfl | rfl <;> simp [elementary]
    refine exponent_mul (exponent_elementary hel (ge_exponent gv)) (ge_exponent gi)
      (fun τ => by rcases hname with rfl | rfl <;> rfl) (by rcases hname with rfl | rfl <;> rfl)
      (mul_pair ?_ (by simp [isConstant, isConstantAll]) ?_ ?_ ?_ rfl rfl ?_ ?_ hz)
    · simp [isConstant, isConstantAll]
    · rcases hname with rfl | rfl <;> rfl
    · rcases hname with rfl | rfl <;> rfl
    · rcases hname with rfl | rfl <;> rfl
    · intro b q hb e
      simp only [asPower, Option.some.injEq, Prod.mk.injEq] at hb
      rw [← hb.1] at e
      rcases hname with rfl | rfl <;> simp at e
    · rcases hname with rfl | rfl <;> simp

/-- The square zero. -/
theorem root_zero {sq t α i : Expr} {tol : ℝ} (ht : Denotes ρ t tol) (h0 : 0 ≤ tol)
    (h2 : mkAbsolute (simp k) (.const 0) = some sq)
    (h3 : simp k .pow sq half = some α) (h4 : simp k .pow α (.const (-1)) = some i) :
    RootData ρ k L U (.const 0) sq t α i 0 0 := by
  have eq : sq = .const 0 := by
    simp only [mkAbsolute, isNonNegative, Option.bind_eq_bind, Option.bind_some, Option.bind_eq_some_iff] at h2
    simp at h2
    exact h2.2.symm
  subst eq
  obtain rfl := simp_eq h3 (k := 5) (x := .const 0) (by decide +kernel)
  obtain rfl := simp_eq h4 (k := 5) (x := powerOf (.const 0) (.const (-1))) (by decide +kernel)
  have v0 : V ρ (.const 0) 0 := by simpa using V.const (ρ := ρ) 0
  refine ⟨v0, ge_const 0, by simpa using v0, ge_const 0, by simp, v0, exponent_const 0, fun h => absurd rfl h, ?_, ?_⟩
  · intro name z hname hz
    have hel : name ∈ elementary := by rcases hname with rfl | rfl <;> simp [elementary]
    refine exponent_mul (exponent_elementary hel (exponent_const 0)) (exponent_recip 0)
      (fun τ => by rcases hname with rfl | rfl <;> rfl) (by rcases hname with rfl | rfl <;> rfl) ?_
    rcases hname with rfl | rfl
    · exact .inl (simp_eq hz (k := 10) (by decide +kernel))
    · exact .inl (simp_eq hz (k := 10) (by decide +kernel))
  · unfold mkLessOrEqual
    split
    · next a b e =>
      obtain rfl : a = 0 := by simpa using e.symm
      have : tol = (b : ℝ) := by
        have := ht
        simpa [Denotes, den] using this.symm
      rw [this] at h0
      have : 0 ≤ b := by exact_mod_cast h0
      simp [this]
    · next e => cases e
    · split_ifs <;> simp

/-- The roots of constants. -/
theorem root_const_shape {v : Int} {α : Expr} (h : simp n .pow (.const v) half = some α) :
    (∃ r, α = .const r) ∨ α = powerOf (.const v) half := by
  cases n with
  | zero => simp [simp] at h
  | succ n =>
    change applyRules (powRules (simp n)) (.const v) half = _ at h
    unfold powRules at h
    by_cases h0 : v = 0
    · subst h0
      rw [applyRules_fire (o := some (.const 0)) (by simp [powMisc1, half, asConst, fire])] at h
      cases h; exact .inl ⟨0, rfl⟩
    by_cases h1 : v = 1
    · subst h1
      rw [applyRules_fire (o := some (.const 1)) (by simp [powMisc1, fire])] at h
      cases h; exact .inl ⟨1, rfl⟩
    rw [applyRules_skip (by simp [powMisc1, h0, h1]), applyRules_skip (by simp [powMisc2, half]),
      applyRules_fire (o := simplerIsqrt v) (by simp [powMisc3, asConst])] at h
    unfold simplerIsqrt at h
    split_ifs at h with hv
    simp only [Option.bind_eq_bind, Option.bind_eq_some_iff] at h
    obtain ⟨r, -, q, -, h⟩ := h
    split_ifs at h <;> cases h
    · exact .inl ⟨r, rfl⟩
    · exact .inr rfl

theorem inv_const_shape {v : Int} {i : Expr} (h : simp n .pow (.const v) (.const (-1)) = some i) :
    ∃ r, i = .const r ∨ i = recip r := by
  cases n with
  | zero => simp [simp] at h
  | succ n =>
    change applyRules (powRules (simp n)) (.const v) (.const (-1)) = _ at h
    unfold powRules at h
    by_cases h1 : v = 1
    · subst h1
      rw [applyRules_fire (o := some (.const 1)) (by simp [powMisc1, fire])] at h
      cases h; exact ⟨1, .inl rfl⟩
    rw [applyRules_skip (by by_cases h0 : v = 0 <;> simp [powMisc1, h0, h1, asConst]),
      applyRules_skip (by simp [powMisc2])] at h
    have h3 : powMisc3 (.const v) (.const (-1)) = (simplerIpow v 1).bind fun p =>
        if v = -1 then some (some (.const (-1))) else some (some (powerOf p (.const (-1)))) := by
      unfold powMisc3
      simp [asConst, half, iabs, i64]
    rw [simplerIpow] at h3
    cases hp : ipow 66 v 1 with
    | none =>
      rw [hp] at h3
      rw [applyRules, h3] at h
      simp at h
    | some p =>
      rw [hp] at h3
      simp only [Option.map_some, Option.bind_some] at h3
      split_ifs at h3 with hv
      · rw [applyRules_fire (o := some (.const (-1))) h3] at h
        cases h; exact ⟨-1, .inl rfl⟩
      · rw [applyRules_fire (o := some (powerOf (.const p) (.const (-1)))) h3] at h
        cases h; exact ⟨p, .inr rfl⟩

theorem inv_root_shape {v : Int} {i : Expr} (h0 : v ≠ 0) (h : simp n .pow (powerOf (.const v) half) (.const (-1)) = some i) :
    (∃ r, i = .const r) ∨ i = powerOf (.const v) minusHalf := by
  cases n with
  | zero => simp [simp] at h
  | succ n =>
    rw [pow_power (by decide) (by decide)] at h
    simp only [Option.bind_eq_some_iff] at h
    obtain ⟨q, hq, h⟩ := h
    obtain rfl := simp_eq hq half_neg
    cases n with
    | zero => simp [simp] at h
    | succ n =>
      change applyRules (powRules (simp n)) (.const v) minusHalf = _ at h
      unfold powRules at h
      by_cases h1 : v = 1
      · subst h1
        rw [applyRules_fire (o := some (.const 1)) (by simp [powMisc1, fire])] at h
        cases h; exact .inl ⟨1, rfl⟩
      rw [applyRules_skip (by simp [powMisc1, h0, h1]), applyRules_skip (by simp [powMisc2, minusHalf]),
        applyRules_skip (by simp [powMisc3, minusHalf, half, asConst]),
        applyRules_fire (o := some (powerOf (.const v) minusHalf)) (by simp [powDistribute, asMul, asPower, fire])] at h
      cases h; exact .inr rfl

theorem exponent_power_const (v : Int) {r : Expr} (h : Exponent L U r) : Exponent L U (powerOf (.const v) r) :=
  ⟨.power _ _ (.const v) h.ev (.inr (.inr (.inl ⟨v, rfl⟩))),
    .fn _ _ (by simp [Built.const, h.built]) (by simp) (by simp) fun _ => ⟨_, _, rfl, by simp, by simp⟩,
    fun τ => by simp [NoIntQuotient, NoIntQuotientAll, h.noInt]⟩

theorem abs_const_shape {c : Int} {sq : Expr} (h : mkAbsolute (simp n) (.const c) = some sq) : ∃ v, sq = .const v := by
  simp only [mkAbsolute, isNonNegative, Option.bind_eq_bind, Option.bind_some, Option.bind_eq_some_iff] at h
  obtain ⟨neg, hneg, h⟩ := h
  obtain ⟨q, rfl⟩ := mul_const_const hneg
  split_ifs at h <;> cases h
  · exact ⟨_, rfl⟩
  · exact ⟨_, rfl⟩
  · simp_all [isConstant, isFunction]

/-- A square that is a constant. -/
theorem root_const {c : Int} {sq t α i : Expr} (hc : c ≠ 0) (h2 : mkAbsolute (simp k) (.const c) = some sq)
    (h3 : simp k .pow sq half = some α) (h4 : simp k .pow α (.const (-1)) = some i)
    (hne : mkLessOrEqual sq t ≠ .cbool false) : RootData ρ k L U (.const c) sq t α i c √|(c : ℝ)| := by
  have vc := V.const (ρ := ρ) c
  have hpos : 0 < |(c : ℝ)| := abs_pos.2 (by exact_mod_cast hc)
  obtain ⟨v, rfl⟩ := abs_const_shape h2
  have vq : V ρ (.const v) |(c : ℝ)| :=
    ⟨.const v, abs_den (fun _ => ⟨c, rfl⟩) (.const c) (by simp [TraitSafe]) vc.2 h2⟩
  have hv0 : v ≠ 0 := by
    rintro rfl
    have := V.const_eq vq
    simp only [Int.cast_zero] at this
    exact hpos.ne' this
  have va : V ρ α √|(c : ℝ)| := by
    rw [Real.sqrt_eq_rpow]
    exact (simp_sound ρ k).pow _ _ _ _ _ vq v_half (.inl hpos) (.inr (.direct _ ⟨by simp, by simp⟩)) h3
  have hs : 0 < √|(c : ℝ)| := Real.sqrt_pos.2 hpos
  have vi : V ρ i (√|(c : ℝ)|)⁻¹ := by
    have := (simp_sound ρ k).pow _ _ _ _ _ va (V.const (ρ := ρ) (-1)) (.inl hs) (.inl ⟨-1, rfl⟩) h4
    simpa [Real.rpow_neg_one] using this
  have shapes : Exponent L U α ∧ Exponent L U i ∧ ((∃ r, i = .const r) ∨ ∃ r q, i = powerOf (.const r) q) := by
    rcases root_const_shape h3 with ⟨r, rfl⟩ | rfl
    · obtain ⟨r', rfl | rfl⟩ := inv_const_shape h4
      · exact ⟨exponent_const r, exponent_const r', .inl ⟨r', rfl⟩⟩
      · exact ⟨exponent_const r, exponent_recip r', .inr ⟨r', _, rfl⟩⟩
    · refine ⟨exponent_power_const v exponent_half, ?_⟩
      rcases inv_root_shape hv0 h4 with ⟨r, rfl⟩ | rfl
      · exact ⟨exponent_const r, .inl ⟨r, rfl⟩⟩
      · exact ⟨exponent_power_const v exponent_minusHalf, .inr ⟨v, _, rfl⟩⟩
  obtain ⟨ea, ei, hi⟩ := shapes
  refine ⟨vc, ge_const c, vq, ge_const v, Real.sq_sqrt hpos.le, va, ea, fun _ => vi, ?_, hne⟩
  intro name z hname hz
  have hel : name ∈ elementary := by rcases hname with rfl | rfl <;> simp [elementary]
  have el := exponent_elementary hel ea
  by_cases hi0 : i = .const 0
  · subst hi0
    have := V.const_eq vi
    simp only [Int.cast_zero] at this
    exact absurd this (inv_pos.2 hs).ne'
  by_cases hi1 : i = .const 1
  · subst hi1
    cases k with
    | zero => simp [simp] at hz
    | succ k =>
      change applyRules (mulRules (simp k)) (.fn name [α]) (.const 1) = some z at hz
      unfold mulRules at hz
      rw [applyRules_skip (by simp [mulZero]), applyRules_fire (o := some (.fn name [α])) (by simp [mulOne, fire])] at hz
      cases hz
      exact el
  refine exponent_mul el ei (fun τ => by rcases hname with rfl | rfl <;> rfl)
    (by rcases hname with rfl | rfl <;> rfl) (mul_pair_fn (by simp) ?_ ?_ ?_ ?_ hi0 hi1 ?_ ?_ ?_ ?_ hz)
  · rcases hname with rfl | rfl <;> rfl
  · rcases hname with rfl | rfl <;> rfl
  · rcases hname with rfl | rfl <;> rfl
  · rcases hname with rfl | rfl <;> rfl
  · rcases hi with ⟨r, rfl⟩ | ⟨r, q, rfl⟩ <;> rfl
  · rcases hi with ⟨r, rfl⟩ | ⟨r, q, rfl⟩ <;> rfl
  · intro b q hb e
    rcases hi with ⟨r, rfl⟩ | ⟨r, q', rfl⟩
    · simp [asPower] at hb
    · simp only [asPower, Option.some.injEq, Prod.mk.injEq] at hb
      rw [← hb.1] at e
      cases e
  · rcases hi with ⟨r, rfl⟩ | ⟨r, q', rfl⟩
    · simp
    · rcases hname with rfl | rfl <;> simp

/-! ### Replacing a stored coefficient -/

theorem sp_at (f : Word → ℝ) (A : MV ℝ) (b : Word) (y : ℝ) :
    orthProd f .sp A (Finsupp.single b y) 0 = A b * y * (sg ℝ (par b b) * f b) := by
  induction A using Finsupp.induction_linear with
  | zero => simp [prod_zero_left]
  | add A B hA hB => simp only [prod_add_left, Finsupp.add_apply, hA, hB]; ring
  | single l a =>
    rw [sp_single]
    by_cases h : l = b
    · subst h; simp
    · simp [h, Finsupp.single_eq_of_ne (Ne.symm h)]

theorem sp_at' (f : Word → ℝ) (A : MV ℝ) (b : Word) (y : ℝ) :
    orthProd f .sp (Finsupp.single b y) A 0 = A b * y * (sg ℝ (par b b) * f b) := by
  induction A using Finsupp.induction_linear with
  | zero => simp [prod_zero_right]
  | add A B hA hB => simp only [prod_add_right, Finsupp.add_apply, hA, hB]; ring
  | single l a =>
    rw [sp_single]
    by_cases h : b = l
    · subst h; simp [mul_comm]
    · simp [h, Finsupp.single_eq_of_ne h]

theorem sp_shift (f : Word → ℝ) (A : MV ℝ) (b : Word) (r : ℝ) :
    orthProd f .sp (A + Finsupp.single b (r - A b)) (A + Finsupp.single b (r - A b)) 0 =
      orthProd f .sp A A 0 + (sg ℝ (par b b) * f b) * (r ^ 2 - A b ^ 2) := by
  simp only [prod_add_left, prod_add_right, Finsupp.add_apply, sp_at, sp_at']
  simp
  ring

end GATL
