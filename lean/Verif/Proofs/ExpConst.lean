import Verif.Proofs.Exp

/-!
Exponentials of blades whose square is a constant, with a tolerance that is a constant.
-/

namespace GATL

open Expr Spec

variable {ρ ρ' outer : Env} {τ : Types} {N n k L U : Nat}

/-! ### Evaluation -/

theorem denList_congr {args : List Expr} (h : ∀ a ∈ args, den ρ a = den ρ' a) : denList ρ args = denList ρ' args := by
  induction args with
  | nil => rfl
  | cons a as ih => rw [denList, denList, h a (by simp), ih fun b hb => h b (by simp [hb])]

/-- Without variables of the context, an expression has the same value everywhere. -/
theorem evaluable_env (hU : U < L) {kd : Kind} {e : Expr} (h : Evaluable L U kd e) : den ρ e = den ρ' e := by
  induction h with
  | const v => rfl
  | value t i hL hU => omega
  | cbits w => rfl
  | bitset t i hL hU => omega
  | add args hn h ih => rw [den_fn, den_fn, denList_congr ih]
  | mul args hn h ih => rw [den_fn, den_fn, denList_congr ih]
  | power l r hl hr hc h1 h2 => rw [den_fn, den_fn, denList_congr (ρ' := ρ') (by simp [h1, h2])]
  | elementary name a hn h h1 => rw [den_fn, den_fn, denList_congr (ρ' := ρ') (by simp [h1])]
  | absolute a h hc h1 => rw [den_fn, den_fn, denList_congr (ρ' := ρ') (by simp [h1])]
  | sign l r hl hr h1 h2 => rw [den_fn, den_fn, denList_congr (ρ' := ρ') (by simp [h1, h2])]
  | count b h h1 => rw [den_fn, den_fn, denList_congr (ρ' := ρ') (by simp [h1])]
  | bitwise name k l r hn hk hl hr h1 h2 => rw [den_fn, den_fn, denList_congr (ρ' := ρ') (by simp [h1, h2])]
  | shift l r hl hr h1 h2 => rw [den_fn, den_fn, denList_congr (ρ' := ρ') (by simp [h1, h2])]
  | compare name k l r hn hk hl hr hc h1 h2 => rw [den_fn, den_fn, denList_congr (ρ' := ρ') (by simp [h1, h2])]
  | logical name l r hn hl hr h1 h2 => rw [den_fn, den_fn, denList_congr (ρ' := ρ') (by simp [h1, h2])]
  | ifElse t a b ht ha hb h1 h2 h3 => rw [den_fn, den_fn, denList_congr (ρ' := ρ') (by simp [h1, h2, h3])]

theorem reads_constants (hU : U < L) {s : CSum} {A : MV ℝ} (hk : ∀ c ∈ s, Known c) (hq : ∀ c ∈ s, Exponent L U c.coef)
    (h : SumDenotes ρ N s A) : Reads ρ' N s [] [] A := by
  induction s generalizing A with
  | nil => rw [sumDenotes_nil h]; exact .nil
  | cons c cs ih =>
    obtain ⟨m₁, m₂, h1, h2, rfl⟩ := SumDenotes.cons_iff.1 h
    have := ih (fun c hc => hk c (by simp [hc])) (fun c hc => hq c (by simp [hc])) h2
    obtain ⟨hb, ⟨x, t⟩, ⟨hx, ht⟩, hw, rfl⟩ := SumDenotes.single_iff.1 h1
    obtain ⟨coef, blade⟩ := c
    obtain ⟨b, eb, -⟩ := hk ⟨coef, blade⟩ (by simp)
    have he := hq ⟨coef, blade⟩ (by simp)
    simp only at eb he hx ht
    subst eb
    have ht' : t = .const b := ht
    subst ht'
    refine Reads.cons (vs := []) (ws := []) (.symbolic _ _ (evaluable_context he.ev).2.1 he.built ?_) (.const b) hw this
    unfold Denotes at hx ⊢
    rw [← hx]
    exact evaluable_env hU he.ev

/-- Evaluation of a sum whose coefficients may be constant expressions. -/
theorem context_reads {Ms : List Object} {e : CSum} {A : MV ℝ}
    (hw : Within (Exponent (baseId Ms + 1) (baseId Ms + (storedInputs Ms).length)) e)
    (hA : SumDenotes (contextEnv outer (baseId Ms) (storedInputs Ms)) N e A) {o : Object}
    (ho : contextObject k τ outer Ms e = some o) : Reads outer N o.expr o.values o.bitsets A := by
  have h := contextObject_eval ho
  by_cases hs : (storedInputs Ms).isEmpty = true
  · have hlen : (storedInputs Ms).length = 0 := by rw [List.isEmpty_iff] at hs; rw [hs]; rfl
    have he : contextEval k τ outer Ms e = some (e, [], []) := by simp [contextEval, hs]
    rw [he] at h
    simp only [Option.some.injEq, Prod.mk.injEq] at h
    obtain ⟨e1, e2, e3⟩ := h
    rw [← e1, ← e2, ← e3]
    exact reads_constants (by omega) (canonical_known hw.1) hw.2 hA
  · simp only [contextEval, hs, Bool.false_eq_true, if_false, Option.bind_eq_bind, Option.bind_eq_some_iff,
      Prod.exists, Option.some.injEq, Prod.mk.injEq] at h
    obtain ⟨s', code, hc, vs, ws, hx, e1, e2, e3⟩ := h
    obtain ⟨-, hr⟩ := compileC_out e s' code hw.1.1
      (fun c hc => ⟨canonical_known hw.1 c hc, fun d hd => (compile_out (hw.2 c hc).ev d hd).coef⟩)
      (canonical_iff.1 hw.1).2.2.1 hc
    obtain ⟨vs', h1, h2⟩ := hr _ _ outer N A
      (fun t ht i => ((context_agree outer _ (storedInputs Ms)) t ht i).imp Eq.symm Eq.symm) hA
      fun c hc => (hw.2 c hc).noInt _
    rw [hx] at h1
    cases h1
    rw [← e1, ← e2, ← e3]
    exact h2

/-! ### The types -/

/-- The root of a constant. -/
def ConstRoot (α : Expr) : Prop := (∃ r, α = .const r) ∨ ∃ v, α = powerOf (.const v) half

theorem lt_sine_value {name : Name} {α : Expr} (hα : ConstRoot α) {t i : Nat} :
    lt (.fn name [α]) (.value t i) = true := by
  rcases hα with ⟨r, rfl⟩ | ⟨v, rfl⟩ <;> rfl

theorem lt_sine_power {name : Name} {α : Expr} (hname : name = .sine ∨ name = .hsine) {b q : Expr} :
    lt (.fn name [α]) (powerOf b q) = true := by
  rcases hname with rfl | rfl <;> rfl

theorem mkMul_three {a b c z : Expr} (h : mkMul [a, b, c] = some z) : z = .fn .mul [a, b, c] := by
  simp only [mkMul, List.contains_cons] at h
  split_ifs at h
  cases h; rfl

/-- What the product of `sin(α)/α`, a constant, and a coefficient can be. -/
theorem mul_sine_power {name : Name} {α q x z : Expr} {r : Int} (hname : name = .sine ∨ name = .hsine) (hα : ConstRoot α)
    (hx : Leaf L U x)
    (h : simp n .mul (.fn .mul [.fn name [α], powerOf (.const r) q]) x = some z) :
    z = .const 0 ∨ z = .fn .mul [.fn name [α], powerOf (.const r) q] ∨
      (∃ t i, x = .value t i ∧ (z = .fn .mul [.fn name [α], powerOf (.const r) q, x])) ∨
      ∃ v, x = .const v ∧ z = .fn .mul [x, .fn name [α], powerOf (.const r) q] := by
  have e1 : ∀ y, asPower (.fn name [α]) = none ∧ asMul (.fn name [α]) = none ∧ asAdd (.fn name [α]) = none ∧
      asRecip (.fn name [α]) = none ∧ asConst (.fn name [α]) = none ∧ (.fn name [α] ≠ powerOf y q) := by
    intro y
    rcases hname with rfl | rfl <;> exact ⟨rfl, rfl, rfl, rfl, rfl, by simp⟩
  obtain ⟨s1, s2, s3, s4, s5, s6⟩ := e1 (.const r)
  cases n with
  | zero => simp [simp] at h
  | succ n =>
    change applyRules (mulRules (simp n)) (.fn .mul [.fn name [α], powerOf (.const r) q]) x = _ at h
    unfold mulRules at h
    have m1 : asMul (.fn .mul [.fn name [α], powerOf (.const r) q]) = some (.fn name [α], [powerOf (.const r) q]) := rfl
    have m2 : asAdd (.fn .mul [.fn name [α], powerOf (.const r) q]) = none := rfl
    have m3 : asRecip (.fn .mul [.fn name [α], powerOf (.const r) q]) = none := rfl
    have m4 : asConst (.fn .mul [.fn name [α], powerOf (.const r) q]) = none := rfl
    by_cases h0 : x = .const 0
    · rw [applyRules_fire (o := some (.const 0)) (by simp [mulZero, h0, fire])] at h
      cases h; exact .inl rfl
    by_cases h1 : x = .const 1
    · rw [applyRules_skip (by simp [mulZero, h0]), applyRules_fire (o := some _) (by simp [mulOne, h1, fire]; rfl)] at h
      cases h; exact .inr (.inl rfl)
    obtain ⟨l1, l2, l3, l4, -⟩ := leaf_cases hx
    have hne : .fn name [α] ≠ x := by
      rcases hx with ⟨v, rfl⟩ | ⟨_, _, -, -, rfl⟩ <;> simp
    rw [applyRules_skip (by simp [mulZero, h0]), applyRules_skip (by simp [mulOne, h1]),
      applyRules_skip (by simp [mulDistribute, l1, m2]),
      applyRules_skip (by simp [mulHelper, l2, m1, mulCollect1, hne]),
      applyRules_skip (by simp [mulHelper, l2, m1, mulCollect2, s1, l3]),
      applyRules_skip (by simp [mulHelper, l2, m1, mulCollect3, s1]),
      applyRules_skip (by simp [mulHelper, l2, m1, mulConst1, s5, s4]),
      applyRules_skip (by simp [mulConst2, m3, m4])] at h
    rcases hx with ⟨v, rfl⟩ | ⟨t, i, -, -, rfl⟩
    · have g1 : lt (.fn name [α]) (.const v) = false := rfl
      have g2 : lt (.const v) (.fn name [α]) = true := rfl
      rw [applyRules_skip (by simp [mulMergeLt, m1, asMul, g1]),
        applyRules_fire (o := mkMul [.const v, .fn name [α], powerOf (.const r) q])
          (by simp [mulMergeGt, m1, asMul, g2])] at h
      exact .inr (.inr (.inr ⟨v, rfl, mkMul_three h⟩))
    · rw [applyRules_fire (o := (simp n .mul (powerOf (.const r) q) (.value t i)).bind (simp n .mul (.fn name [α])))
          (by simp [mulMergeLt, m1, asMul, lt_sine_value hα, mkMul])] at h
      simp only [Option.bind_eq_some_iff] at h
      obtain ⟨y, hy, h⟩ := h
      cases n with
      | zero => simp [simp] at h
      | succ n =>
        have ey : y = .fn .mul [powerOf (.const r) q, .value t i] := by
          change applyRules (mulRules (simp n)) (powerOf (.const r) q) (.value t i) = _ at hy
          unfold mulRules at hy
          have g : lt (powerOf (.const r) q) (.value t i) = true := rfl
          rw [applyRules_skip (by simp [mulZero]), applyRules_skip (by simp [mulOne]),
            applyRules_skip (by simp [mulDistribute, asAdd]),
            applyRules_skip (by simp [mulHelper, asMul, mulCollect1]),
            applyRules_skip (by simp [mulHelper, asMul, mulCollect2, asPower]),
            applyRules_skip (by simp [mulHelper, asMul, mulCollect3, asPower]),
            applyRules_skip (by simp [mulHelper, asMul, mulConst1, asConst, asRecip]),
            applyRules_skip (by simp [mulConst2, asConst, asRecip]),
            applyRules_fire (o := mkMul [powerOf (.const r) q, .value t i]) (by simp [mulMergeLt, asMul, g])] at hy
          exact mkMul_two hy
        subst ey
        change applyRules (mulRules (simp n)) (.fn name [α]) (.fn .mul [powerOf (.const r) q, .value t i]) = _ at h
        unfold mulRules at h
        have n1 : asMul (.fn .mul [powerOf (.const r) q, .value t i]) = some (powerOf (.const r) q, [.value t i]) := rfl
        have n2 : asAdd (.fn .mul [powerOf (.const r) q, .value t i]) = none := rfl
        have hn3 : ¬ (.const r : Expr) = .fn name [α] := by simp
        rw [applyRules_skip (by simp [mulZero]), applyRules_skip (by simp [mulOne]),
          applyRules_skip (by simp [mulDistribute, s3, n2]),
          applyRules_skip (by simp [mulHelper, s2, n1, mulCollect1, s6]),
          applyRules_skip (by simp [mulHelper, s2, n1, mulCollect2, s1, asPower]),
          applyRules_skip (by simp [mulHelper, s2, n1, mulCollect3, s1]),
          applyRules_skip (by simp [mulHelper, s2, n1, mulConst1, s4, s5]),
          applyRules_skip (by simp [mulConst2, s4, s5]),
          applyRules_fire (o := mkMul [.fn name [α], powerOf (.const r) q, .value t i])
            (by simp [mulMergeLt, s2, n1, lt_sine_power hname])] at h
        exact .inr (.inr (.inl ⟨t, i, rfl, mkMul_three h⟩))

/-- The coefficient of the blade: `sin(α)` or `sin(α)/α`. -/
def ConstSine (L U : Nat) (name : Name) (α w : Expr) : Prop :=
  w = .fn name [α] ∨ ∃ r q, Exponent L U (powerOf (.const r) q) ∧ w = .fn .mul [.fn name [α], powerOf (.const r) q]

/-- It contains no cosine. -/
def NoCosine (name : Name) (α z : Expr) : Prop :=
  asAdd z = none ∧ z ≠ .fn name [α] ∧ ∀ args, z = .fn .mul args → .fn name [α] ∉ args

theorem const_scale {name name' : Name} {α w x z : Expr} (hname : name = .sine ∨ name = .hsine)
    (hname' : name' = .cosine ∨ name' = .hcosine) (hα : ConstRoot α) (ea : Exponent L U α)
    (hw : ConstSine L U name α w) (hx : Leaf L U x) (h : simp n .mul w x = some z) :
    Exponent L U z ∧ NoCosine name' α z := by
  have hel : name ∈ elementary := by rcases hname with rfl | rfl <;> simp [elementary]
  have es := exponent_elementary hel ea
  have ex := ge_exponent (leaf_ge (R := False) (n := n) hx).1
  have hnn : name' ≠ name := by rcases hname with rfl | rfl <;> rcases hname' with rfl | rfl <;> simp
  have hnp : name' ≠ .power := by rcases hname' with rfl | rfl <;> simp
  have hnm : name' ≠ .mul := by rcases hname' with rfl | rfl <;> simp
  have hf : ∀ τ, floating τ (.fn name [α]) = true := fun τ => by rcases hname with rfl | rfl <;> rfl
  have hp : asPower (.fn name [α]) = none := by rcases hname with rfl | rfl <;> rfl
  have hxn : x ≠ .fn name' [α] := by rcases hx with ⟨v, rfl⟩ | ⟨_, _, -, -, rfl⟩ <;> simp
  have h0 : Exponent L U (.const 0) ∧ NoCosine name' α (.const 0) := ⟨exponent_const 0, rfl, by simp, by simp⟩
  have nS : asAdd (.fn name [α]) = none ∧ asMul (.fn name [α]) = none ∧ asRecip (.fn name [α]) = none ∧
      ∀ args, (.fn name [α] : Expr) ≠ .fn .mul args := by
    rcases hname with rfl | rfl <;> exact ⟨rfl, rfl, rfl, by simp⟩
  have hS : Exponent L U (.fn name [α]) ∧ NoCosine name' α (.fn name [α]) :=
    ⟨es, nS.1, by simpa using hnn.symm, fun args e => absurd e (nS.2.2.2 args)⟩
  rcases hw with rfl | ⟨r, q, ei, rfl⟩
  · by_cases hx0 : x = .const 0
    · subst hx0
      cases n with
      | zero => simp [simp] at h
      | succ n =>
        change applyRules (mulRules (simp n)) (.fn name [α]) (.const 0) = some z at h
        unfold mulRules at h
        rw [applyRules_fire (o := some (.const 0)) (by simp [mulZero, fire])] at h
        cases h; exact h0
    by_cases hx1 : x = .const 1
    · subst hx1
      obtain rfl := simp_mul_one h
      exact hS
    have hz := mul_pair_fn (by simp) nS.1 nS.2.1 hp nS.2.2.1 hx0 hx1
      (by rcases hx with ⟨v, rfl⟩ | ⟨_, _, -, -, rfl⟩ <;> rfl) (by rcases hx with ⟨v, rfl⟩ | ⟨_, _, -, -, rfl⟩ <;> rfl)
      (by rcases hx with ⟨v, rfl⟩ | ⟨_, _, -, -, rfl⟩ <;> simp [asPower])
      (by rcases hx with ⟨v, rfl⟩ | ⟨_, _, -, -, rfl⟩ <;> simp) h
    refine ⟨exponent_mul es ex hf hp hz, ?_⟩
    rcases hz with rfl | rfl
    · exact ⟨rfl, by simp, fun args e => by cases e; simpa using ⟨hnn, Ne.symm hxn⟩⟩
    · exact ⟨rfl, by simp, fun args e => by cases e; simpa using ⟨Ne.symm hxn, hnn⟩⟩
  · have ew : Exponent L U (.fn .mul [.fn name [α], powerOf (.const r) q]) := exponent_mul es ei hf hp (.inl rfl)
    rcases mul_sine_power hname hα hx h with rfl | rfl | ⟨t, i, rfl, rfl⟩ | ⟨v, rfl, rfl⟩
    · exact h0
    · exact ⟨ew, rfl, by simp, fun args e => by cases e; simp [hnn, hnp]⟩
    · refine ⟨⟨.mul _ (by simp) (by simp [es.ev, ei.ev, ex.ev]), .fn _ _ (by simp [es.built, ei.built, ex.built])
        (fun h => by cases h) (fun _ => by simp) (fun h => by cases h), fun τ => ?_⟩, rfl, by simp,
        fun args e => by cases e; simp [hnn, hnp]⟩
      rw [NoIntQuotient]
      refine ⟨by simp [NoIntQuotientAll, es.noInt, ei.noInt, ex.noInt], fun pre l r e => ?_⟩
      have := congrArg (fun x => x.reverse[0]?) e
      simp at this
    · refine ⟨⟨.mul _ (by simp) (by simp [es.ev, ei.ev, ex.ev]), .fn _ _ (by simp [es.built, ei.built, ex.built])
        (fun h => by cases h) (fun _ => by simp) (fun h => by cases h), fun τ => ?_⟩, rfl, by simp,
        fun args e => by cases e; simp [hnn, hnp]⟩
      rw [NoIntQuotient]
      refine ⟨by simp [NoIntQuotientAll, es.noInt, ei.noInt, ex.noInt], fun pre l r e => .inr (.inl ?_)⟩
      have := congrArg (fun x => x.reverse[1]?) e
      simp at this
      rw [← this]
      exact hf τ

theorem const_sum {name' : Name} {α z e : Expr} (hname' : name' = .cosine ∨ name' = .hcosine) (ea : Exponent L U α)
    (ez : Exponent L U z) (hz : NoCosine name' α z) (h : simp n .add (.fn name' [α]) z = some e) : Exponent L U e := by
  have hel : name' ∈ elementary := by rcases hname' with rfl | rfl <;> simp [elementary]
  have es := exponent_elementary hel ea
  by_cases h0 : z = .const 0
  · subst h0
    cases n with
    | zero => simp [simp] at h
    | succ n =>
      change applyRules (addRules (simp n)) (.fn name' [α]) (.const 0) = some e at h
      unfold addRules at h
      rw [applyRules_fire (o := some (.fn name' [α])) (by simp [addZero, fire])] at h
      cases h
      exact es
  obtain ⟨z1, z2, z3⟩ := hz
  have n1 : asAdd (.fn name' [α]) = none ∧ asRecip (.fn name' [α]) = none ∧
      ∀ args, (.fn name' [α] : Expr) ≠ .fn .mul args := by
    rcases hname' with rfl | rfl <;> exact ⟨rfl, rfl, by simp⟩
  have NI : ∀ τ, NoIntQuotientAll τ [.fn name' [α], z] := fun τ => ⟨es.noInt τ, ez.noInt τ, trivial⟩
  have NI' : ∀ τ, NoIntQuotientAll τ [z, .fn name' [α]] := fun τ => ⟨ez.noInt τ, es.noInt τ, trivial⟩
  rcases add_pair n1.1 z1 (by simp) h0 n1.2.2 (Ne.symm z2) z3 (.inl ⟨rfl, n1.2.1⟩) h with rfl | rfl
  · exact ⟨.add _ (by simp) (by simp [es.ev, ez.ev]), .fn _ _ (by simp [es.built, ez.built])
      (fun _ => by simp) (fun h => by cases h) (fun h => by cases h), fun τ => NI τ⟩
  · exact ⟨.add _ (by simp) (by simp [es.ev, ez.ev]), .fn _ _ (by simp [es.built, ez.built])
      (fun _ => by simp) (fun h => by cases h) (fun h => by cases h), fun τ => NI' τ⟩

/-- The sum of the cosine and the multiple of the blade. -/
theorem const_assemble (hN : N ≤ 62) {b : CSum} {B : MV ℝ} (hb : Within (Leaf L U) b) (dB : SumDenotes ρ N b B)
    {name name' : Name} {α w : Expr} {x y : ℝ} (hname : name = .sine ∨ name = .hsine)
    (hname' : name' = .cosine ∨ name' = .hcosine) (hα : ConstRoot α) (ea : Exponent L U α)
    (hw : ConstSine L U name α w) (vc : V ρ (.fn name' [α]) x) (vw : V ρ w y) {u e : CSum}
    (hu : mulC (extMapping N) k [mkComp w (.const 0)] b = some u)
    (he : addC k [mkComp (.fn name' [α]) (.const 0)] u = some e) :
    Within (Exponent L U) e ∧ SumDenotes ρ N e (Finsupp.single 0 x + y • B) := by
  rw [expCoef_comp] at hu
  rw [expCoef_comp] at he
  have hw0 : w ≠ .const 0 := by rcases hw with rfl | ⟨r, q, -, rfl⟩ <;> simp
  have hsc := scale_left (Q := fun z => Exponent L U z ∧ NoCosine name' α z) (ext_unit hN)
    ⟨exponent_const 0, rfl, by simp, by simp⟩ hw0 b k u hb.1 (inSpaceC_of dB)
    (fun d hd j z hz => const_scale hname hname' hα ea hw (hb.2 d hd) hz) hu
  have dU := (op_denotes hN) ρ _ b u _ B (single_denotes (N := N) vw.1 vw.2) dB hu
  have dE := addC_ok (by omega) k _ u e _ _ (single_denotes (N := N) vc.1 vc.2) dU he
  have hop : op (Finsupp.single 0 y) B = y • B := op_scalar_left y B
  rw [hop] at dE
  have hel : name' ∈ elementary := by rcases hname' with rfl | rfl <;> simp [elementary]
  exact ⟨addC_scalar_within (exponent_elementary hel ea) (within_mono (fun _ h => h.1) hsc.1)
    (fun d hd j z hz => const_sum hname' ea (hsc.1.2 d hd).1 (hsc.1.2 d hd).2 hz) he, dE⟩

/-- The shapes of the root and of the product with its inverse. -/
theorem const_shapes {c : Int} {sq α i : Expr} (ρ : Env) (hc : c ≠ 0) (h2 : mkAbsolute (simp k) (.const c) = some sq)
    (h3 : simp k .pow sq half = some α) (h4 : simp k .pow α (.const (-1)) = some i) :
    ConstRoot α ∧ ∀ name z, name = .sine ∨ name = .hsine → simp k .mul (.fn name [α]) i = some z →
      ConstSine L U name α z := by
  have hR := root_const (ρ := ρ) (L := L) (U := U) (t := .value 0 0) hc h2 h3 h4
    (by simp only [mkLessOrEqual]; split_ifs <;> simp)
  obtain ⟨v, rfl⟩ := abs_const_shape h2
  have hpos : 0 < |(c : ℝ)| := abs_pos.2 (by exact_mod_cast hc)
  have hs : 0 < √|(c : ℝ)| := Real.sqrt_pos.2 hpos
  have hv0 : v ≠ 0 := by
    rintro rfl
    have := V.const_eq hR.vq
    simp only [Int.cast_zero] at this
    exact hpos.ne' this
  have vi := hR.vi (by exact_mod_cast hc)
  have fin : ∀ name z, name = .sine ∨ name = .hsine → ((∃ r, i = .const r ∧ r = 1) ∨ ∃ r q, Exponent L U (powerOf (.const r) q) ∧
      i = powerOf (.const r) q) → simp k .mul (.fn name [α]) i = some z → ConstSine L U name α z := by
    rintro name z hname hi hz
    rcases hi with ⟨r, rfl, rfl⟩ | ⟨r, q, ei, rfl⟩
    · exact .inl (simp_mul_one hz)
    · cases k with
      | zero => simp [simp] at hz
      | succ k =>
        have s1 : asAdd (.fn name [α]) = none ∧ asMul (.fn name [α]) = none ∧ asPower (.fn name [α]) = none ∧
            asRecip (.fn name [α]) = none ∧ asConst (.fn name [α]) = none ∧ (.fn name [α] : Expr) ≠ powerOf (.const r) q := by
          rcases hname with rfl | rfl <;> exact ⟨rfl, rfl, rfl, rfl, rfl, by simp⟩
        obtain ⟨s1, s2, s3, s4, s5, s6⟩ := s1
        change applyRules (mulRules (simp k)) (.fn name [α]) (powerOf (.const r) q) = _ at hz
        unfold mulRules at hz
        have n1 : asMul (powerOf (.const r) q) = none := rfl
        have n2 : asAdd (powerOf (.const r) q) = none := rfl
        rw [applyRules_skip (by simp [mulZero]), applyRules_skip (by simp [mulOne]),
          applyRules_skip (by simp [mulDistribute, s1, n2]),
          applyRules_skip (by simp [mulHelper, s2, n1, mulCollect1, s6]),
          applyRules_skip (by simp [mulHelper, s2, n1, mulCollect2, asPower]),
          applyRules_skip (by simp [mulHelper, s2, n1, mulCollect3, s3]),
          applyRules_skip (by simp [mulHelper, s2, n1, mulConst1, s4, s5]),
          applyRules_skip (by simp [mulConst2, s4, s5]),
          applyRules_fire (o := mkMul [.fn name [α], powerOf (.const r) q])
            (by simp [mulMergeLt, s2, n1, lt_sine_power hname])] at hz
        exact .inr ⟨r, q, ei, mkMul_two hz⟩
  rcases root_const_shape h3 with ⟨r, rfl⟩ | rfl
  · refine ⟨.inl ⟨r, rfl⟩, fun name z hname hz => fin name z hname ?_ hz⟩
    have hr := V.const_eq hR.va
    obtain ⟨r', rfl | rfl⟩ := inv_const_shape h4
    · left
      refine ⟨r', rfl, ?_⟩
      have hi := V.const_eq vi
      have h1 : (r : ℝ) * r' = 1 := by
        rw [← hr, ← hi]
        exact mul_inv_cancel₀ hs.ne'
      have h1 : r * r' = 1 := by exact_mod_cast h1
      rcases Int.eq_one_or_neg_one_of_mul_eq_one' h1 with ⟨-, h⟩ | ⟨h, -⟩
      · exact h
      · rw [h] at hr
        rw [hr] at hs
        norm_num at hs
    · exact .inr ⟨r', _, exponent_recip r', rfl⟩
  · refine ⟨.inr ⟨v, rfl⟩, fun name z hname hz => fin name z hname ?_ hz⟩
    cases k with
    | zero => simp [simp] at h4
    | succ k =>
    by_cases hv1 : v = 1
    · exfalso
      subst hv1
      have : simp (k + 1) .pow (.const 1) half = some (.const 1) := by
        change applyRules (powRules (simp k)) (.const 1) half = _
        unfold powRules
        rw [applyRules_fire (o := some (.const 1)) (by simp [powMisc1, fire])]
      rw [this] at h3
      cases h3
    · rcases inv_root_shape hv0 h4 with ⟨r, rfl⟩ | rfl
      · exfalso
        rw [pow_power (by decide) (by decide)] at h4
        simp only [Option.bind_eq_some_iff] at h4
        obtain ⟨q, hq, h⟩ := h4
        obtain rfl := simp_eq hq half_neg
        cases k with
        | zero => simp [simp] at h
        | succ k =>
          change applyRules (powRules (simp k)) (.const v) minusHalf = _ at h
          unfold powRules at h
          rw [applyRules_skip (by simp [powMisc1, hv0, hv1]), applyRules_skip (by simp [powMisc2, minusHalf]),
            applyRules_skip (by simp [powMisc3, minusHalf, half, asConst]),
            applyRules_fire (o := some (powerOf (.const v) minusHalf)) (by simp [powDistribute, asMul, asPower, fire])] at h
          cases h
      · exact .inr ⟨v, _, exponent_power_const v exponent_minusHalf, rfl⟩

/-- The exponential when square and tolerance are constants and the square exceeds the tolerance. -/
theorem exp_const_core {P Q R : Nat} (hN : P + Q + R ≤ 62) {b e : CSum} {B : MV ℝ} (hb : Within (Leaf L U) b)
    (dB : SumDenotes ρ (P + Q + R) b B) {c : Int} {sq t α i : Expr} {tol : ℝ} (hc : c ≠ 0) (vt : Denotes ρ t tol)
    (hle : mkLessOrEqual sq t = .cbool false)
    (h1 : mulC (orthMapping (P + Q + R) (mkSignedFactor P Q R) .sp) k b b = some [⟨.const c, .const 0⟩])
    (h2 : mkAbsolute (simp k) (.const c) = some sq) (h3 : simp k .pow sq half = some α)
    (h4 : simp k .pow α (.const (-1)) = some i) (he : expExpr P Q R k b t = some e) :
    Within (Exponent L U) e ∧
      SumDenotes ρ (P + Q + R) e (Finsupp.single 0 (cosCoef c √|(c : ℝ)| tol) + sinCoef c √|(c : ℝ)| tol • B) := by
  have hR := root_const (ρ := ρ) (L := L) (U := U) (t := .value 0 0) hc h2 h3 h4
    (by simp only [mkLessOrEqual]; split_ifs <;> simp)
  obtain ⟨hα, hw⟩ := const_shapes (L := L) (U := U) ρ hc h2 h3 h4
  simp only [expExpr, h1, scalarCoef_single, h2, Option.bind_eq_bind, Option.bind_some, Option.bind_eq_some_iff] at he
  obtain ⟨hf, hhf, α', h3', i', h4', z1, hz1, z2, hz2, u, hu, he⟩ := he
  obtain rfl := half_eq hhf
  rw [h3] at h3'; cases h3'
  rw [h4] at h4'; cases h4'
  have hx : ¬ |(c : ℝ)| ≤ tol := by
    have := le_den hR.vq.2 vt
    rw [hle] at this
    simpa [den] using this
  have vi := hR.vi (by exact_mod_cast hc)
  have vcos := v_elementary (ρ := ρ) (name := .cosine) (z := Real.cos √|(c : ℝ)|) (by simp [elementary]) hR.va rfl
  have vcosh := v_elementary (ρ := ρ) (name := .hcosine) (z := Real.cosh √|(c : ℝ)|) (by simp [elementary]) hR.va rfl
  have vsin := v_elementary (ρ := ρ) (name := .sine) (z := Real.sin √|(c : ℝ)|) (by simp [elementary]) hR.va rfl
  have vsinh := v_elementary (ρ := ρ) (name := .hsine) (z := Real.sinh √|(c : ℝ)|) (by simp [elementary]) hR.va rfl
  have e0 : mkLessOrEqual (.const c) (.const 0) = .cbool (decide (c ≤ 0)) := rfl
  rw [hle, e0] at hu he
  by_cases h0 : c ≤ 0
  · have h0' : (c : ℝ) ≤ 0 := by exact_mod_cast h0
    rw [decide_eq_true h0] at hu he
    simp only [cosCoef, sinCoef, if_neg hx, if_pos h0']
    exact const_assemble hN hb dB (.inl rfl) (.inl rfl) hα hR.ea (hw _ _ (.inl rfl) hz1) vcos
      ((simp_sound ρ k).mul _ _ _ _ _ vsin vi hz1) hu he
  · have h0' : ¬ (c : ℝ) ≤ 0 := by exact_mod_cast h0
    rw [decide_eq_false h0] at hu he
    simp only [cosCoef, sinCoef, if_neg hx, if_neg h0']
    exact const_assemble hN hb dB (.inr rfl) (.inr rfl) hα hR.ea (hw _ _ (.inr rfl) hz2) vcosh
      ((simp_sound ρ k).mul _ _ _ _ _ vsinh vi hz2) hu he

end GATL
