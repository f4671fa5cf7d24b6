import Verif.Proofs.NormSquare
import Verif.Proofs.NormForm
import Verif.Proofs.ExpConst

/-!
A squared norm that does not depend on the stored coefficients is a constant at compile time.
-/

namespace GATL

open Expr Spec

variable {ρ : Env} {τ : Types} {N n k P Q R : Nat}

/-! ### Stored coefficients do not matter -/

theorem reads_change {s : CSum} {vs : List ℝ} {ws : List Word} {A : MV ℝ} (h : Reads ρ N s vs ws A) {c : Comp} {b : Word}
    (hc : c ∈ s) (hs : c.coef = .stored) (hb : c.blade = .const b) (x : ℝ) :
    ∃ vs', Reads ρ N s vs' ws (A + Finsupp.single b x) := by
  induction h with
  | nil => simp at hc
  | @cons c' b' s vs ws vs' ws' y t m hc' hb' hwt hr ih =>
    rcases List.mem_cons.1 hc with rfl | hc
    · dsimp only at hs hb
      subst hs hb
      cases hb'
      cases hc' with
      | stored =>
        refine ⟨[y + x] ++ vs', ?_⟩
        have := Reads.cons (.stored (y + x)) (.const b) (by simpa [WellTyped] using hwt) hr
        have e : (Finsupp.single b y + m + Finsupp.single b x : MV ℝ) = Finsupp.single b y + Finsupp.single b x + m := by abel
        simpa [TBlade.bits, e] using this
      | symbolic _ _ h => simp [hasStored] at h
    · obtain ⟨ws2, h2⟩ := ih hc
      exact ⟨_, by rw [add_assoc]; exact Reads.cons hc' hb' hwt h2⟩

theorem reads_cons_inv {c : Expr} {b : Blade} {s : CSum} {vs : List ℝ} {ws : List Word} {A : MV ℝ}
    (h : Reads ρ N (⟨c, b⟩ :: s) vs ws A) : ∃ vs1 ws1 vs2 ws2 x t m, CoefReads ρ c vs1 x ∧ BladeReads ρ b ws1 t ∧
      Reads ρ N s vs2 ws2 m ∧ A = Finsupp.single t.bits x + m := by
  cases h with
  | cons hc hb _ hs => exact ⟨_, _, _, _, _, _, _, hc, hb, hs, rfl⟩

/-- Without stored coefficients a type has one value. -/
theorem reads_same {s : CSum} (hp : Plain s) (hs : ∀ c ∈ s, c.coef ≠ .stored) {vs vs' : List ℝ} {ws ws' : List Word} {A A' : MV ℝ}
    (h : Reads ρ N s vs ws A) (h' : Reads ρ N s vs' ws' A') : A = A' := by
  have hk := canonical_known hp.1
  clear hp
  induction h generalizing vs' ws' A' with
  | nil => cases h'; rfl
  | @cons c b s vs ws vs' ws' y t m hc hb hwt hr ih =>
    cases h' with
    | cons hc' hb' hwt' hr' =>
      obtain ⟨w, rfl, -⟩ := hk ⟨c, b⟩ (by simp)
      rw [ih (fun c hc => hs c (by simp [hc])) hr' fun c hc => hk c (by simp [hc])]
      cases hb; cases hb'
      cases hc with
      | stored => exact absurd rfl (hs _ (List.mem_cons_self ..))
      | symbolic _ _ _ _ e =>
        cases hc' with
        | stored => exact absurd rfl (hs _ (List.mem_cons_self ..))
        | symbolic _ _ _ _ e' =>
          unfold Denotes at e e'
          rw [e] at e'
          simp only [Option.some.injEq, Val.num.injEq] at e'
          rw [e']

/-- The basis blades of the stored coefficients square to zero. -/
theorem stored_factor {M : Object} {A : MV ℝ} (hM : Represents ρ (P + Q + R) M A) (h : ConstantNorm ρ P Q R M) {c : Comp} {b : Word}
    (hc : c ∈ M.expr) (hs : c.coef = .stored) (hb : c.blade = .const b) : signedFactor P Q R b = 0 := by
  obtain ⟨x, h⟩ := h
  have h0 := h _ _ hM.2
  obtain ⟨v1, r1⟩ := reads_change hM.2 hc hs hb 1
  obtain ⟨v2, r2⟩ := reads_change hM.2 hc hs hb (-1)
  have h1 := h _ _ r1
  have h2 := h _ _ r2
  rw [norm_add_single, h0] at h1 h2
  have : (signedFactor P Q R b : ℝ) = 0 := by linarith
  exact_mod_cast this

/-! ### The arguments -/

theorem tagC_comps {T : Nat} (s : CSum) : ∀ (v b : Nat) (a : CSum),
    (∀ c ∈ s, (c.coef = .stored ∨ ∃ v, c.coef = .const v) ∧ Known c) → tagC T v b s = some a →
    ∀ d ∈ a, IsConst d.coef ∨ ∃ c ∈ s, c.coef = .stored ∧ d.blade = c.blade := by
  induction s with
  | nil =>
    intro v b a _ h
    simp only [tagC, Option.some.injEq] at h
    subst h
    intro d hd; simp at hd
  | cons c cs ih =>
    intro v b a hs h d hd
    simp only [tagC, Option.bind_eq_bind, Option.bind_eq_some_iff, Option.some.injEq] at h
    obtain ⟨bl, h1, rest, h2, rfl⟩ := h
    rcases List.mem_cons.1 hd with rfl | hd
    · obtain ⟨hp, hk⟩ := hs c (by simp)
      obtain ⟨w, ew, hw⟩ := id hk
      rw [ew] at h1
      simp only [Blade.tag, Option.some.injEq] at h1
      subst h1
      have h3 := mkComp_known (c := c.coef.tag T v b) hk
      rw [ew] at h3
      rcases hp with h | ⟨v', h⟩
      · refine .inr ⟨c, by simp, h, ?_⟩
        rw [h3.2.2 (by rw [h]; simp [Expr.tag]), ew]
      · exact .inl ⟨v', by rw [h3.2.1, h]; simp [Expr.tag]⟩
    · rcases ih _ _ rest (fun c hc => hs c (by simp [hc])) h2 d hd with h | ⟨c', hc', h⟩
      · exact .inl h
      · exact .inr ⟨c', by simp [hc'], h⟩

theorem arguments_comps {base : Nat} {M : Object} (hp : Plain M.expr) {a : CSum} (h : arguments base [M] = some [a]) :
    ∀ d ∈ a, IsConst d.coef ∨ ∃ c ∈ M.expr, c.coef = .stored ∧ d.blade = c.blade := by
  unfold arguments at h
  by_cases hst : hasStoredC M.expr = true
  · rw [if_pos hst] at h
    simp only [Option.bind_eq_bind, Option.bind_eq_some_iff, Option.some.injEq, List.cons.injEq] at h
    obtain ⟨a', ha, as', -, rfl, -⟩ := h
    exact tagC_comps M.expr 0 0 a' (fun c hc => ⟨hp.2 c hc, canonical_known hp.1 c hc⟩) ha
  · rw [if_neg hst] at h
    simp only [Option.bind_eq_bind, Option.bind_eq_some_iff, Option.some.injEq, List.cons.injEq] at h
    obtain ⟨as', -, rfl, -⟩ := h
    intro d hd
    rcases hp.2 d hd with h | h
    · exact .inr ⟨d, hd, h, rfl⟩
    · exact .inl h

/-! ### The scalar product -/

/-- A scalar whose coefficient is a constant. -/
def ScalarConst (e : CSum) : Prop := ∃ c, e = [c] ∧ (c.coef = .const 0 ∨ c.blade = .const 0 ∧ IsConst c.coef)

theorem scalarConst_add {a b e : CSum} (ha : ScalarConst a) (hb : ScalarConst b) (h : addC k a b = some e) :
    ScalarConst e := by
  obtain ⟨c, rfl, hc⟩ := ha
  obtain ⟨d, rfl, hd⟩ := hb
  cases k with
  | zero => simp [addC] at h
  | succ k =>
    unfold addC at h
    simp only [and_true] at h
    by_cases hc0 : c.coef = .const 0
    · rw [if_pos hc0] at h
      by_cases hd0 : d.coef = .const 0
      · rw [if_pos hd0] at h
        cases h
        exact ⟨c, rfl, hc⟩
      · rw [if_neg hd0] at h
        cases h
        exact ⟨d, rfl, hd⟩
    · rw [if_neg hc0] at h
      by_cases hd0 : d.coef = .const 0
      · rw [if_pos hd0] at h
        cases h
        exact ⟨c, rfl, hc⟩
      · rw [if_neg hd0] at h
        obtain ⟨b1, v1, l1⟩ := hc.resolve_left hc0
        obtain ⟨b2, v2, l2⟩ := hd.resolve_left hd0
        rw [if_pos (by rw [b1, b2])] at h
        simp only [Option.bind_eq_bind, Option.bind_eq_some_iff, Option.some.injEq] at h
        obtain ⟨x, hx, rfl⟩ := h
        rw [l1, l2] at hx
        have hl := add_const_const hx
        have hg : (Blade.const 0).grades ≠ 0 := by decide
        refine ⟨_, rfl, .inr ?_⟩
        rw [b1, mkComp, if_neg hg]
        exact ⟨by split <;> rfl, hl⟩

/-- The scalar product of two basis blades. -/
theorem sp_metric (hN : N ≤ 62) {factor : Expr → Expr} (hc : ∀ b, IsConst (factor (.cbits b))) {q : Fin 64 → ℝ}
    (hf : ∀ ρ b w, BV ρ b w → V ρ (factor b) (diagFactor q w)) {l r : Word} {es : CSum}
    (hl : ∀ i ∈ vecs l, i.val < N) (hr : ∀ i ∈ vecs r, i.val < N)
    (h : orthMapping N factor .sp k (.const l) (.const r) = some es) :
    ∃ v b, es = [⟨.const v, .const b⟩] ∧ (v = 0 ∨ l = r ∧ b = 0 ∧ diagFactor q l ≠ 0) := by
  obtain ⟨ρ⟩ := mapping_env
  obtain ⟨⟨c, bl⟩, rfl, ⟨v, e⟩, ⟨b', eb, -⟩⟩ := orthMapping_const (dims := N) (by omega) hc .sp k l r es
    (fun i hi => by have := hl i hi; omega) (fun i hi => by have := hr i hi; omega) h
  dsimp only at e eb
  subst e eb
  obtain ⟨-, A, hA, -, hs⟩ := orthMapping_ok (ρ := ρ) hN (hf ρ) .sp N k (.const l) (.const r) _ (.const l) (.const r) 1
    (.inl rfl) h (fun _ _ h => by cases h) (fun _ _ h => by cases h) rfl rfl hl hr
  obtain ⟨⟨z, t⟩, A', ⟨hz, ht⟩, hA', rfl⟩ := List.forall₂_cons_left_iff.1 hA
  obtain rfl := List.forall₂_nil_left_iff.1 hA'
  have ht : t = .const b' := ht
  have hz' : some (Val.num (v : ℝ)) = some (.num z) := hz
  simp only [Option.some.injEq, Val.num.injEq] at hz'
  subst ht hz'
  have hsp := sp_single (diagFactor q) l r (1 : ℝ) 1
  unfold orthProd at hsp
  simp only [List.map_cons, List.map_nil, List.sum_cons, List.sum_nil, add_zero, one_mul, one_smul,
    TBlade.bits] at hs
  rw [hsp] at hs
  refine ⟨v, b', rfl, ?_⟩
  rcases Finsupp.single_eq_single_iff .. |>.1 hs with ⟨rfl, h1⟩ | ⟨h1, -⟩
  · by_cases hlr : l = r
    · by_cases h0 : diagFactor q l = 0
      · rw [if_pos hlr, h0] at h1
        exact .inl (by simpa using h1)
      · exact .inr ⟨hlr, rfl, h0⟩
    · rw [if_neg hlr] at h1
      exact .inl (by simpa using h1)
  · exact .inl (by exact_mod_cast h1)

section
variable {factor : Expr → Expr} (hc : ∀ b, IsConst (factor (.cbits b))) {q : Fin 64 → ℝ}
  (hf : ∀ ρ b w, BV ρ b w → V ρ (factor b) (diagFactor q w)) (hN : N ≤ 62)
include hc hf hN

theorem scalarConst_mul (k : Nat) : ∀ {a b e : CSum}, (∀ c ∈ a, Known c) → (∀ c ∈ b, Known c) →
    InSpaceC N a → InSpaceC N b → (∀ c ∈ a, ∀ d ∈ b, ∀ w, c.blade = .const w → d.blade = .const w → diagFactor q w ≠ 0 →
      IsConst c.coef ∧ IsConst d.coef) →
    mulC (orthMapping N factor .sp) k a b = some e → ScalarConst e := by
  induction k with
  | zero => intro a b e _ _ _ _ _ h; simp [mulC] at h
  | succ k ih =>
    intro a b e ka kb ha hb H h
    cases a with
    | nil => simp [mulC] at h
    | cons x as =>
    cases b with
    | nil => simp [mulC] at h
    | cons y bs =>
    have sub : ∀ {a' b' : CSum} {e' : CSum}, a' ⊆ x :: as → b' ⊆ y :: bs →
        mulC (orthMapping N factor .sp) k a' b' = some e' → ScalarConst e' := fun h1 h2 h3 =>
      ih (fun c hc => ka c (h1 hc)) (fun c hc => kb c (h2 hc)) (fun c hc => ha c (h1 hc)) (fun d hd => hb d (h2 hd)) (fun c hc d hd => H c (h1 hc) d (h2 hd)) h3
    unfold mulC at h
    by_cases h1 : x.coef = .const 0 ∧ as = []
    · rw [if_pos h1] at h
      cases h
      exact ⟨x, rfl, .inl h1.1⟩
    rw [if_neg h1] at h
    by_cases h2 : y.coef = .const 0 ∧ bs = []
    · rw [if_pos h2] at h
      cases h
      exact ⟨y, rfl, .inl h2.1⟩
    rw [if_neg h2] at h
    split at h
    · simp only [Option.bind_eq_bind, Option.bind_eq_some_iff] at h
      obtain ⟨z, hz, es, hes, h⟩ := h
      obtain ⟨l, el, -⟩ := ka x (by simp)
      obtain ⟨r, er, -⟩ := kb y (by simp)
      have hl := ha x (by simp) l el
      have hr := hb y (by simp) r er
      rw [el, er] at hes
      obtain ⟨v, b, rfl, hv⟩ := sp_metric hN hc hf hl hr hes
      simp only [distribute, Option.bind_eq_bind, Option.bind_eq_some_iff, Option.some.injEq] at h
      obtain ⟨w, hw, rfl⟩ := h
      refine ⟨_, rfl, ?_⟩
      rcases hv with rfl | ⟨rfl, rfl, hq⟩
      · left
        obtain rfl := mul_zero_right hw
        unfold mkComp
        dsimp only
        split <;> rfl
      · right
        have hg : (Blade.const 0).grades ≠ 0 := by decide
        obtain ⟨⟨v1, e1⟩, ⟨v2, e2⟩⟩ := H x (by simp) y (by simp) l el er hq
        rw [e1, e2] at hz
        obtain ⟨v3, rfl⟩ := mul_const_const hz
        have hm := mul_const_const hw
        rw [mkComp, if_neg hg]
        exact ⟨by split <;> rfl, hm⟩
    all_goals simp only [Option.bind_eq_bind, Option.bind_eq_some_iff] at h
    · obtain ⟨u, hu, v, hv, h⟩ := h
      exact scalarConst_add (sub (by simp) (by simp) hu) (sub (by simp) (by simp) hv) h
    · obtain ⟨u, hu, v, hv, h⟩ := h
      exact scalarConst_add (sub (by simp) (by simp) hu) (sub (by simp) (by simp) hv) h
    · obtain ⟨u1, h1, u2, h2, u, hu, v1, h3, v2, h4, v, hv, h⟩ := h
      exact scalarConst_add (scalarConst_add (sub (by simp) (by simp) h1) (sub (by simp) (by simp) h2) hu)
        (scalarConst_add (sub (by simp) (by simp) h3) (sub (by simp) (by simp) h4) hv) h

end

/-- A squared norm that does not depend on the stored coefficients is a constant at compile time. -/
theorem normCoef_constant (hN : P + Q + R ≤ 62) {M : Object} {A : MV ℝ} (hM : Represents ρ (P + Q + R) M A) {v : Expr}
    (hv : normCoef P Q R k M = some v) (hcn : ConstantNorm ρ P Q R M) : ∃ c : Int, v = .const c := by
  obtain ⟨as, h1, h2, h3, -⟩ := arguments_ok (outer := ρ) (Ms := [M]) (As := [A]) (by omega) (.cons hM .nil)
  obtain ⟨a, as', d1, h3', rfl⟩ := List.forall₂_cons_right_iff.1 h3
  obtain rfl := List.forall₂_nil_right_iff.1 h3'
  have w1 := h2 a (by simp)
  have hco := arguments_comps hM.1 h1
  simp only [normCoef, h1, Option.bind_eq_bind, Option.bind_some, Option.bind_eq_some_iff] at hv
  obtain ⟨ra, hra, sa, hsa, hv⟩ := hv
  obtain rfl := scalarCoef_inv hv
  obtain ⟨c1, c2⟩ := minus_comps w1.1 hra
  have hconst : ∀ c ∈ a, ∀ w, c.blade = .const w → diagFactor (fun i => ((signature P Q R i : Int) : ℝ)) w ≠ 0 → IsConst c.coef := by
    intro c hc w hw hq
    rcases hco c hc with h | ⟨c', hc', hs, hb⟩
    · exact h
    · have := stored_factor hM hcn hc' hs (hb.symm.trans hw)
      rw [← congrFun (signedFactor_cast (K := ℝ) P Q R (by omega)) w] at hq
      exact absurd (by exact_mod_cast this) hq
  obtain ⟨c, ec, hc⟩ := scalarConst_mul (mkSignedFactor_const P Q R) (signed_factor hN) hN k
    (canonical_known w1.1) (canonical_known c1) (inSpaceC_of d1)
    (inSpaceC_of ((good_reverse (by omega)).denotes _ _ _ _ d1 hra))
    (fun c hc d hd w hw hw' hq => by
      refine ⟨hconst c hc w hw hq, ?_⟩
      rcases c2 d hd with h | ⟨c', hc', e', h⟩
      · exact ⟨0, h⟩
      · obtain ⟨v, hv⟩ := hconst c' hc' w (e'.symm.trans hw') hq
        rcases h with h | ⟨j, h⟩
        · exact ⟨v, h.trans hv⟩
        · rw [hv] at h; exact mul_const_const h) hsa
  cases ec
  rcases hc with h0 | ⟨-, h⟩
  · exact ⟨0, h0⟩
  · exact h

/-! ### The norm -/

theorem compile_root {c : Int} {α : Expr} {L U : Nat} (hα : simp 1 .pow (.const c) half = some α) (hk : 10 ≤ k) :
    compile k L U α = some (α, []) := by
  rcases root_const_shape hα with ⟨r, rfl⟩ | rfl
  · rfl
  · have h1 : simp k .pow (.const 2) (.const (-1)) = some half :=
      simp_mono (by omega) _ _ _ _ (show simp 5 .pow (.const 2) (.const (-1)) = some half by decide +kernel)
    have h2 := simp_mono (show 1 ≤ k by omega) _ _ _ _ hα
    have h3 : compile k L U half = some (half, []) := by
      simp only [half, powerOf, compile, Option.bind_eq_bind, Option.bind_some]
      rw [h1]
      rfl
    simp only [powerOf, compile, Option.bind_eq_bind, Option.bind_some]
    rw [h3]
    simp only [Option.bind_some]
    rw [h2]
    rfl

namespace Total

/-- `rnorm` compiles, and is the root of the constant, also if there are stored coefficients. -/
theorem rnorm_root_total {M : Object} {A : MV ℝ} {a ra : CSum} {c : Int} (h : NormType P Q R ρ M A a ra (.const c)) (h0 : 0 ≤ c) :
    ∃ k0, ∀ k, k0 ≤ k → ∃ o, normObject P Q R k τ ρ M = some o ∧
      Reads ρ (P + Q + R) o.expr o.values o.bitsets (Finsupp.single 0 (√(c : ℝ))) := by
  obtain ⟨α, hα, hst, hv⟩ := root_of_const h0 (h.small c rfl)
  have e1 : Ev (fun k => sqrtExpr k [⟨.const c, .const 0⟩]) [⟨α, .const 0⟩] := by
    have e1 : Ev (fun k => simp k .pow (.const 2) (.const (-1))) half := ev_simp (k := 5) (by decide +kernel)
    exact e1.bind ((lazyOnly_ev rfl).bind ((ev_simp hα).bind (lazyOnly_ev (scalar_stored hst))))
  obtain ⟨k1, hk1⟩ := h.expr
  obtain ⟨k2, hk2⟩ := e1
  refine ⟨max (max k1 k2) 10, fun k hk => ?_⟩
  rw [rnorm_pure h.args (leaf_stored h.leaf) (hk1 k (by omega)) (hk2 k (by omega))]
  have hc : ∀ L U, compileC k L U [⟨α, .const 0⟩] = some ([⟨α, .const 0⟩], []) := by
    intro L U
    have hm : mkComp α (.const 0) = ⟨α, .const 0⟩ := by
      have hg : (Blade.const 0).grades ≠ 0 := by decide
      rw [mkComp, if_neg hg]
      congr 1
      split <;> rfl
    simp only [compileC, compileComp, compile_root hα (show 10 ≤ k by omega), compileBlade, Option.bind_eq_bind, Option.bind_some, hm]
    rfl
  have he : contextEval k τ ρ [M] [⟨α, .const 0⟩] = some ([⟨α, .const 0⟩], [], []) := by
    unfold contextEval
    dsimp only
    rw [hc]
    split <;> rfl
  simp only [contextObject, he, Option.bind_eq_bind, Option.bind_some]
  refine ⟨_, rfl, ?_⟩
  have h1 : WellTyped (P + Q + R) (√(c : ℝ), TBlade.const 0) := by simp [WellTyped, vecs]
  simpa [TBlade.bits] using Reads.cons (.symbolic α _ hst (hv ρ).1 (hv ρ).2) (.const 0) h1 (Reads.nil (ρ := ρ))

end Total

end GATL
