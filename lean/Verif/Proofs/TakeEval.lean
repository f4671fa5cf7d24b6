import Verif.Proofs.Take

/-!
# Grades: evaluation in a context, helper lemmas
-/

namespace GATL

open Expr Spec

variable {ρ outer : Env} {τ : Types} {N n k L U : Nat} {R : Prop}

/-! ## Expressions of a context -/

/-- Variables of the context only, nothing stored, and no variables if there are none. -/
def InContext (L U : Nat) (e : Expr) : Prop :=
  inRange L U e = true ∧ hasStored e = false ∧ (U < L → isConstant e = true)

theorem inContext_fn (name : Name) (args : List Expr) (h : ∀ a ∈ args, InContext L U a) :
    InContext L U (.fn name args) := by
  have : inRangeAll L U args = true ∧ hasStoredAny args = false ∧ (U < L → isConstantAll args = true) := by
    induction args with
    | nil => exact ⟨rfl, rfl, fun _ => rfl⟩
    | cons a as ih =>
      obtain ⟨h1, h2, h3⟩ := h a (by simp)
      obtain ⟨g1, g2, g3⟩ := ih fun b hb => h b (by simp [hb])
      exact ⟨by rw [inRangeAll, h1, g1]; rfl, by rw [hasStoredAny, h2, g2]; rfl,
        fun hu => by rw [isConstantAll, h3 hu, g3 hu]; rfl⟩
  exact ⟨by rw [inRange, this.1], by rw [hasStored, this.2.1], fun hu => by rw [isConstant, this.2.2 hu]⟩

theorem evaluable_context {kd : Kind} {e : Expr} (h : Evaluable L U kd e) : InContext L U e := by
  induction h with
  | const v => exact ⟨rfl, rfl, fun _ => rfl⟩
  | value t i hL hU => exact ⟨by simp [inRange, hL, hU], rfl, fun h => by omega⟩
  | cbits w => exact ⟨rfl, rfl, fun _ => rfl⟩
  | bitset t i hL hU => exact ⟨by simp [inRange, hL, hU], rfl, fun h => by omega⟩
  | add args hn h ih => exact inContext_fn _ _ ih
  | mul args hn h ih => exact inContext_fn _ _ ih
  | power l r hl hr hc h1 h2 => exact inContext_fn _ _ (by simp [h1, h2])
  | elementary name a hn h h1 => exact inContext_fn _ _ (by simp [h1])
  | absolute a h hc h1 => exact inContext_fn _ _ (by simp [h1])
  | sign l r hl hr h1 h2 => exact inContext_fn _ _ (by simp [h1, h2])
  | count b h h1 => exact inContext_fn _ _ (by simp [h1])
  | bitwise name k l r hn hk hl hr h1 h2 => exact inContext_fn _ _ (by simp [h1, h2])
  | shift l r hl hr h1 h2 => exact inContext_fn _ _ (by simp [h1, h2])
  | compare name k l r hn hk hl hr hc h1 h2 => exact inContext_fn _ _ (by simp [h1, h2])
  | logical name l r hn hl hr h1 h2 => exact inContext_fn _ _ (by simp [h1, h2])
  | ifElse t a b ht ha hb h1 h2 h3 => exact inContext_fn _ _ (by simp [h1, h2, h3])

/-- A number of the context: evaluated in one step, or an integer literal.  `R` says whether it is known to
compile. -/
structure GE (R : Prop) (n L U : Nat) (e : Expr) : Prop where
  ev : Evaluable L U .num e
  built : Built e
  lit : Lit e
  noInt : ∀ τ, NoIntQuotient τ e
  comp : R → ∃ c, compile n L U e = some c

/-- A test of the context. -/
def GT (R : Prop) (n L U : Nat) (t : Expr) : Prop :=
  (∃ b, t = .cbool b) ∨ (Evaluable L U .test t ∧ Built t ∧ (∀ τ, NoIntQuotient τ t) ∧
    (R → ∃ c, compile n L U t = some c))

theorem ge_const (v : Int) : GE R n L U (.const v) :=
  ⟨.const v, .const v, lit_const v, fun _ => by simp [NoIntQuotient], fun _ => ⟨_, compile_const v⟩⟩

theorem ge_value {t i : Nat} (hL : L ≤ t) (hU : t ≤ U) : GE R n L U (.value t i) := by
  refine ⟨.value t i hL hU, .value t i, fun h => by simp [isConstant] at h, fun _ => by simp [NoIntQuotient],
    fun _ => ⟨(.stored, [.value (.value t i)]), ?_⟩⟩
  change (if L ≤ t ∧ t ≤ U then storeValue L U (.value t i) else some (.value t i, [])) = _
  rw [if_pos ⟨hL, hU⟩, storeValue, if_pos (by simp [inRange, hL, hU])]

theorem gt_var {t : Expr} (h : GT R n L U t) : isConstant t = false := by
  rcases h with ⟨b, rfl⟩ | ⟨h, -, -, h'⟩
  · rfl
  · clear h'
    generalize hk : Kind.test = kd at h
    induction h <;> try cases hk
    · next name l r hn hk hl hr h1 h2 => exact absurd rfl hk
    · next name _ l r hn hk' hl hr hc h1 h2 =>
      rw [isConstant2]; rcases hc with hc | hc <;> simp [hc]
    · next name l r hn hl hr h1 h2 => rw [isConstant2, h1 rfl]; rfl

theorem ge_ifElse {t a b : Expr} (ht : GT R n L U t) (ha : GE R n L U a) (hb : GE R n L U b) :
    GE R n L U (mkIfElse t a b) := by
  have hv := gt_var ht
  rcases ht with ⟨b', rfl⟩ | ⟨t1, t2, t3, t4⟩
  · cases b'
    · exact hb
    · exact ha
  have hl := lit_ifElse hv ha.lit hb.lit
  unfold mkIfElse at hl ⊢
  split
  · exact ha
  · exact hb
  · split
    · exact ha
    · have hev : Evaluable L U .num (.fn .ifElse [t, a, b]) := .ifElse t a b t1 ha.ev hb.ev
      refine ⟨hev, .fn _ _ ?_ (fun h => by cases h) (fun h => by cases h) (fun h => by cases h), ?_,
        fun τ => ?_, fun r => ?_⟩
      · simp [t2, ha.built, hb.built]
      · intro h; simp [isConstant, isConstantAll, hv] at h
      · simp [NoIntQuotient, NoIntQuotientAll, t3, ha.noInt, hb.noInt]
      · obtain ⟨⟨t', p⟩, ht'⟩ := t4 r
        obtain ⟨⟨a', q⟩, ha'⟩ := ha.comp r
        refine ⟨(.stored, [.value (.fn .ifElse [t, a, b])]), ?_⟩
        have ot := (compile_out t1 _ ht').2
        have hct : canBeStored t' = true := by
          rcases ot with ot | ot <;> · cases ot; rfl
        have hca : canBeStored a' = true := by
          rcases compile_out ha.ev _ ha' with ⟨-, h⟩ | ⟨-, -, h, -⟩
          · cases h; rfl
          · exact cst_can h
        change (do
          let (t', p) ← compile n L U t
          let (a', q) ← compile n L U a
          if canBeStored t' && canBeStored a' && canBeStored a' then
            storeValue L U (.fn .ifElse [t, a, b])
          else do
            let (_, r) ← compile n L U b
            some (mkIfElse t' a' a', p ++ q ++ r)) = _
        simp only [ht', ha', Option.bind_eq_bind, Option.bind_some, hct, hca, Bool.and_self, if_true]
        rw [storeValue, if_pos (evaluable_context hev).1]

theorem gt_compare {name : Name} {l r : Expr} (hn : name = .equal ∨ name = .lessOrEqual)
    (hl : GE R n L U l) (hr : GE R n L U r) (hc : isConstant (.fn name [l, r]) = false) :
    GT R n L U (.fn name [l, r]) := by
  rw [isConstant2, Bool.and_eq_false_iff] at hc
  have hev : Evaluable L U .test (.fn name [l, r]) := .compare name .num l r hn (by simp) hl.ev hr.ev hc
  refine .inr ⟨hev, .fn _ _ ?_ (fun h => ?_) (fun h => ?_) (fun h => ?_), fun τ => ?_, fun hR => ?_⟩
  · simp [hl.built, hr.built]
  · subst h; simp at hn
  · subst h; simp at hn
  · subst h; simp at hn
  · rcases hn with rfl | rfl <;> simp [NoIntQuotient, NoIntQuotientAll, hl.noInt, hr.noInt]
  · obtain ⟨⟨l', p⟩, hl'⟩ := hl.comp hR
    obtain ⟨⟨r', q⟩, hr'⟩ := hr.comp hR
    have hf : ∃ e, mkFn (simp n) name [l', r'] = some e := by
      rcases hn with rfl | rfl
      · exact ⟨_, rfl⟩
      · exact ⟨_, rfl⟩
    obtain ⟨e, he⟩ := hf
    rw [compile_fn2 (by tauto)]
    simp only [hl', hr', he, Option.bind_eq_bind, Option.bind_some]
    have hin := (evaluable_context hev).1
    split
    · exact ⟨_, by rw [storeValue, if_pos hin]⟩
    · split
      · exact ⟨_, by rw [storeBits, if_pos hin]⟩
      · exact ⟨_, rfl⟩

theorem gt_equal {l r : Expr} (hl : GE R n L U l) (hr : GE R n L U r) : GT R n L U (mkEqual l r) := by
  have hv := var_equal hl.lit hr.lit
  unfold mkEqual at hv ⊢
  split
  · exact .inl ⟨_, rfl⟩
  · next h1 =>
    rw [if_neg h1] at hv
    split
    · exact .inl ⟨_, rfl⟩
    · next h2 =>
      rw [if_neg h2] at hv
      exact gt_compare (.inl rfl) hl hr hv

theorem gt_le {l r : Expr} (hl : GE R n L U l) (hr : GE R n L U r) : GT R n L U (mkLessOrEqual l r) := by
  have hv := var_le hl.lit hr.lit
  unfold mkLessOrEqual at hv ⊢
  split
  · exact .inl ⟨_, rfl⟩
  · exact .inl ⟨_, rfl⟩
  · next h1 h2 =>
    split
    · exact .inl ⟨_, rfl⟩
    · next h3 =>
      simp only [h3, if_false] at hv
      exact gt_compare (.inr rfl) hl hr hv

theorem abs_stored : ∃ e, mkAbsolute (simp (n + 1)) .stored = some e := ⟨_, rfl⟩

theorem ge_abs {v e : Expr} (hv : GE R n L U v) (hn : n ≠ 0) (h : mkAbsolute (simp n) v = some e) :
    GE R n L U e := by
  have hl := lit_abs hv.lit h
  unfold mkAbsolute at h
  simp only [Option.bind_eq_bind, Option.bind_eq_some_iff] at h
  obtain ⟨nn, hnn, neg, hneg, h⟩ := h
  split at h
  · cases h; exact hv
  · split at h
    · next h' =>
      cases h
      simp only [Bool.and_eq_true] at h'
      obtain ⟨w, rfl⟩ := hv.lit h'.1
      obtain ⟨z, rfl⟩ := (expClosed_const n _ _ (isConst_const (-1)) (isConst_const w)).2 _ hneg
      exact ge_const z
    · cases h
      by_cases hc : isConstant v = true
      · obtain ⟨w, hw⟩ := hl (by simp [isConstant, isConstantAll, hc])
        cases hw
      · simp only [Bool.not_eq_true] at hc
        have hev : Evaluable L U .num (.fn .absolute [v]) := .absolute v hv.ev hc
        refine ⟨hev, .fn _ _ (by simpa using hv.built) (fun h => by cases h) (fun h => by cases h)
          (fun h => by cases h), hl, fun τ => by simp [NoIntQuotient, NoIntQuotientAll, hv.noInt], fun hR => ?_⟩
        obtain ⟨c, hv'⟩ := hv.comp hR
        rcases compile_out hv.ev _ hv' with ⟨-, h⟩ | ⟨h, -⟩
        · subst h
          obtain ⟨m, rfl⟩ := Nat.exists_eq_succ_of_ne_zero hn
          obtain ⟨x, hx⟩ := abs_stored (n := m)
          rw [compile_fn1 (.inr rfl)]
          simp only [hv', Option.bind_eq_bind, Option.bind_some, mkFn]
          rw [Nat.succ_eq_add_one, hx]
          simp only [Option.bind_some, if_true]
          exact ⟨_, by rw [storeValue, if_pos (evaluable_context hev).1]⟩
        · rw [hc] at h; cases h

/-! ## Evaluation -/

theorem ge_plain {e : Expr} (h : GE R n L U e) : ∀ c, compile n L U e = some c → PlainCoef c.1 := by
  intro c hc
  rcases compile_out h.ev c hc with ⟨-, h⟩ | ⟨h1, -⟩
  · subst h; exact .inl rfl
  · obtain ⟨v, rfl⟩ := h.lit h1
    rw [compile_const] at hc
    cases hc
    exact .inr ⟨v, rfl⟩

theorem ge_staged {B : Nat} {s : CSum} (hs : Within (GE R n (B + 1) U) s) :
    ∀ c ∈ s, Staged n B U c := fun c hc =>
  ⟨canonical_known hs.1 c hc, fun d hd => (compile_out (hs.2 c hc).ev d hd).coef⟩

theorem ge_compileC {B : Nat} (s : CSum) (hs : Within (GE R n (B + 1) U) s) :
    (∀ s' p, compileC n (B + 1) U s = some (s', p) → ∀ d ∈ s', PlainCoef d.coef) ∧
      (R → n ≠ 0 → ∃ c, compileC n (B + 1) U s = some c) := by
  induction s with
  | nil => exact absurd rfl hs.1.1
  | cons c cs ih =>
    have hst := ge_staged hs
    have hplain : ∀ c' p, compileComp n (B + 1) U c = some (c', p) → PlainCoef c'.coef := by
      intro c' p h
      obtain ⟨b, eb, hbx⟩ := canonical_known hs.1 c (by simp)
      unfold compileComp at h
      simp only [Option.bind_eq_bind, Option.bind_eq_some_iff, Prod.exists, eb, compileBlade,
        Option.some.injEq, Prod.mk.injEq] at h
      obtain ⟨x, p', h1, b', q, ⟨rfl, rfl⟩, h2, h3⟩ := h
      obtain ⟨k1, k2, k3⟩ := mkComp_known (c := x) (d := c) ⟨b, eb, hbx⟩
      rw [eb] at k2
      rw [← h2, k2]
      exact ge_plain (hs.2 c (by simp)) _ h1
    have hcomp : R → ∃ d, compileComp n (B + 1) U c = some d := by
      intro hR
      obtain ⟨b, eb, hbx⟩ := canonical_known hs.1 c (by simp)
      obtain ⟨x, hx⟩ := (hs.2 c (by simp)).comp hR
      exact ⟨_, by simp [compileComp, hx, eb, compileBlade]; rfl⟩
    rcases cs with _ | ⟨d, ds⟩
    · constructor
      · intro s' p h
        simp only [compileC, Option.bind_eq_bind, Option.bind_eq_some_iff, Prod.exists,
          Option.some.injEq, Prod.mk.injEq] at h
        obtain ⟨c', p', h1, rfl, rfl⟩ := h
        simpa using hplain c' _ h1
      · intro hR _
        obtain ⟨x, hx⟩ := hcomp hR
        exact ⟨_, by simp [compileC, hx]; rfl⟩
    · obtain ⟨ih1, ih2⟩ := ih (within_rest hs (by simp))
      obtain ⟨hp1, hp2⟩ := List.pairwise_cons.1 (canonical_iff.1 hs.1).2.2.1
      have hcond : ∀ c' p' u q, compileComp n (B + 1) U c = some (c', p') →
          compileC n (B + 1) U (d :: ds) = some (u, q) → Known c' ∧ Canonical u ∧
            (IsZero u ∨ c'.coef = .const 0 ∨ ∀ x ∈ u, BeforeC c' x) := by
        intro c' p' u q h1 h2
        obtain ⟨k1, ho, k2, k3⟩ := compileComp_known (hst c (by simp)) h1
        obtain ⟨⟨hcu, hbu, hwu⟩, -⟩ := compileC_out (d :: ds) u q (by simp)
          (fun x hx => hst x (by simp at hx ⊢; tauto)) hp2 h2
        refine ⟨k1, hcu, ?_⟩
        by_cases h0 : c'.coef = .const 0
        · exact .inr (.inl h0)
        · rcases hbu with hz | hbu
          · exact .inl hz
          · refine .inr (.inr fun x hx => ?_)
            obtain ⟨y, hy, e⟩ := hbu x hx
            exact beforeC_congr_left (beforeC_congr_right (hp1 y hy) e) (k2 h0)
      constructor
      · intro s' p h
        rw [compileC.eq_def] at h
        simp only [Option.bind_eq_bind, Option.bind_eq_some_iff, Prod.exists,
          Option.some.injEq, Prod.mk.injEq] at h
        obtain ⟨c', p', h1, u, q, h2, s'', h3, rfl, rfl⟩ := h
        have hc' := hplain c' _ h1
        have hu := ih1 u q h2
        obtain ⟨k1, hcu, hco⟩ := hcond _ _ _ _ h1 h2
        obtain ⟨hce, hf, hcase⟩ := addC_front_eq k1 hcu hco h3
        rcases hcase with ⟨-, -, rfl⟩ | ⟨-, -, rfl⟩ | ⟨-, -, rfl⟩ | ⟨-, -, rfl⟩
        · simpa using hc'
        · exact hu
        · simpa using hc'
        · intro x hx
          rcases List.mem_cons.1 hx with rfl | hx
          · exact hc'
          · exact hu x hx
      · intro hR hn
        obtain ⟨⟨c', p'⟩, h1⟩ := hcomp hR
        obtain ⟨⟨u, q⟩, h2⟩ := ih2 hR hn
        obtain ⟨k1, hcu, hco⟩ := hcond _ _ _ _ h1 h2
        obtain ⟨m, rfl⟩ := Nat.exists_eq_succ_of_ne_zero hn
        obtain ⟨e, he, -⟩ := addC_front (k := m) k1 hcu hco
        refine ⟨(e, p' ++ q), ?_⟩
        rw [compileC.eq_def]
        simp only [h1, h2, Option.bind_eq_bind, Option.bind_some]
        rw [Nat.succ_eq_add_one, he]
        rfl

/-- Evaluation in a context. -/
theorem context_ge {Ms : List Object} {e : CSum} {A : MV ℝ}
    (hw : Within (GE R k (baseId Ms + 1) (baseId Ms + (storedInputs Ms).length)) e)
    (hA : SumDenotes (contextEnv outer (baseId Ms) (storedInputs Ms)) N e A) :
    (∀ o, contextObject k τ outer Ms e = some o → Represents outer N o A) ∧
      (R → k ≠ 0 → ∃ o, contextObject k τ outer Ms e = some o) := by
  by_cases hs : (storedInputs Ms).isEmpty = true
  · have hlen : (storedInputs Ms).length = 0 := by rw [List.isEmpty_iff] at hs; rw [hs]; rfl
    have hq : ∀ c ∈ e, IsConst c.coef := fun c hc =>
      (hw.2 c hc).lit ((evaluable_context (hw.2 c hc).ev).2.2 (by omega))
    have he : contextEval k τ outer Ms e = some (e, [], []) := by simp [contextEval, hs]
    constructor
    · intro o ho
      have := contextObject_eval ho
      rw [he] at this
      simp only [Option.some.injEq, Prod.mk.injEq] at this
      obtain ⟨e1, e2, e3⟩ := this
      refine ⟨?_, ?_⟩ <;> rw [← e1]
      · exact ⟨hw.1, fun c hc => .inr (hq c hc)⟩
      · rw [← e2, ← e3]; exact reads_const (canonical_known hw.1) hq hA
    · intro _ _
      simp only [contextObject, he, Option.bind_eq_bind, Option.bind_some]
      exact ⟨_, rfl⟩
  · obtain ⟨h1, h2⟩ := ge_compileC e hw
    have key : ∀ s' code, compileC k (baseId Ms + 1) (baseId Ms + (storedInputs Ms).length) e = some (s', code) →
        Plain s' ∧ ∃ vs, exec (contextTypes τ (baseId Ms) (storedInputs Ms))
          (contextEnv outer (baseId Ms) (storedInputs Ms)) code = some (vs, []) ∧ Reads outer N s' vs [] A := by
      intro s' code hc
      obtain ⟨ho, hr⟩ := compileC_out e s' code hw.1.1 (ge_staged hw) (canonical_iff.1 hw.1).2.2.1 hc
      refine ⟨⟨ho.canonical, h1 _ _ hc⟩, hr _ _ outer N A ?_ hA fun c hc => (hw.2 c hc).noInt _⟩
      exact fun t ht i => ((context_agree outer _ (storedInputs Ms)) t ht i).imp Eq.symm Eq.symm
    constructor
    · intro o ho
      have := contextObject_eval ho
      simp only [contextEval, hs, Bool.false_eq_true, if_false, Option.bind_eq_bind, Option.bind_eq_some_iff,
        Prod.exists, Option.some.injEq, Prod.mk.injEq] at this
      obtain ⟨s', code, hc, vs, ws, hx, e1, e2, e3⟩ := this
      obtain ⟨k1, vs', k2, k3⟩ := key s' code hc
      rw [hx] at k2
      cases k2
      rw [Represents, ← e1, ← e2, ← e3]
      exact ⟨k1, k3⟩
    · intro hR hk
      obtain ⟨⟨s', code⟩, hc⟩ := h2 hR hk
      obtain ⟨k1, vs', k2, k3⟩ := key s' code hc
      simp only [contextObject, contextEval, hs, Bool.false_eq_true, if_false, hc, k2, Option.bind_eq_bind,
        Option.bind_some]
      exact ⟨_, rfl⟩

end GATL
