import Verif.Proofs.LazyProgram
import Verif.Spec.Runtime

/-!
# Evaluation of sums with run-time basis blades
-/

namespace GATL

open Expr Spec

variable {ρ ρ' outer : Env} {τ τ' : Types} {N n k L U : Nat}

theorem mkComp_runtime {c : Expr} {b : Blade} (hc : c ≠ .const 0) (hb : b.grades ≠ 0) :
    mkComp c b = ⟨c, b⟩ := by
  rw [mkComp, if_neg hb, if_neg (by simp only [hc, hb, or_self, not_false_eq_true])]

theorem const_grades {b : Word} (hN : N ≤ 63) (h : ∀ i ∈ vecs b, i.val < N) : (Blade.const b).grades ≠ 0 := by
  intro h0
  have := congrArg BitVec.toNat h0
  simp only [Blade.grades, one_shift_toNat (known_ones fun i hi => lt_of_lt_of_le (h i hi) hN)] at this
  have h2 : 0 < 2 ^ ones b := by positivity
  simp at this

/-- The type of a basis blade after the evaluation. -/
def evaluated : Blade → Blade
  | .const b => .const b
  | .dyn G _ => .dyn G .storedBits

theorem apart_evaluated {a b : Blade} (h : Apart a b) : (evaluated a).lt (evaluated b) = true := by
  obtain ⟨h1, h2⟩ := h
  cases a with
  | const a => cases b <;> exact h1
  | dyn G e =>
    cases b with
    | const b => exact h1
    | dyn H f =>
      have := h2 G e H f rfl rfl
      simp only [Blade.lt, Bool.or_eq_true, decide_eq_true_eq, Bool.and_eq_true, beq_iff_eq, this, false_and,
        or_false] at h1
      simp [evaluated, Blade.lt, h1]

theorem evaluated_irrefl (a : Blade) : (evaluated a).lt (evaluated a) = false := by
  cases a with
  | const a => simp [evaluated, Blade.lt]
  | dyn G e =>
    have : Expr.lt .storedBits .storedBits = false := by decide +kernel
    simp [evaluated, Blade.lt, this]

theorem apart_iff {a b : Blade} : Apart a b ↔ (evaluated a).lt (evaluated b) = true := by
  refine ⟨apart_evaluated, fun h => ?_⟩
  cases a with
  | const a => cases b <;> exact ⟨h, fun _ _ _ _ h => by cases h⟩
  | dyn G e =>
    cases b with
    | const b => exact ⟨h, fun _ _ _ _ _ h => by cases h⟩
    | dyn H f =>
      have h0 : Expr.lt .storedBits .storedBits = false := by decide +kernel
      simp only [evaluated, Blade.lt, h0, Bool.and_false, Bool.or_false, decide_eq_true_eq] at h
      refine ⟨by simp [Blade.lt, h], fun G' e' H' f' h1 h2 e => ?_⟩
      cases h1; cases h2
      subst e
      exact absurd h (by simp)

theorem apart_ne {a b : Blade} (h : Apart a b) : a ≠ b := by
  rintro rfl
  have := apart_evaluated h
  rw [evaluated_irrefl] at this
  cases this

theorem addC_cons {a b : Comp} {bs : CSum} (ha : a.coef ≠ .const 0) (hb : b.coef ≠ .const 0)
    (hne : a.blade ≠ b.blade) (hlt : a.blade.lt b.blade = true) :
    addC (n + 1) [a] (b :: bs) = some (a :: b :: bs) := by
  simp [addC, ha, hb, hne, hlt]

/-- One component. -/
theorem compileComp_runtime (hN : N ≤ 63) {c : Comp} {r : Comp × List Instr} {p : ℝ × TBlade}
    (hag : Agree B ρ' ρ) (ho : OverContext L U c) (hb : CompBuilt c)
    (hq : NoIntQuotient τ c.coef ∧ NoIntQuotient τ c.blade.bits) (hp : CompDenotes ρ c p) (hw : WellTyped N p)
    (h : compileComp n L U c = some r) :
    r.1.blade = evaluated c.blade ∧ r.1.coef ≠ .const 0 ∧
      ∃ vs ws, exec τ ρ r.2 = some (vs, ws) ∧ CoefReads ρ' r.1.coef vs p.1 ∧ BladeReads ρ' r.1.blade ws p.2 := by
  obtain ⟨x, b⟩ := c
  obtain ⟨v, t⟩ := p
  obtain ⟨hx, hxc, hbl⟩ := ho
  obtain ⟨hv1, hv2⟩ := hp
  simp only at hx hxc hbl hv1 hv2 hq
  simp only [compileComp, Option.bind_eq_bind, Option.bind_eq_some_iff, Prod.exists, Option.some.injEq] at h
  obtain ⟨x', px, hcx, b', pb, hcb, rfl⟩ := h
  have hx0 : x' ≠ .const 0 := by
    rcases hxc with hxc | ⟨v', hv', rfl⟩
    · have := NumOut.var (compile_out hx _ hcx) hxc
      cases this; simp
    · rw [compile_const] at hcx
      cases hcx; simpa using hv'
  obtain ⟨vs, hvs, hr⟩ := (NumOut.coef (B := B) (compile_out hx _ hcx)).reads
    (ρ' := ρ') hb.1 hq.1 hv1 (fun t ht i => (hag t ht i).imp Eq.symm Eq.symm)
  have hB : b' = evaluated b ∧ b'.grades ≠ 0 ∧ ∃ ws, exec τ ρ pb = some ([], ws) ∧ BladeReads ρ' b' ws t := by
    rcases hbl with ⟨w, rfl⟩ | ⟨G, y, g0, g1, rfl, hy⟩
    · simp only [compileBlade, Option.some.injEq, Prod.mk.injEq] at hcb
      obtain ⟨rfl, rfl⟩ := hcb
      have et : t = .const w := hv2
      subst et
      exact ⟨rfl, const_grades hN hw, [], rfl, .const w⟩
    · obtain ⟨hbb, hbc⟩ := hb.2 G y rfl
      simp only [compileBlade, Option.bind_eq_bind, Option.bind_eq_some_iff, Prod.exists, Option.some.injEq,
        Prod.mk.injEq] at hcb
      obtain ⟨e2, pe, hcb, b2, hmk, rfl, rfl⟩ := hcb
      have hbo := BitsOut.var (compile_out hy _ hcb) hbc
      cases hbo
      rw [mkDynBlade_var rfl, if_neg g1, Option.some.injEq] at hmk
      subst hmk
      obtain ⟨w, hw', rfl⟩ := hv2
      refine ⟨rfl, g0, [w], ?_, .stored G w⟩
      simp [exec, eval_ok hbb hq.2 hw', asBits]
  obtain ⟨e1, e2, ws, e3, e4⟩ := hB
  rw [mkComp_runtime hx0 e2]
  refine ⟨e1, hx0, vs, ws, ?_, hr, e4⟩
  have := exec_append hvs e3
  simpa using this

theorem compileC_runtime (hN : N ≤ 63) (hag : Agree B ρ' ρ) :
    ∀ (e : CSum) (V : List (ℝ × TBlade)) (e' : CSum) (code : List Instr), (∀ c ∈ e, OverContext L U c) →
      (∀ c ∈ e, CompBuilt c) → (∀ c ∈ e, NoIntQuotient τ c.coef ∧ NoIntQuotient τ c.blade.bits) →
      e.IsChain (fun c d => Apart c.blade d.blade) → List.Forall₂ (CompDenotes ρ) e V → (∀ p ∈ V, WellTyped N p) →
      compileC n L U e = some (e', code) →
      e'.map (·.blade) = e.map (fun c => evaluated c.blade) ∧ (∀ c ∈ e', c.coef ≠ .const 0) ∧
        ∃ vs ws, exec τ ρ code = some (vs, ws) ∧
          Reads ρ' N e' vs ws (V.map fun p => (Finsupp.single p.2.bits p.1 : MV ℝ)).sum
  | [], _, _, _, _, _, _, _, _, _, h => by simp [compileC] at h
  | [c], _, e', code, ho, hb, hq, _, hV, hw, h => by
    obtain ⟨p, V', hp, hV', rfl⟩ := List.forall₂_cons_left_iff.1 hV
    cases hV'
    simp only [compileC, Option.bind_eq_bind, Option.bind_eq_some_iff, Prod.exists, Option.some.injEq,
      Prod.mk.injEq] at h
    obtain ⟨c', p', h1, rfl, rfl⟩ := h
    obtain ⟨e1, e2, vs, ws, e3, e4, e5⟩ := compileComp_runtime hN hag (ho c (by simp)) (hb c (by simp))
      (hq c (by simp)) hp (hw p (by simp)) h1
    refine ⟨by simpa using e1, by simpa using e2, vs, ws, e3, ?_⟩
    have := Reads.cons e4 e5 (hw p (by simp)) (Reads.nil (ρ := ρ') (n := N))
    simpa using this
  | c :: d :: cs, _, e', code, ho, hb, hq, hc, hV, hw, h => by
    obtain ⟨p, V', hp, hV', rfl⟩ := List.forall₂_cons_left_iff.1 hV
    rw [List.isChain_cons_cons] at hc
    simp only [compileC, Option.bind_eq_bind, Option.bind_eq_some_iff, Prod.exists, Option.some.injEq,
      Prod.mk.injEq] at h
    obtain ⟨c', p', h1, s', q, h2, r, h3, rfl, rfl⟩ := h
    obtain ⟨e1, e2, vs, ws, e3, e4, e5⟩ := compileComp_runtime hN hag (ho c (by simp)) (hb c (by simp))
      (hq c (by simp)) hp (hw p (by simp)) h1
    obtain ⟨i1, i2, vs', ws', i3, i4⟩ := compileC_runtime hN hag (d :: cs) V' s' q
      (fun x hx => ho x (List.mem_cons_of_mem _ hx)) (fun x hx => hb x (List.mem_cons_of_mem _ hx))
      (fun x hx => hq x (List.mem_cons_of_mem _ hx)) hc.2 hV' (fun x hx => hw x (List.mem_cons_of_mem _ hx)) h2
    obtain ⟨d', ds', rfl⟩ : ∃ d' ds', s' = d' :: ds' := by
      cases s' with
      | nil => simp at i1
      | cons d' ds' => exact ⟨d', ds', rfl⟩
    simp only [List.map_cons, List.cons.injEq] at i1
    have hlt : c'.blade.lt d'.blade = true := by rw [e1, i1.1]; exact apart_evaluated hc.1
    have hne : c'.blade ≠ d'.blade := by
      intro h
      rw [← h, e1, evaluated_irrefl] at hlt
      cases hlt
    obtain ⟨n, rfl⟩ : ∃ m, n = m + 1 := by
      cases n with
      | zero => simp [addC] at h3
      | succ m => exact ⟨m, rfl⟩
    rw [addC_cons e2 (i2 d' (by simp)) hne hlt, Option.some.injEq] at h3
    subst h3
    refine ⟨by simp only [List.map_cons, List.cons.injEq]; exact ⟨e1, i1.1, i1.2⟩, ?_, _, _, exec_append e3 i3, ?_⟩
    · intro x hx
      rcases List.mem_cons.1 hx with rfl | hx
      · exact e2
      · exact i2 x hx
    · have := Reads.cons e4 e5 (hw p (by simp)) i4
      simpa using this

/-- It compiles if the coefficients and the bitsets do. -/
theorem compileC_runtime_total (hN : N ≤ 63) (hn : n ≠ 0) {B : Nat} (hag : Agree B ρ' ρ) :
    ∀ (e : CSum) (V : List (ℝ × TBlade)), e ≠ [] → (∀ c ∈ e, OverContext L U c) →
      (∀ c ∈ e, CompBuilt c) → (∀ c ∈ e, NoIntQuotient τ c.coef ∧ NoIntQuotient τ c.blade.bits) →
      e.IsChain (fun c d => Apart c.blade d.blade) → List.Forall₂ (CompDenotes ρ) e V → (∀ p ∈ V, WellTyped N p) →
      (∀ c ∈ e, (compile n L U c.coef).isSome ∧ ∀ G x, c.blade = .dyn G x → (compile n L U x).isSome) →
      ∃ r, compileC n L U e = some r
  | [], _, h, _, _, _, _, _, _, _ => absurd rfl h
  | c :: cs, V, _, ho, hb, hq, hc, hV, hw, ht => by
    have h1 : ∃ r, compileComp n L U c = some r := by
      obtain ⟨t1, t2⟩ := ht c (by simp)
      obtain ⟨r1, t1⟩ := Option.isSome_iff_exists.1 t1
      have : ∃ r2, compileBlade n L U c.blade = some r2 := by
        rcases (ho c (by simp)).blade with ⟨w, hw'⟩ | ⟨G, y, g0, g1, hG, hy⟩
        · rw [hw']; exact ⟨_, rfl⟩
        · obtain ⟨r2, t2⟩ := Option.isSome_iff_exists.1 (t2 G y hG)
          have hbc := ((hb c (by simp)).2 G y hG).2
          have := BitsOut.var (compile_out hy _ t2) hbc
          subst this
          rw [hG, compileBlade, t2]
          simp only [Option.bind_eq_bind, Option.bind_some, mkDynBlade_var (e := .storedBits) rfl, Option.bind_some]
          exact ⟨_, rfl⟩
      obtain ⟨r2, t2⟩ := this
      exact ⟨_, by simp only [compileComp, t1, t2, Option.bind_eq_bind, Option.bind_some]; rfl⟩
    obtain ⟨r, h1⟩ := h1
    cases cs with
    | nil => exact ⟨_, by simp only [compileC, h1, Option.bind_eq_bind, Option.bind_some]; rfl⟩
    | cons d cs =>
      obtain ⟨p, V', hp, hV', rfl⟩ := List.forall₂_cons_left_iff.1 hV
      have hc' := List.isChain_cons_cons.1 hc
      obtain ⟨⟨s', q⟩, h2⟩ := compileC_runtime_total hN hn hag (d :: cs) V' (by simp)
        (fun x hx => ho x (List.mem_cons_of_mem _ hx)) (fun x hx => hb x (List.mem_cons_of_mem _ hx))
        (fun x hx => hq x (List.mem_cons_of_mem _ hx)) hc'.2 hV' (fun x hx => hw x (List.mem_cons_of_mem _ hx))
        (fun x hx => ht x (List.mem_cons_of_mem _ hx))
      obtain ⟨e1, e2, -⟩ := compileComp_runtime hN hag (ho c (by simp)) (hb c (by simp))
        (hq c (by simp)) hp (hw p (by simp)) h1
      obtain ⟨i1, i2, -⟩ := compileC_runtime hN hag (d :: cs) V' s' q
        (fun x hx => ho x (List.mem_cons_of_mem _ hx)) (fun x hx => hb x (List.mem_cons_of_mem _ hx))
        (fun x hx => hq x (List.mem_cons_of_mem _ hx)) hc'.2 hV' (fun x hx => hw x (List.mem_cons_of_mem _ hx)) h2
      obtain ⟨d', ds', rfl⟩ : ∃ d' ds', s' = d' :: ds' := by
        cases s' with
        | nil => simp at i1
        | cons d' ds' => exact ⟨d', ds', rfl⟩
      simp only [List.map_cons, List.cons.injEq] at i1
      have hlt : r.1.blade.lt d'.blade = true := by rw [e1, i1.1]; exact apart_evaluated hc'.1
      have hne : r.1.blade ≠ d'.blade := by
        intro h
        rw [← h, e1, evaluated_irrefl] at hlt
        cases hlt
      obtain ⟨m, rfl⟩ := Nat.exists_eq_succ_of_ne_zero hn
      refine ⟨(r.1 :: d' :: ds', r.2 ++ q), ?_⟩
      simp only [compileC, h1, h2, Option.bind_eq_bind, Option.bind_some]
      rw [addC_cons e2 (i2 d' (by simp)) hne hlt, Option.bind_some]

/-- In a context. -/
theorem context_runtime (hN : N ≤ 63) {Ms : List Object} {e e' : CSum} {code : List Instr} {A : MV ℝ}
    (hs : storedInputs Ms ≠ [])
    (ho : ∀ c ∈ e, OverContext (baseId Ms + 1) (baseId Ms + (storedInputs Ms).length) c)
    (hq : ∀ c ∈ e, NoIntQuotient (contextTypes τ (baseId Ms) (storedInputs Ms)) c.coef ∧
      NoIntQuotient (contextTypes τ (baseId Ms) (storedInputs Ms)) c.blade.bits)
    (hc : e.IsChain fun c d => Apart c.blade d.blade)
    (hA : SumDenotes (contextEnv outer (baseId Ms) (storedInputs Ms)) N e A)
    (h : compileC k (baseId Ms + 1) (baseId Ms + (storedInputs Ms).length) e = some (e', code)) :
    ∃ vs ws, contextEval k τ outer Ms e = some (e', vs, ws) ∧ Reads outer N e' vs ws A := by
  obtain ⟨hB, V, hV, hW, rfl⟩ := hA
  have hag : Agree (baseId Ms) outer (contextEnv outer (baseId Ms) (storedInputs Ms)) := context_agree outer _ _
  obtain ⟨-, -, vs, ws, h1, h2⟩ := compileC_runtime hN hag e V e' code ho hB hq hc hV hW h
  exact ⟨vs, ws, by simp [contextEval, hs, h, h1], h2⟩

end GATL
