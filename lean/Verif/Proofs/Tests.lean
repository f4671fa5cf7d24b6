import Verif.Spec.Tests
import Verif.Proofs.Copy
import Verif.Proofs.TakeApi
import Verif.Proofs.TypesInt

/-!
Visiting the components of an object.
-/

namespace GATL

open Expr Spec

variable {τ : Types} {ρ : Env}

theorem visitCoef_ok {floats : Bool} {c : Expr} {vs iv : List ℝ} {x : ℝ} (hc : CoefReads ρ c vs x)
    (hq : NoIntQuotient τ c) (hx : floats = true ∨ ∃ z : ℤ, x = z) :
    visitCoef τ ρ floats c (vs ++ iv) =
      some (x, iv, if c = .stored then Source.storedEntry else Source.compileTime) := by
  cases hc with
  | stored => simp [visitCoef]
  | symbolic _ _ hs hb hd =>
    have h : visitCoef τ ρ floats c iv =
        (eval τ ρ c).map fun v => (convertTo floats (asNumber v), iv, Source.compileTime) := by
      cases c <;> first | rfl | simp [hasStored] at hs
    have hne : c ≠ .stored := by rintro rfl; simp [hasStored] at hs
    rw [List.nil_append, h, eval_ok hb hq hd, if_neg hne]
    simp [asNumber, convert_exact hx]

theorem visitBlade_ok {c : Comp} {p : ℝ × TBlade} {ws ib : List Word} (hb : BladeReads ρ c.blade ws p.2)
    (hv : visitable c = true) :
    visitBlade c.blade (ws ++ ib) = some ((shown c p).blade, ib, (shown c p).bladeSource) := by
  obtain ⟨c, b⟩ := c
  obtain ⟨x, t⟩ := p
  dsimp only at *
  cases hb with
  | const => rfl
  | stored G w => rfl
  | symbolic G e w hs =>
    simp only [visitable, Bool.and_eq_true, beq_iff_eq] at hv
    rw [hv.2] at hs
    simp [hasStored] at hs

/-- The components of an object, as they are shown. -/
def shownAll (s : CSum) (L : List (ℝ × TBlade)) : List Shown := List.zipWith shown s L

section
variable {γ σ : Type} {f : Callback γ σ} {s₀ : σ} {floats : Bool}

theorem visitFrom_cons {c : Comp} {s : CSum} {vs vs' : List ℝ} {ws ws' : List Word} {p : ℝ × TBlade} {g : γ}
    (hc : CoefReads ρ c.coef vs p.1) (hb : BladeReads ρ c.blade ws p.2) (hv : visitable c = true)
    (hq : NoIntQuotient τ c.coef) (hx : floats = true ∨ ∃ z : ℤ, p.1 = z) :
    visitFrom τ ρ floats f s₀ (c :: s) (vs ++ vs') (ws ++ ws') g =
      match callback f g s₀ (shown c p) with
      | none => .terminated
      | some (g, _, k) => if k then visitFrom τ ρ floats f s₀ s vs' ws' g else .returned g false := by
  rw [visitFrom, visitCoef_ok hc hq hx, visitBlade_ok hb hv]
  rfl

theorem visitFrom_kept {s : CSum} {vs : List ℝ} {ws : List Word} {L : List (ℝ × TBlade)}
    (h : ReadsEach ρ s vs ws L) : ∀ {g g' : γ} (_ : ∀ c ∈ s, visitable c = true)
    (_ : ∀ c ∈ s, NoIntQuotient τ c.coef) (_ : floats = true ∨ Integral L) {xs : List Shown} {rest : List Shown}
    (_ : shownAll s L = xs ++ rest) (_ : Kept f s₀ g xs g'),
    ∃ s' vs' ws' L', ReadsEach ρ s' vs' ws' L' ∧ s' ⊆ s ∧ L' ⊆ L ∧ shownAll s' L' = rest ∧
      visitFrom τ ρ floats f s₀ s vs ws g = visitFrom τ ρ floats f s₀ s' vs' ws' g' := by
  induction h with
  | nil =>
    intro g g' _ _ _ xs rest he hk
    have he : [] = xs ++ rest := he
    have he := List.append_eq_nil_iff.1 he.symm
    obtain ⟨rfl, rfl⟩ := he
    cases hk
    exact ⟨[], [], [], [], .nil, by simp, by simp, rfl, rfl⟩
  | @cons c b s vs ws vs' ws' x t L hc hb hs ih =>
    intro g g' hv hq hf xs rest he hk
    cases hk with
    | nil => exact ⟨_, _, _, _, .cons hc hb hs, by simp, by simp, he, rfl⟩
    | @cons g g₁ g' s' y ys hx hxs =>
      have he' : shown ⟨c, b⟩ (x, t) :: shownAll s L = y :: (ys ++ rest) := he
      simp only [List.cons.injEq] at he'
      obtain ⟨rfl, he'⟩ := he'
      obtain ⟨s'', vs'', ws'', L'', h1, h2, h3, h4, h5⟩ := ih (fun c hc => hv c (by simp [hc]))
        (fun c hc => hq c (by simp [hc])) (hf.imp_right fun h p hp => h p (by simp [hp])) he' hxs
      refine ⟨s'', vs'', ws'', L'', h1, fun _ h => by simp [h2 h], fun _ h => by simp [h3 h], h4, ?_⟩
      rw [visitFrom_cons (c := ⟨c, b⟩) (p := (x, t)) hc hb (hv _ (by simp)) (hq ⟨c, b⟩ (by simp))
        (hf.imp_right fun h => h (x, t) (by simp)), hx]
      simpa using h5

theorem visitFrom_all {s : CSum} {vs : List ℝ} {ws : List Word} {L : List (ℝ × TBlade)}
    (h : ReadsEach ρ s vs ws L) {g g' : γ} (hv : ∀ c ∈ s, visitable c = true)
    (hq : ∀ c ∈ s, NoIntQuotient τ c.coef) (hf : floats = true ∨ Integral L)
    (hk : Kept f s₀ g (shownAll s L) g') :
    visitFrom τ ρ floats f s₀ s vs ws g = .returned g' true := by
  obtain ⟨s', vs', ws', L', h1, h2, h3, h4, h5⟩ :=
    visitFrom_kept h hv hq hf (List.append_nil _).symm hk
  rw [h5]
  cases h1 with
  | nil => rfl
  | cons => simp [shownAll] at h4

theorem visitFrom_at {s : CSum} {vs : List ℝ} {ws : List Word} {L : List (ℝ × TBlade)}
    (h : ReadsEach ρ s vs ws L) {g g₁ : γ} (hv : ∀ c ∈ s, visitable c = true)
    (hq : ∀ c ∈ s, NoIntQuotient τ c.coef) (hf : floats = true ∨ Integral L)
    {xs rest : List Shown} {x : Shown} (he : shownAll s L = xs ++ x :: rest)
    (hk : Kept f s₀ g xs g₁) :
    (callback f g₁ s₀ x = none → visitFrom τ ρ floats f s₀ s vs ws g = .terminated) ∧
    ∀ g' s', callback f g₁ s₀ x = some (g', s', false) →
      visitFrom τ ρ floats f s₀ s vs ws g = .returned g' false := by
  obtain ⟨s', vs', ws', L', h1, h2, h3, h4, h5⟩ := visitFrom_kept h hv hq hf he hk
  cases h1 with
  | nil => simp [shownAll] at h4
  | @cons c b s vs ws vs' ws' y t L hc hb hs =>
    have h4 : shown ⟨c, b⟩ (y, t) :: shownAll s L = x :: rest := h4
    simp only [List.cons.injEq] at h4
    rw [h5, visitFrom_cons (c := ⟨c, b⟩) (p := (y, t)) hc hb (hv _ (h2 (by simp))) (hq ⟨c, b⟩ (h2 (by simp)))
        (hf.imp_right fun h => h (y, t) (h3 (by simp))), h4.1]
    exact ⟨fun h => by rw [h], fun g' s' h => by rw [h]; rfl⟩

/-- Showing components ends in one of three ways. -/
theorem kept_cases (f : Callback γ σ) (s₀ : σ) : ∀ (l : List Shown) (g : γ),
    (∃ g', Kept f s₀ g l g') ∨ ∃ xs x rest g₁, l = xs ++ x :: rest ∧ Kept f s₀ g xs g₁ ∧
      (callback f g₁ s₀ x = none ∨ ∃ g' s', callback f g₁ s₀ x = some (g', s', false))
  | [], g => .inl ⟨g, .nil g⟩
  | x :: l, g => by
    rcases h : callback f g s₀ x with _ | ⟨g', s', _ | _⟩
    · exact .inr ⟨[], x, l, g, rfl, .nil g, .inl h⟩
    · exact .inr ⟨[], x, l, g, rfl, .nil g, .inr ⟨_, _, h⟩⟩
    · rcases kept_cases f s₀ l g' with ⟨g₁, h1⟩ | ⟨xs, y, rest, g₁, rfl, h1, h2⟩
      · exact .inl ⟨g₁, .cons h h1⟩
      · exact .inr ⟨x :: xs, y, rest, g₁, rfl, .cons h h1, h2⟩

end

/-! ### The tests -/

theorem reads_each {n : Nat} {s : CSum} {vs : List ℝ} {ws : List Word} {A : MV ℝ} (h : Reads ρ n s vs ws A) :
    ∃ L, ReadsEach ρ s vs ws L ∧ Spec.sumOf L = A := by
  induction h with
  | nil => exact ⟨[], .nil, rfl⟩
  | cons hc hb hw hs ih =>
    obtain ⟨L, h1, h2⟩ := ih
    exact ⟨_, .cons hc hb h1, by rw [sumOf_cons, h2]⟩

theorem readsEach_known {s : CSum} {vs : List ℝ} {ws : List Word} {L : List (ℝ × TBlade)}
    (h : ReadsEach ρ s vs ws L) (hk : ∀ c ∈ s, Known c) : ∀ p ∈ L, ∃ c ∈ s, c.blade = .const p.2.bits := by
  induction h with
  | nil => simp
  | @cons c b s vs ws vs' ws' x t L hc hb hs ih =>
    intro p hp
    rw [List.mem_cons] at hp
    rcases hp with rfl | hp
    · obtain ⟨w, e, -⟩ := hk ⟨c, b⟩ (by simp)
      dsimp only at e
      subst e
      cases hb
      exact ⟨_, List.mem_cons_self, rfl⟩
    · obtain ⟨d, hd, e⟩ := ih (fun c hc => hk c (by simp [hc])) p hp
      exact ⟨d, by simp [hd], e⟩

theorem readsEach_nodup {s : CSum} {vs : List ℝ} {ws : List Word} {L : List (ℝ × TBlade)}
    (h : ReadsEach ρ s vs ws L) (hk : ∀ c ∈ s, Known c) (hp : s.Pairwise BeforeC) :
    (L.map fun p => p.2.bits).Nodup := by
  induction h with
  | nil => simp
  | @cons c b s vs ws vs' ws' x t L hc hb hs ih =>
    obtain ⟨hp1, hp2⟩ := List.pairwise_cons.1 hp
    rw [List.map_cons, List.nodup_cons]
    refine ⟨?_, ih (fun c hc => hk c (by simp [hc])) hp2⟩
    rw [List.mem_map]
    rintro ⟨p, hp, e⟩
    obtain ⟨d, hd, ed⟩ := readsEach_known hs (fun c hc => hk c (by simp [hc])) p hp
    obtain ⟨w, ew, -⟩ := hk ⟨c, b⟩ (by simp)
    dsimp only at ew
    subst ew
    have : t.bits = w := by cases hb; rfl
    exact beforeC_ne (hk ⟨c, .const w⟩ (by simp)) (hp1 d hd) (by rw [ed, e, this])

theorem plain_visitable {s : CSum} (h : Plain s) : ∀ c ∈ s, visitable c = true := by
  intro c hc
  obtain ⟨w, e, -⟩ := canonical_known h.1 c hc
  rcases h.2 c hc with h | ⟨v, h⟩ <;> simp [visitable, e, h, isConstant]

theorem plain_noInt {s : CSum} (h : Plain s) : ∀ c ∈ s, NoIntQuotient τ c.coef := by
  intro c hc
  rcases h.2 c hc with h | ⟨v, h⟩ <;> simp [h, NoIntQuotient]

/-- Comparing with a tolerance converted to the type of the number. -/
theorem le_convert {floats : Bool} {x tol : ℝ} (h0 : 0 ≤ tol) (hx : floats = true ∨ ∃ z : ℤ, x = z) :
    |x| ≤ convertTo floats tol ↔ |x| ≤ tol := by
  unfold convertTo
  by_cases hf : floats = true
  · rw [if_pos hf]
  · obtain ⟨z, rfl⟩ := hx.resolve_left hf
    rw [if_neg hf, truncate, if_pos h0]
    rw [← Int.cast_abs, Int.cast_le, Int.le_floor]

theorem shownAll_mem {s : CSum} {vs : List ℝ} {ws : List Word} {L : List (ℝ × TBlade)}
    (h : ReadsEach ρ s vs ws L) : (∀ x ∈ shownAll s L, ∃ p ∈ L, x.value = p.1) ∧
      ∀ p ∈ L, ∃ x ∈ shownAll s L, x.value = p.1 := by
  induction h with
  | nil => simp [shownAll]
  | @cons c b s vs ws vs' ws' y t L hc hb hs ih =>
    have e : shownAll (⟨c, b⟩ :: s) ((y, t) :: L) = shown ⟨c, b⟩ (y, t) :: shownAll s L := rfl
    rw [e]
    refine ⟨fun x hx => ?_, fun p hp => ?_⟩
    · rcases List.mem_cons.1 hx with rfl | hx
      · exact ⟨(y, t), List.mem_cons_self, rfl⟩
      · obtain ⟨p, hp, e⟩ := ih.1 x hx
        exact ⟨p, List.mem_cons_of_mem _ hp, e⟩
    · rcases List.mem_cons.1 hp with rfl | hp
      · exact ⟨shown ⟨c, b⟩ (y, t), List.mem_cons_self, rfl⟩
      · obtain ⟨x, hx, e⟩ := ih.2 p hp
        exact ⟨x, List.mem_cons_of_mem _ hx, e⟩

theorem isZero_each {M : Object} {tol : ℝ} {L : List (ℝ × TBlade)}
    (hL : ReadsEach ρ M.expr M.values M.bitsets L) (hv : ∀ c ∈ M.expr, visitable c = true)
    (hq : ∀ c ∈ M.expr, NoIntQuotient τ c.coef) (hf : M.floats = true ∨ Integral L) (h0 : 0 ≤ tol) :
    ∃ r, isZero τ ρ M tol = some (.returned () r) ∧ (r = true ↔ ∀ p ∈ L, |p.1| ≤ tol) := by
  obtain ⟨hsh, hsh'⟩ := shownAll_mem hL
  have hx : ∀ p ∈ L, M.floats = true ∨ ∃ z : ℤ, p.1 = z := fun p hp => hf.imp_right fun h => h p hp
  rw [isZero, forEachComponent, if_pos (List.all_eq_true.2 hv)]
  set f : Callback Unit Unit := fun _ _ _ x _ _ => some ((), (), decide (|x| ≤ convertTo M.floats tol)) with hfd
  have kept : ∀ (xs : List Shown) (g g' : Unit), Kept f () g xs g' → ∀ x ∈ xs, |x.value| ≤ convertTo M.floats tol := by
    intro xs g g' hk
    induction hk with
    | nil => simp
    | cons hx hxs ih =>
      intro y hy
      rcases List.mem_cons.1 hy with rfl | hy
      · simp only [callback, hfd, Option.some.injEq, Prod.mk.injEq, true_and, decide_eq_true_eq] at hx
        exact hx
      · exact ih y hy
  rcases kept_cases f () (shownAll M.expr L) () with ⟨_, h1⟩ | ⟨xs, x, rest, _, h1, h2, h3⟩
  · refine ⟨true, by rw [visitFrom_all hL hv hq hf h1], ?_⟩
    simp only [true_iff]
    intro p hp
    obtain ⟨x, h4, h5⟩ := hsh' p hp
    rw [← le_convert h0 (hx p hp), ← h5]
    exact kept _ _ _ h1 x h4
  · refine ⟨false, ?_, ?_⟩
    · rcases h3 with h3 | ⟨_, _, h3⟩
      · simp [callback, hfd] at h3
      · rw [(visitFrom_at hL hv hq hf h1 h2).2 _ _ h3]
    · simp only [Bool.false_eq_true, false_iff, not_forall]
      obtain ⟨p, hp, e⟩ := hsh x (by rw [h1]; simp)
      refine ⟨p, hp, ?_⟩
      rw [← le_convert h0 (hx p hp), ← e]
      rcases h3 with h3 | ⟨_, _, h3⟩
      · simp [callback, hfd] at h3
      · simpa [callback, hfd] using h3

theorem exec_int {code : List Instr} (hρ : IntegerVariables τ ρ) (hf : writtenFloats τ code = false) :
    ∀ {vs : List ℝ} {ws : List Word}, exec τ ρ code = some (vs, ws) → ∀ x ∈ vs, IsInt x := by
  induction code with
  | nil => intro vs ws h; cases h; simp
  | cons i is ih =>
    intro vs ws h
    simp only [writtenFloats, List.any_cons, Bool.or_eq_false_iff] at hf
    cases i with
    | value e =>
      simp only [exec, Option.bind_eq_bind, Option.bind_eq_some_iff, Prod.exists, Option.some.injEq,
        Prod.mk.injEq] at h
      obtain ⟨v, hv, vs', ws', h1, rfl, rfl⟩ := h
      intro x hx
      rcases List.mem_cons.1 hx with rfl | hx
      · cases v with
        | num y => exact eval_int hρ e hf.1 y hv
        | bits w => exact isInt_nat _
        | bool b =>
          cases b
          · exact ⟨0, by simp [asNumber]⟩
          · exact ⟨1, by simp [asNumber]⟩
      · exact ih hf.2 h1 x hx
    | bits e =>
      simp only [exec, Option.bind_eq_bind, Option.bind_eq_some_iff, Prod.exists, Option.some.injEq,
        Prod.mk.injEq] at h
      obtain ⟨v, hv, vs', ws', h1, rfl, rfl⟩ := h
      exact ih hf.2 h1

theorem contextVariables_int {Ms : List Object} (hρ : IntegerVariables τ ρ) (hM : ∀ M ∈ Ms, IntegerStorage M) :
    IntegerVariables (contextTypes τ (baseId Ms) (storedInputs Ms)) (contextEnv ρ (baseId Ms) (storedInputs Ms)) := by
  intro t i ht
  unfold contextTypes at ht
  unfold contextEnv
  dsimp only
  split_ifs at ht with hb
  · rw [if_pos hb]
    cases hs : (storedInputs Ms)[t - (baseId Ms + 1)]? with
    | none => exact ⟨0, by simp⟩
    | some M =>
      rw [hs] at ht
      have hm : M ∈ Ms := (List.mem_filter.1 (List.mem_of_getElem? hs)).1
      simp only [Option.map_some, Option.getD_some, List.getD_eq_getElem?_getD] at ht ⊢
      cases hv : M.values[i]? with
      | none => exact ⟨0, by simp⟩
      | some x => exact hM M hm ht x (List.mem_of_getElem? hv)
  · rw [if_neg hb]
    exact hρ t i ht

theorem contextObject_int {n : Nat} {Ms : List Object} {e : CSum} {o : Object} (hρ : IntegerVariables τ ρ)
    (hM : ∀ M ∈ Ms, IntegerStorage M) (h : contextObject n τ ρ Ms e = some o) : IntegerStorage o := by
  unfold contextObject contextEval at h
  by_cases hs : (storedInputs Ms).isEmpty = true
  · simp only [hs, if_true, Option.bind_eq_bind, Option.bind_some, Option.some.injEq] at h
    subst h
    intro _ x hx
    simp at hx
  · simp only [hs, Bool.false_eq_true, if_false, Option.bind_eq_bind, Option.bind_eq_some_iff, Prod.exists,
      Option.some.injEq] at h
    obtain ⟨e', vs, ws, ⟨e'', code, hc, vs', ws', hx, h1⟩, rfl⟩ := h
    simp only [Prod.mk.injEq] at h1
    obtain ⟨rfl, rfl, rfl⟩ := h1
    simp only [hc]
    intro hf
    exact exec_int (contextVariables_int hρ hM) hf hx

theorem plain_integral {M : Object} (hM : Plain M.expr) (hi : IntegerStorage M) {L : List (ℝ × TBlade)}
    (hL : ReadsEach ρ M.expr M.values M.bitsets L) : M.floats = true ∨ Integral L := by
  cases hf : M.floats with
  | true => exact .inl rfl
  | false =>
    refine .inr ?_
    have := hi hf
    clear hi hf
    have hp := hM.2
    clear hM
    generalize M.expr = s at *
    generalize M.values = vs at *
    generalize M.bitsets = ws at *
    induction hL with
    | nil => simp [Integral]
    | @cons c b s vs ws vs' ws' y t L hc hb hs ih =>
      intro p hp'
      rcases List.mem_cons.1 hp' with rfl | hp'
      · cases hc with
        | stored => exact this _ (by simp)
        | symbolic _ _ hs hb hd =>
          rcases hp ⟨c, b⟩ (by simp) with rfl | ⟨v, rfl⟩
          · simp [hasStored] at hs
          · exact ⟨v, V.const_eq ⟨hb, hd⟩⟩
      · exact ih (fun c hc => hp c (by simp [hc])) (fun x hx => this x (by simp [hx])) p hp'

theorem isZero_represents {n : Nat} {M : Object} {tol : ℝ} {A : MV ℝ} (hM : Represents ρ n M A)
    (hi : IntegerStorage M) (h0 : 0 ≤ tol) :
    ∃ r, isZero τ ρ M tol = some (.returned () r) ∧ (r = true ↔ ∀ b, |A b| ≤ tol) := by
  obtain ⟨L, hL, rfl⟩ := reads_each hM.2
  obtain ⟨-, hk, hp, -⟩ := canonical_iff.1 hM.1.1
  obtain ⟨h1, h2⟩ := sum_apply_of_nodup (readsEach_nodup hL hk hp)
  obtain ⟨r, h3, h4⟩ := isZero_each (τ := τ) (tol := tol) hL (plain_visitable hM.1) (plain_noInt hM.1)
    (plain_integral hM.1 hi hL) h0
  refine ⟨r, h3, h4.trans ⟨fun h b => ?_, fun h p hp => ?_⟩⟩
  · by_cases hb : ∃ p ∈ L, p.2.bits = b
    · obtain ⟨p, hp, rfl⟩ := hb
      rw [show Spec.sumOf L p.2.bits = p.1 from h1 p hp]
      exact h p hp
    · rw [show Spec.sumOf L b = 0 from h2 b fun p hp e => hb ⟨p, hp, e⟩, abs_zero]
      exact h0
  · rw [← h1 p hp]
    exact h _

theorem scalarCoef_inv {a : CSum} {c : Expr} (h : scalarCoef a = some c) : a = [⟨c, .const 0⟩] := by
  unfold scalarCoef at h
  split at h
  · simp only [Option.some.injEq] at h
    rw [h]
    rfl
  · simp at h

/-- The absolute value of a scalar object. -/
theorem absScalar_ok {N k : Nat} (hN : N ≤ 63) {M o : Object} {x : ℝ}
    (hM : Represents ρ N M (Finsupp.single 0 x)) (h : absScalar (k + 1) τ ρ M = some o) :
    Represents ρ N o (Finsupp.single 0 |x|) ∧ (IntegerVariables τ ρ → IntegerStorage M → IntegerStorage o) := by
  simp only [absScalar, call1, Option.bind_eq_bind, Option.bind_eq_some_iff] at h
  obtain ⟨as, h1, h⟩ := h
  obtain ⟨as', h1', w, d, -⟩ := arguments_ok (outer := ρ) (Ms := [M]) (As := [Finsupp.single 0 x]) hN
    (.cons hM .nil)
  rw [h1] at h1'
  cases h1'
  split at h
  · next a =>
    simp only [Option.bind_eq_some_iff, Option.some.injEq] at h
    obtain ⟨e, ⟨c, hc, e', he', rfl⟩, h⟩ := h
    rw [List.forall₂_cons_right_iff] at d
    obtain ⟨a', l, d1, d2, d3⟩ := d
    cases d3
    have hs := scalarCoef_inv hc
    subst hs
    obtain ⟨g, ts⟩ := leaf_ge (R := True) (n := k + 1) ((w [⟨c, .const 0⟩] (by simp)).2 ⟨c, .const 0⟩ (by simp))
    have hden := single_denotes_inv d1
    have g' := ge_abs g (by omega) he'
    have hcon := context_ge (τ := τ) (k := k + 1) (Ms := [M]) (e := [⟨e', .const 0⟩]) (R := True) (N := N)
      ⟨canonical_single ⟨0, rfl, by simp [vecs]⟩, by simpa using g'⟩
      (single_denotes g'.built (abs_den g.lit g.built ts hden he'))
    exact ⟨hcon.1 o h, fun hρ hi => contextObject_int hρ (by simpa using hi) h⟩
  · simp at h

theorem normSqr_ok {P Q R k : Nat} (hn : P + Q + R ≤ 62) {M s : Object} {A : MV ℝ}
    (hM : Represents ρ (P + Q + R) M A) (h : normSqrObject P Q R k τ ρ M = some s) :
    Represents ρ (P + Q + R) s (Finsupp.single 0 (rnormSqr (signedProd P Q R) A)) ∧
      (IntegerVariables τ ρ → IntegerStorage M → IntegerStorage s) := by
  constructor
  · have := runLazy_holds hn (.cons hM .nil) _ s h
    have e : Program.value P Q R [A] (.graded .sp (.input 0) (.reverse (.input 0))) =
        Finsupp.single 0 (rnormSqr (signedProd P Q R) A) := by
      show signedProd P Q R .sp A (reverse A) = _
      rw [rnormSqr]
      unfold signedProd
      rw [Iso.sp_scalar]
      simp [scalar]
    rw [e] at this
    exact this
  · intro hρ hi
    simp only [normSqrObject, Program.runLazy, Option.bind_eq_bind, Option.bind_eq_some_iff] at h
    obtain ⟨as, -, r, -, h⟩ := h
    exact contextObject_int hρ (by simpa using hi) h

theorem sub_one_ok {N k : Nat} (hN : N ≤ 62) {M o : Object} {x : ℝ}
    (hM : Represents ρ N M (Finsupp.single 0 x)) (h : call2 k τ ρ (subC k) M (constObject 1) = some o) :
    Represents ρ N o (Finsupp.single 0 (x - 1)) ∧ (IntegerVariables τ ρ → IntegerStorage M → IntegerStorage o) := by
  constructor
  · have := call2_holds (by omega) (good_sub hN) hM (holds_const (outer := ρ) (N := N) 1) h
    rw [← Finsupp.single_sub, Int.cast_one] at this
    exact this
  · intro hρ hi
    simp only [call2, Option.bind_eq_bind, Option.bind_eq_some_iff] at h
    obtain ⟨as, h1, h⟩ := h
    split at h
    · simp only [Option.bind_eq_some_iff] at h
      obtain ⟨e, -, h⟩ := h
      refine contextObject_int hρ ?_ h
      simp only [List.mem_cons, List.not_mem_nil, or_false, forall_eq_or_imp, forall_eq]
      exact ⟨hi, by simp [IntegerStorage, constObject]⟩
    · simp at h

theorem single_all {x tol : ℝ} (h0 : 0 ≤ tol) : (∀ b, |(Finsupp.single 0 x : MV ℝ) b| ≤ tol) ↔ |x| ≤ tol := by
  refine ⟨fun h => by simpa using h 0, fun h b => ?_⟩
  rw [Finsupp.single_apply]
  split_ifs
  · exact h
  · simpa using h0

end GATL
