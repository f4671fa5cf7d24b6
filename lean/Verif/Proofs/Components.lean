import Verif.Spec.Components
import Verif.Proofs.Functions
import Verif.Proofs.Grades

/-!
# Sums and products of components preserve values
-/

namespace GATL

open Expr Spec

variable {ρ : Env} {n : Nat}

theorem SumDenotes.nil : SumDenotes ρ n [] 0 := ⟨by simp, [], by simp, by simp, by simp⟩

theorem SumDenotes.cons_iff {c : Comp} {cs : CSum} {m : MV ℝ} :
    SumDenotes ρ n (c :: cs) m ↔
      ∃ m₁ m₂, SumDenotes ρ n [c] m₁ ∧ SumDenotes ρ n cs m₂ ∧ m = m₁ + m₂ := by
  constructor
  · rintro ⟨hb, A, hA, hw, rfl⟩
    cases hA with
    | cons h hs =>
      rename_i a as
      refine ⟨_, _, ⟨by simpa using hb c (by simp), [a], by simpa using h,
        by simpa using hw a (by simp), rfl⟩,
        ⟨fun x hx => hb x (by simp [hx]), as, hs, fun x hx => hw x (by simp [hx]), rfl⟩, by simp⟩
  · rintro ⟨m₁, m₂, ⟨hb₁, A₁, hA₁, hw₁, rfl⟩, ⟨hb₂, A₂, hA₂, hw₂, rfl⟩, rfl⟩
    cases hA₁ with
    | cons h hs =>
      cases hs
      rename_i a
      refine ⟨?_, a :: A₂, .cons h hA₂, ?_, by simp⟩
      · intro x hx
        rcases List.mem_cons.1 hx with rfl | hx
        · exact hb₁ _ (by simp)
        · exact hb₂ _ hx
      · intro x hx
        rcases List.mem_cons.1 hx with rfl | hx
        · exact hw₁ _ (by simp)
        · exact hw₂ _ hx

theorem SumDenotes.single_iff {c : Comp} {m : MV ℝ} :
    SumDenotes ρ n [c] m ↔ CompBuilt c ∧ ∃ a, CompDenotes ρ c a ∧ WellTyped n a ∧
      (Finsupp.single a.2.bits a.1 : MV ℝ) = m := by
  constructor
  · rintro ⟨hb, A, hA, hw, rfl⟩
    cases hA with
    | cons h hs =>
      cases hs
      exact ⟨hb c (by simp), _, h, hw _ (by simp), by simp⟩
  · rintro ⟨hb, a, ha, hw, rfl⟩
    exact ⟨by simpa using hb, [a], by simpa using ha, by simpa using hw, by simp⟩

theorem compDenotes_unique {c : Comp} {a b : ℝ × TBlade} (ha : CompDenotes ρ c a)
    (hb : CompDenotes ρ c b) : a = b := by
  obtain ⟨c, bl⟩ := c
  obtain ⟨x, s⟩ := a
  obtain ⟨y, t⟩ := b
  obtain ⟨h1, h2⟩ := ha
  obtain ⟨h3, h4⟩ := hb
  have hxy : x = y := by
    unfold Denotes at h1 h3
    rw [h1] at h3; simpa using h3
  subst hxy
  congr 1
  cases bl with
  | const b => rw [show s = _ from h2, show t = _ from h4]
  | dyn G e =>
    obtain ⟨w, hw, rfl⟩ := h2
    obtain ⟨w', hw', rfl⟩ := h4
    rw [hw] at hw'
    simp at hw'
    rw [hw']

theorem wellTyped_zero : WellTyped n ((0 : ℝ), TBlade.const 0) :=
  wellTyped_const.2 (by intro i hi; simp at hi)

/-- The blade of a component that is well typed has a declared grade unless the coefficient is
zero. -/
theorem wellTyped_grades_zero (hn : n ≤ 63) {x : ℝ} {t : TBlade} (h : WellTyped n (x, t))
    (h0 : t.grades = 0) : x = 0 := by
  cases t with
  | const b =>
    exfalso
    have hle := inSpace_ones hn (wellTyped_const.1 h)
    have : ((1 : Word) <<< ones b).getLsbD (ones b) = true := by
      change (bit (ones b)).getLsbD (ones b) = true
      rw [getLsbD_bit _ _ (by omega)]; simp
    rw [show ((1 : Word) <<< ones b) = 0 from h0] at this
    simp at this
  | dyn G b =>
    by_contra hx
    have := (wellTyped_dyn.1 h).2.2 hx
    rw [show G = 0 from h0] at this
    simp at this

theorem bladeDenotes_grades {b : Blade} {t : TBlade} (h : BladeDenotes ρ b t) :
    t.grades = b.grades := by
  cases b with
  | const b => rw [show t = _ from h]; rfl
  | dyn G e => obtain ⟨w, -, rfl⟩ := h; rfl

/-- `component_t` does not change the value. -/
theorem mkComp_ok (hn : n ≤ 63) {c : Expr} {b : Blade} {m : MV ℝ}
    (h : SumDenotes ρ n [⟨c, b⟩] m) : SumDenotes ρ n [mkComp c b] m := by
  rw [SumDenotes.single_iff] at h ⊢
  obtain ⟨hb, ⟨x, t⟩, ⟨hx, ht⟩, hw, rfl⟩ := h
  have hg := bladeDenotes_grades ht
  dsimp only at hg
  unfold mkComp
  have hzero : CompBuilt Comp.zero := ⟨.const 0, by simp⟩
  have hzd : CompDenotes ρ Comp.zero (0, .const 0) := ⟨by simp [Denotes, den], rfl⟩
  by_cases h0 : b.grades = 0
  · rw [if_pos h0, if_pos (Or.inr h0)]
    have : x = 0 := wellTyped_grades_zero hn hw (by rw [← h0]; exact hg)
    exact ⟨hzero, _, hzd, wellTyped_zero, by simp [this]⟩
  · rw [if_neg h0]
    by_cases hc : c = .const 0
    · subst hc
      rw [if_pos (Or.inl rfl)]
      have : x = 0 := by
        simpa [Denotes, den] using hx.symm
      exact ⟨hzero, _, hzd, wellTyped_zero, by simp [this]⟩
    · rw [if_neg (not_or.2 ⟨hc, h0⟩)]
      exact ⟨hb, _, ⟨hx, ht⟩, hw, rfl⟩

theorem sumDenotes_nil {m : MV ℝ} (h : SumDenotes ρ n [] m) : m = 0 := by
  obtain ⟨-, A, hA, -, rfl⟩ := h
  cases hA
  simp

/-- A zero component has the value zero. -/
theorem sumDenotes_zero {c : Comp} {m : MV ℝ} (h : SumDenotes ρ n [c] m) (h0 : c.coef = .const 0) :
    m = 0 := by
  obtain ⟨-, ⟨x, t⟩, ⟨hx, -⟩, -, rfl⟩ := SumDenotes.single_iff.1 h
  rw [h0] at hx
  have : x = 0 := by simpa [Denotes, den] using hx.symm
  simp [this]

theorem wellTyped_add {x y : ℝ} {t : TBlade} (hx : WellTyped n (x, t)) (hy : WellTyped n (y, t)) :
    WellTyped n (x + y, t) := by
  cases t with
  | const b => exact hx
  | dyn G b =>
    rw [wellTyped_dyn] at *
    refine ⟨hx.1, hx.2.1, fun h => ?_⟩
    by_cases h0 : x = 0
    · exact hy.2.2 (by rintro rfl; simp [h0] at h)
    · exact hx.2.2 h0

/-- Two components with the same blade are collected. -/
theorem collect_ok (hn : n ≤ 63) {k : Nat} {a b : Comp} {e : Expr} {m m' : MV ℝ}
    (h : SumDenotes ρ n [a] m) (h' : SumDenotes ρ n [b] m') (hab : a.blade = b.blade)
    (he : simp k .add a.coef b.coef = some e) :
    SumDenotes ρ n [mkComp e a.blade] (m + m') := by
  apply mkComp_ok hn
  rw [SumDenotes.single_iff] at h h' ⊢
  obtain ⟨hb, ⟨x, t⟩, ⟨hx, ht⟩, hw, rfl⟩ := h
  obtain ⟨hb', ⟨y, t'⟩, ⟨hy, ht'⟩, hw', rfl⟩ := h'
  have : t = t' := by
    have h1 : CompDenotes ρ ⟨.const 0, a.blade⟩ (0, t) := ⟨by simp [Denotes, den], ht⟩
    have h2 : CompDenotes ρ ⟨.const 0, a.blade⟩ (0, t') := ⟨by simp [Denotes, den], by rw [hab]; exact ht'⟩
    have := compDenotes_unique h1 h2
    simpa using this
  subst this
  obtain ⟨hbe, hde⟩ := (simp_sound ρ k).add _ _ e x y ⟨hb.1, hx⟩ ⟨hb'.1, hy⟩ he
  exact ⟨⟨hbe, hb.2⟩, (x + y, t), ⟨hde, ht⟩, wellTyped_add hw hw', by simp⟩

/-- `addition_t` of components denotes the sum. -/
theorem addC_ok (hn : n ≤ 63) (k : Nat) : ∀ (s t e : CSum) (m m' : MV ℝ), SumDenotes ρ n s m →
    SumDenotes ρ n t m' → addC k s t = some e → SumDenotes ρ n e (m + m') := by
  induction k with
  | zero => intro s t e m m' _ _ he; simp [addC] at he
  | succ k ih =>
    intro s t e m m' hs ht he
    match s, t, hs, ht, he with
    | [], _, _, _, he => simp [addC] at he
    | _ :: _, [], _, _, he => simp [addC] at he
    | a :: as, b :: bs, hs, ht, he =>
      rw [addC] at he
      obtain ⟨ma, mas, ha, has, rfl⟩ := SumDenotes.cons_iff.1 hs
      obtain ⟨mb, mbs, hb, hbs, rfl⟩ := SumDenotes.cons_iff.1 ht
      split_ifs at he with h1 h2 h3 h4 h5 h6 h7 h8
      · -- 0 + 0
        simp only [Option.some.injEq] at he; subst he
        obtain ⟨hz, rfl⟩ := h1
        obtain ⟨hz', rfl⟩ := h2
        have e1 := sumDenotes_zero ha hz
        have e2 := sumDenotes_zero hb hz'
        rw [sumDenotes_nil hbs, e2, add_zero, add_zero]; exact hs
      · simp only [Option.some.injEq] at he; subst he
        obtain ⟨hz, rfl⟩ := h1
        have e1 := sumDenotes_zero ha hz
        obtain ⟨-, A, hA, -, rfl⟩ := has
        cases hA
        rw [e1]; simpa using ht
      · simp only [Option.some.injEq] at he; subst he
        obtain ⟨hz, rfl⟩ := h3
        have e1 := sumDenotes_zero hb hz
        obtain ⟨-, A, hA, -, rfl⟩ := hbs
        cases hA
        rw [e1]; simpa using hs
      · -- collect
        simp only [Option.bind_eq_bind, Option.bind_eq_some_iff] at he
        obtain ⟨c, hc, he⟩ := he
        have hc' := collect_ok hn ha hb h4 hc
        split at he
        · simp only [Option.some.injEq] at he; subst he
          obtain ⟨-, A, hA, -, rfl⟩ := has
          obtain ⟨-, B, hB, -, rfl⟩ := hbs
          cases hA; cases hB
          simpa using hc'
        · obtain ⟨-, A, hA, -, rfl⟩ := has
          cases hA
          have := ih _ _ _ _ _ hc' hbs he
          convert this using 1
          simp; abel
        · obtain ⟨-, A, hA, -, rfl⟩ := hbs
          cases hA
          have := ih _ _ _ _ _ hc' has he
          convert this using 1
          simp; abel
        · simp only [Option.bind_eq_some_iff] at he
          obtain ⟨r, hr, he⟩ := he
          have := ih _ _ _ _ _ hc' (ih _ _ _ _ _ has hbs hr) he
          convert this using 1
          abel
      · simp only [Option.some.injEq] at he; subst he
        subst h6
        obtain ⟨-, A, hA, -, rfl⟩ := has
        cases hA
        exact SumDenotes.cons_iff.2 ⟨_, _, ha, ht, by simp⟩
      · simp only [Option.bind_eq_bind, Option.bind_eq_some_iff] at he
        obtain ⟨r, hr, he⟩ := he
        have := ih _ _ _ _ _ ha (ih _ _ _ _ _ has ht hr) he
        convert this using 1
        abel
      · simp only [Option.some.injEq] at he; subst he
        subst h8
        obtain ⟨-, A, hA, -, rfl⟩ := hbs
        cases hA
        exact SumDenotes.cons_iff.2 ⟨_, _, hb, hs, by simp; abel⟩
      · simp only [Option.bind_eq_bind, Option.bind_eq_some_iff] at he
        obtain ⟨r, hr, he⟩ := he
        have := ih _ _ _ _ _ hb (ih _ _ _ _ _ hs hbs hr) he
        convert this using 1
        abel

/-- What a blade type must be like. -/
def BladeBuilt (b : Blade) : Prop := ∀ G e, b = .dyn G e → Built e ∧ isConstant e = false

/-- A mapping computes the product `μ` of basis blades related by `P`: the components it returns, scaled by any
number that is zero unless the operands are well typed, are well typed and denote the scaled
product. -/
def MapOk (ρ : Env) (n : Nat) (P : Blade → Blade → Prop) (M : CMapping) (μ : MV ℝ →ₗ[ℝ] MV ℝ →ₗ[ℝ] MV ℝ) : Prop :=
  ∀ (k : Nat) (L R : Blade) (es : CSum) (tl tr : TBlade) (s : ℝ), P L R → M k L R = some es →
    BladeBuilt L → BladeBuilt R → BladeDenotes ρ L tl → BladeDenotes ρ R tr →
    WellTyped n (s, tl) → WellTyped n (s, tr) →
    (∀ c ∈ es, CompBuilt c) ∧ ∃ A : List (ℝ × TBlade), List.Forall₂ (CompDenotes ρ) es A ∧
      (∀ a ∈ A, WellTyped n (s * a.1, a.2)) ∧
      (A.map fun a => (Finsupp.single a.2.bits (s * a.1) : MV ℝ)).sum =
        s • μ (Finsupp.single tl.bits 1) (Finsupp.single tr.bits 1)

theorem distribute_ok (hn : n ≤ 63) {k : Nat} {σ : Expr} {s : ℝ} (hσ : V ρ σ s) :
    ∀ (es : CSum) (e : CSum) (A : List (ℝ × TBlade)), distribute k σ es = some e →
      (∀ c ∈ es, CompBuilt c) → List.Forall₂ (CompDenotes ρ) es A →
      (∀ a ∈ A, WellTyped n (s * a.1, a.2)) →
      SumDenotes ρ n e (A.map fun a => (Finsupp.single a.2.bits (s * a.1) : MV ℝ)).sum := by
  have hone : ∀ (c : Comp) (a : ℝ × TBlade) (x : Expr), CompBuilt c → CompDenotes ρ c a →
      WellTyped n (s * a.1, a.2) → simp k .mul σ c.coef = some x →
      SumDenotes ρ n [mkComp x c.blade] (Finsupp.single a.2.bits (s * a.1)) := by
    intro c a x hb hd hw hx
    apply mkComp_ok hn
    rw [SumDenotes.single_iff]
    obtain ⟨hbe, hde⟩ := (simp_sound ρ k).mul _ _ x s a.1 hσ ⟨hb.1, hd.1⟩ hx
    exact ⟨⟨hbe, hb.2⟩, (s * a.1, a.2), ⟨hde, hd.2⟩, hw, rfl⟩
  intro es
  induction es with
  | nil => intro e A he; simp [distribute] at he
  | cons c cs ih =>
    intro e A he hb hA hw
    cases hA with
    | cons hc hcs =>
      rename_i a as
      cases cs with
      | nil =>
        cases hcs
        simp only [distribute, Option.bind_eq_bind, Option.bind_eq_some_iff, Option.some.injEq] at he
        obtain ⟨x, hx, rfl⟩ := he
        simpa using hone c a x (hb c (by simp)) hc (hw a (by simp)) hx
      | cons c' cs =>
        simp only [distribute, Option.bind_eq_bind, Option.bind_eq_some_iff] at he
        obtain ⟨x, hx, r, hr, he⟩ := he
        have h1 := hone c a x (hb c (by simp)) hc (hw a (by simp)) hx
        have h2 := ih r as (by simpa [distribute, Option.bind_eq_some_iff] using hr)
          (fun y hy => hb y (by simp [hy])) hcs (fun y hy => hw y (by simp [hy]))
        simpa using addC_ok hn k _ _ _ _ _ h1 h2 he

theorem wellTyped_mul_left {x : ℝ} (y : ℝ) {t : TBlade} (h : WellTyped n (x, t)) :
    WellTyped n (x * y, t) := by
  cases t with
  | const b => exact h
  | dyn G b =>
    rw [wellTyped_dyn] at *
    exact ⟨h.1, h.2.1, fun h0 => h.2.2 (by rintro rfl; simp at h0)⟩

theorem wellTyped_mul_right (x : ℝ) {y : ℝ} {t : TBlade} (h : WellTyped n (y, t)) :
    WellTyped n (x * y, t) := by
  rw [mul_comm]; exact wellTyped_mul_left x h

/-- `product_t` of components denotes the product. -/
theorem mulC_ok (hn : n ≤ 63) {M : CMapping} {P : Blade → Blade → Prop}
    {μ : MV ℝ →ₗ[ℝ] MV ℝ →ₗ[ℝ] MV ℝ} (hM : MapOk ρ n P M μ) (k : Nat) :
    ∀ (s t e : CSum) (m m' : MV ℝ), (∀ a ∈ s, ∀ b ∈ t, P a.blade b.blade) → SumDenotes ρ n s m →
    SumDenotes ρ n t m' → mulC M k s t = some e → SumDenotes ρ n e (μ m m') := by
  induction k with
  | zero => intro s t e m m' _ _ _ he; simp [mulC] at he
  | succ k ih =>
    intro s t e m m' hP hs ht he
    match s, t, hP, hs, ht, he with
    | [], _, _, _, _, he => simp [mulC] at he
    | _ :: _, [], _, _, _, he => simp [mulC] at he
    | a :: as, b :: bs, hP, hs, ht, he =>
      have hP1 : ∀ x ∈ [a], ∀ y ∈ [b], P x.blade y.blade := by
        simpa using hP a (by simp) b (by simp)
      have hP2 : ∀ x ∈ [a], ∀ y ∈ bs, P x.blade y.blade := by
        intro x hx y hy
        rw [List.mem_singleton] at hx
        subst hx
        exact hP _ (by simp) y (by simp [hy])
      have hP3 : ∀ x ∈ as, ∀ y ∈ [b], P x.blade y.blade := by
        intro x hx y hy
        rw [List.mem_singleton] at hy
        subst hy
        exact hP x (by simp [hx]) _ (by simp)
      have hP4 : ∀ x ∈ as, ∀ y ∈ bs, P x.blade y.blade := fun x hx y hy =>
        hP x (by simp [hx]) y (by simp [hy])
      unfold mulC at he
      obtain ⟨ma, mas, ha, has, rfl⟩ := SumDenotes.cons_iff.1 hs
      obtain ⟨mb, mbs, hb, hbs, rfl⟩ := SumDenotes.cons_iff.1 ht
      split_ifs at he with h1 h2
      · simp only [Option.some.injEq] at he; subst he
        obtain ⟨hz, rfl⟩ := h1
        have e1 := sumDenotes_zero ha hz
        have e2 := sumDenotes_nil has
        subst e1 e2
        simpa using ha
      · simp only [Option.some.injEq] at he; subst he
        obtain ⟨hz, rfl⟩ := h2
        have e1 := sumDenotes_zero hb hz
        have e2 := sumDenotes_nil hbs
        subst e1 e2
        simpa using hb
      · split at he
        · have e1 := sumDenotes_nil has
          have e2 := sumDenotes_nil hbs
          subst e1 e2
          simp only [Option.bind_eq_bind, Option.bind_eq_some_iff] at he
          obtain ⟨σ, hσ, es, hes, he⟩ := he
          obtain ⟨hab, ⟨x, tl⟩, ⟨hx, htl⟩, hwl, rfl⟩ := SumDenotes.single_iff.1 ha
          obtain ⟨hbb, ⟨y, tr⟩, ⟨hy, htr⟩, hwr, rfl⟩ := SumDenotes.single_iff.1 hb
          have hv := (simp_sound ρ k).mul _ _ σ x y ⟨hab.1, hx⟩ ⟨hbb.1, hy⟩ hσ
          obtain ⟨hb', A, hA, hwA, hsum⟩ := hM k _ _ es tl tr (x * y)
            (hP1 a (by simp) b (by simp)) hes hab.2 hbb.2 htl htr
            (wellTyped_mul_left y hwl) (wellTyped_mul_right x hwr)
          have := distribute_ok hn hv es e A he hb' hA hwA
          rw [hsum] at this
          convert this using 1
          have e1 : (Finsupp.single tl.bits x : MV ℝ) = x • Finsupp.single tl.bits 1 := by simp
          have e2 : (Finsupp.single tr.bits y : MV ℝ) = y • Finsupp.single tr.bits 1 := by simp
          simp only [add_zero]
          rw [e1, e2, map_smul, map_smul, LinearMap.smul_apply, smul_smul, mul_comm]
        · have e1 := sumDenotes_nil has
          subst e1
          simp only [Option.bind_eq_bind, Option.bind_eq_some_iff] at he
          obtain ⟨p, hp, q, hq, he⟩ := he
          have := addC_ok hn k _ _ _ _ _ (ih _ _ _ _ _ hP1 ha hb hp) (ih _ _ _ _ _ hP2 ha hbs hq) he
          simpa [map_add] using this
        · have e1 := sumDenotes_nil hbs
          subst e1
          simp only [Option.bind_eq_bind, Option.bind_eq_some_iff] at he
          obtain ⟨p, hp, q, hq, he⟩ := he
          have := addC_ok hn k _ _ _ _ _ (ih _ _ _ _ _ hP1 ha hb hp) (ih _ _ _ _ _ hP3 has hb hq) he
          simpa [map_add] using this
        · simp only [Option.bind_eq_bind, Option.bind_eq_some_iff] at he
          obtain ⟨p, hp, q, hq, pq, hpq, r, hr, t, ht, rt, hrt, he⟩ := he
          have h1 := addC_ok hn k _ _ _ _ _ (ih _ _ _ _ _ hP1 ha hb hp)
            (ih _ _ _ _ _ hP3 has hb hq) hpq
          have h2 := addC_ok hn k _ _ _ _ _ (ih _ _ _ _ _ hP2 ha hbs hr)
            (ih _ _ _ _ _ hP4 has hbs ht) hrt
          have := addC_ok hn k _ _ _ _ _ h1 h2 he
          convert this using 1
          simp only [map_add, LinearMap.add_apply]

end GATL
