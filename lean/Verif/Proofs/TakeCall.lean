import Verif.Proofs.TakeEval

/-!
# Grades: calls, helper lemmas
-/

namespace GATL

open Expr Spec

variable {ρ outer : Env} {τ : Types} {N n k L U : Nat} {R : Prop}

/-! ## Deduced grades -/

theorem known_grade {c : Comp} (hk : Known c) : GE R n L U (mkCountOneBits c.blade.bits) := by
  obtain ⟨b, eb, -⟩ := hk
  rw [eb]
  exact ge_const _

theorem compGrade_ge {tol : Expr} {c : Comp} {e : Expr} (hk : GE R n L U (mkCountOneBits c.blade.bits))
    (hc : GE R n L U c.coef)
    (ht : GE R n L U tol) (hn : n ≠ 0) (h : compGrade n tol c = some e) : GE R n L U e := by
  simp only [compGrade, Option.bind_eq_bind, Option.bind_eq_some_iff, Option.some.injEq] at h
  obtain ⟨a, ha, rfl⟩ := h
  exact ge_ifElse (gt_le (ge_abs hc hn ha) ht) (ge_const _) hk

theorem joinGrades_ge {a r : Expr} (ha : GE R n L U a) (hr : GE R n L U r) :
    GE R n L U (joinGrades a r) :=
  ge_ifElse (gt_equal ha (ge_const _)) (ge_const _) (ge_ifElse (gt_equal hr (ge_const _)) (ge_const _)
    (ge_ifElse (gt_equal ha (ge_const _)) hr (ge_ifElse (gt_equal hr (ge_const _)) ha
      (ge_ifElse (gt_equal ha hr) ha (ge_const _)))))

/-- What is required of the coefficients for deducing grades to compile. -/
def AbsC (n : Nat) (s : CSum) : Prop := ∀ c ∈ s, ∃ a, mkAbsolute (simp n) c.coef = some a

theorem deduceGrade_ge {tol : Expr} (ht : GE R n L U tol) (hn : n ≠ 0) :
    ∀ (s : CSum), s ≠ [] → (∀ c ∈ s, GE R n L U (mkCountOneBits c.blade.bits)) → (∀ c ∈ s, GE R n L U c.coef) →
      (∀ e, deduceGrade n tol s = some e → GE R n L U e) ∧ (AbsC n s → ∃ e, deduceGrade n tol s = some e)
  | [], h, _, _ => absurd rfl h
  | [c], _, hk, hg => by
    refine ⟨fun e h => compGrade_ge (hk c (by simp)) (hg c (by simp)) ht hn h, fun ha => ?_⟩
    obtain ⟨a, ha⟩ := ha c (by simp)
    exact ⟨_, by rw [deduceGrade, compGrade, ha]; rfl⟩
  | c :: d :: cs, _, hk, hg => by
    obtain ⟨i1, i2⟩ := deduceGrade_ge ht hn (d :: cs) (by simp) (fun x hx => hk x (List.mem_cons_of_mem _ hx))
      (fun x hx => hg x (List.mem_cons_of_mem _ hx))
    refine ⟨fun e h => ?_, fun ha => ?_⟩
    · simp only [deduceGrade, Option.bind_eq_bind, Option.bind_eq_some_iff, Option.some.injEq] at h
      obtain ⟨a, ha, r, hr, rfl⟩ := h
      exact joinGrades_ge (compGrade_ge (hk c (by simp)) (hg c (by simp)) ht hn ha) (i1 _ hr)
    · obtain ⟨a, h1⟩ := ha c (by simp)
      obtain ⟨r, h2⟩ := i2 fun x hx => ha x (List.mem_cons_of_mem _ hx)
      exact ⟨_, by simp [deduceGrade, compGrade, h1, h2]; rfl⟩

theorem deduceLargest_ge {tol : Expr} (ht : GE R n L U tol) (hn : n ≠ 0) :
    ∀ (s : CSum), s ≠ [] → (∀ c ∈ s, GE R n L U (mkCountOneBits c.blade.bits)) → (∀ c ∈ s, GE R n L U c.coef) →
      (∀ e, deduceLargestGrade n tol s = some e → GE R n L U e) ∧
        (AbsC n s → ∃ e, deduceLargestGrade n tol s = some e)
  | [], h, _, _ => absurd rfl h
  | [c], _, hk, hg => by
    refine ⟨fun e h => compGrade_ge (hk c (by simp)) (hg c (by simp)) ht hn h, fun ha => ?_⟩
    obtain ⟨a, ha⟩ := ha c (by simp)
    exact ⟨_, by rw [deduceLargestGrade, compGrade, ha]; rfl⟩
  | c :: d :: cs, _, hk, hg => by
    obtain ⟨i1, i2⟩ := deduceLargest_ge ht hn (d :: cs) (by simp) (fun x hx => hk x (List.mem_cons_of_mem _ hx))
      (fun x hx => hg x (List.mem_cons_of_mem _ hx))
    refine ⟨fun e h => ?_, fun ha => ?_⟩
    · simp only [deduceLargestGrade, Option.bind_eq_bind, Option.bind_eq_some_iff, Option.some.injEq] at h
      obtain ⟨a, ha, r, hr, rfl⟩ := h
      have h1 := compGrade_ge (hk c (by simp)) (hg c (by simp)) ht hn ha
      exact ge_ifElse (gt_le h1 (i1 _ hr)) (i1 _ hr) h1
    · obtain ⟨a, h1⟩ := ha c (by simp)
      obtain ⟨r, h2⟩ := i2 fun x hx => ha x (List.mem_cons_of_mem _ hx)
      exact ⟨_, by simp [deduceLargestGrade, compGrade, h1, h2]; rfl⟩

/-! ## Kept components -/

theorem keepComp_ok {g : Expr} {c : Comp} {p : ℝ × TBlade} {m : ℤ} (hk : Known c) (hc : GE R n L U c.coef)
    (hg : GE R n L U g) (hm : Denotes ρ g m) (hp : CompDenotes ρ c p) (hw : WellTyped N p) :
    ∃ c', keepComp g c = some c' ∧ Known c' ∧ GE R n L U c'.coef ∧
      (c'.coef ≠ .const 0 → c'.blade = c.blade) ∧ (c'.coef = .const 0 ∨ ∀ v, c'.coef = .const v → c.coef = .const v) ∧
      SumDenotes ρ N [c'] (gradePart m (Finsupp.single p.2.bits p.1)) := by
  obtain ⟨coef, blade⟩ := c
  obtain ⟨x, t⟩ := p
  obtain ⟨b, eb, hb⟩ := id hk
  simp only at eb hc
  subst eb
  have et : t = .const b := hp.2
  subst et
  have hzero : SumDenotes ρ N [Comp.zero] 0 :=
    SumDenotes.single_iff.2 ⟨⟨.const 0, fun G e h => by cases h⟩, (0, .const 0),
      ⟨by simpa using (V.const (ρ := ρ) 0).2, rfl⟩, by simp [WellTyped, vecs], by simp⟩
  have hself : SumDenotes ρ N [(⟨coef, .const b⟩ : Comp)] (Finsupp.single b x) :=
    SumDenotes.single_iff.2 ⟨⟨hc.built, fun G e h => by cases h⟩, (x, .const b), hp, hw, rfl⟩
  have hgen : ∃ c', some (mkComp (mkIfElse (mkEqual (mkCountOneBits (Blade.const b).bits) g) coef (.const 0))
      (.const b)) = some c' ∧ Known c' ∧ GE R n L U c'.coef ∧
      (c'.coef ≠ .const 0 → c'.blade = .const b) ∧
      (c'.coef = .const 0 ∨ ∀ v, c'.coef = .const v → coef = .const v) ∧
      SumDenotes ρ N [c'] (gradePart m (Finsupp.single b x)) := by
    obtain ⟨k1, k2, k3⟩ := mkComp_known (c := mkIfElse (mkEqual (mkCountOneBits (Blade.const b).bits) g) coef
      (.const 0)) hk
    simp only at k1 k2 k3
    have hge := ge_ifElse (gt_equal (R := R) (n := n) (L := L) (U := U) (ge_const (ones b)) hg) hc (ge_const 0)
    refine ⟨_, rfl, k1, by rw [k2]; exact hge, by rw [k2]; exact k3, ?_, ?_⟩
    · rw [k2]
      unfold mkIfElse
      split
      · exact .inr fun v h => h
      · exact .inl rfl
      · split
        · exact .inr fun v h => h
        · exact .inr fun v h => by cases h
    · have hden := cond_den (equal_den (lit_const (ones b)) hg.lit (V.const (ρ := ρ) _).2 hm) hp.1
        (V.const (ρ := ρ) 0).2
      simp only [decide_eq_true_eq, Int.cast_inj, Int.cast_zero] at hden
      rw [gradePart_single]
      generalize he : mkIfElse (mkEqual (mkCountOneBits (Blade.const b).bits) g) coef (.const 0) = e at *
      have he' : mkIfElse (mkEqual (.const (ones b)) g) coef (.const 0) = e := he
      rw [he'] at hden hge
      by_cases h0 : e = .const 0
      · subst h0
        have hz : (mkComp (.const 0) (.const b)) = Comp.zero := by simp [mkComp, Comp.zero]
        rw [hz]
        have e0 := V.const_eq ⟨Built.const 0, hden⟩
        convert hzero using 1
        by_cases h : (ones b : ℤ) = m
        · rw [if_pos h] at e0 ⊢
          simp only [Int.cast_zero] at e0; simp [e0]
        · rw [if_neg h]
      · have hz : mkComp e (.const b) = ⟨e, .const b⟩ := by
          have h3 := k3 h0
          rcases hm' : mkComp e (.const b) with ⟨c1, b1⟩
          rw [hm'] at h3 k2
          simp only at h3 k2
          rw [h3, k2]
        rw [hz]
        refine SumDenotes.single_iff.2 ⟨⟨hge.built, fun G e h => by cases h⟩, (if (ones b : ℤ) = m then x else 0, .const b),
          ⟨hden, rfl⟩, hw, ?_⟩
        simp only [TBlade.bits]
        split_ifs <;> simp
  unfold keepComp
  split
  · next b' m' h1 =>
    simp only at h1
    cases h1
    have em : m = m' := by exact_mod_cast V.const_eq ⟨Built.const m', hm⟩
    subst em
    rw [show (TBlade.const b).bits = b from rfl, gradePart_single]
    split
    · exact ⟨_, rfl, hk, hc, fun _ => rfl, .inr fun v h => h, hself⟩
    · exact ⟨_, rfl, ⟨0, rfl, by simp [vecs]⟩, ge_const 0, fun h => absurd rfl h, .inl rfl, hzero⟩
  · next h1 => cases h1
  · exact hgen

theorem keepGrade_ok (hN : N ≤ 63) (hn : n ≠ 0) {g : Expr} {m : ℤ} (hg : GE R n L U g) (hm : Denotes ρ g m) :
    ∀ (s : CSum) (A : MV ℝ), s ≠ [] → (∀ c ∈ s, Known c) → s.Pairwise BeforeC →
      (∀ c ∈ s, GE R n L U c.coef) → SumDenotes ρ N s A →
      ∃ e, keepGrade n g s = some e ∧ Within (GE R n L U) e ∧
        (IsZero e ∨ ∀ d ∈ e, ∃ c ∈ s, d.blade = c.blade) ∧
        (∀ d ∈ e, d.coef = .const 0 ∨ ∀ v, d.coef = .const v → ∃ c ∈ s, c.coef = .const v) ∧
        SumDenotes ρ N e (gradePart m A)
  | [], _, h, _, _, _, _ => absurd rfl h
  | [c], A, _, hk, _, hge, hA => by
    obtain ⟨hb, p, hp, hw, rfl⟩ := SumDenotes.single_iff.1 hA
    obtain ⟨c', h1, h2, h3, h4, h4', h5⟩ := keepComp_ok (hk c (by simp)) (hge c (by simp)) hg hm hp hw
    refine ⟨[c'], by simp [keepGrade, h1], ⟨canonical_single h2, by simpa using h3⟩, ?_, ?_, h5⟩
    · by_cases h0 : c'.coef = .const 0
      · exact .inl ⟨c', rfl, h0⟩
      · exact .inr fun d hd => ⟨c, by simp, by rw [List.mem_singleton] at hd; rw [hd, h4 h0]⟩
    · intro d hd
      rw [List.mem_singleton] at hd
      subst hd
      exact h4'.imp id fun h v hv => ⟨c, by simp, h v hv⟩
  | c :: d :: cs, A, _, hk, hpw, hge, hA => by
    obtain ⟨m₁, m₂, hA1, hA2, rfl⟩ := SumDenotes.cons_iff.1 hA
    obtain ⟨hb, p, hp, hw, rfl⟩ := SumDenotes.single_iff.1 hA1
    obtain ⟨hp1, hp2⟩ := List.pairwise_cons.1 hpw
    obtain ⟨c', h1, h2, h3, h4, h4', h5⟩ := keepComp_ok (hk c (by simp)) (hge c (by simp)) hg hm hp hw
    obtain ⟨u, i1, i2, i3, i3', i4⟩ := keepGrade_ok hN hn hg hm (d :: cs) m₂ (by simp)
      (fun x hx => hk x (List.mem_cons_of_mem _ hx)) hp2 (fun x hx => hge x (List.mem_cons_of_mem _ hx)) hA2
    have hcond : IsZero u ∨ c'.coef = .const 0 ∨ ∀ x ∈ u, BeforeC c' x := by
      by_cases h0 : c'.coef = .const 0
      · exact .inr (.inl h0)
      · rcases i3 with hz | hbu
        · exact .inl hz
        · refine .inr (.inr fun x hx => ?_)
          obtain ⟨y, hy, e⟩ := hbu x hx
          exact beforeC_congr_left (beforeC_congr_right (hp1 y hy) e) (h4 h0)
    obtain ⟨j, rfl⟩ := Nat.exists_eq_succ_of_ne_zero hn
    obtain ⟨e, he, hce, hf⟩ := addC_front (k := j) h2 i2.1 hcond
    have hs := addC_ok hN _ _ _ _ _ _ h5 i4 he
    rw [← gradePart_add] at hs
    obtain ⟨-, -, hcase⟩ := addC_front_eq h2 i2.1 hcond he
    refine ⟨e, by simp only [keepGrade, h1, i1, Option.bind_eq_bind, Option.bind_some]; exact he,
      ⟨hce, ?_⟩, ?_, ?_, hs⟩
    · intro x hx
      have : x = c' ∨ x ∈ u := by
        rcases hcase with ⟨-, -, rfl⟩ | ⟨-, -, rfl⟩ | ⟨-, -, rfl⟩ | ⟨-, -, rfl⟩
        · exact .inl (List.mem_singleton.1 hx)
        · exact .inr hx
        · exact .inl (List.mem_singleton.1 hx)
        · exact List.mem_cons.1 hx
      rcases this with rfl | hx
      · exact h3
      · exact i2.2 x hx
    · rcases hcase with ⟨h0, -, rfl⟩ | ⟨-, -, rfl⟩ | ⟨h0, -, rfl⟩ | ⟨h0, hz, rfl⟩
      · exact .inl ⟨c', rfl, h0⟩
      · exact i3.imp id fun h x hx => by
          obtain ⟨y, hy, e⟩ := h x hx
          exact ⟨y, List.mem_cons_of_mem _ hy, e⟩
      · exact .inr fun x hx => ⟨c, by simp, by rw [List.mem_singleton] at hx; rw [hx, h4 h0]⟩
      · refine .inr fun x hx => ?_
        rcases List.mem_cons.1 hx with rfl | hx
        · exact ⟨c, by simp, h4 h0⟩
        · obtain ⟨y, hy, e⟩ := (i3.resolve_left hz) x hx
          exact ⟨y, List.mem_cons_of_mem _ hy, e⟩
    · intro x hx
      have : x = c' ∨ x ∈ u := by
        rcases hcase with ⟨-, -, rfl⟩ | ⟨-, -, rfl⟩ | ⟨-, -, rfl⟩ | ⟨-, -, rfl⟩
        · exact .inl (List.mem_singleton.1 hx)
        · exact .inr hx
        · exact .inl (List.mem_singleton.1 hx)
        · exact List.mem_cons.1 hx
      rcases this with rfl | hx
      · exact h4'.imp id fun h v hv => ⟨c, by simp, h v hv⟩
      · refine (i3' x hx).imp id fun h v hv => ?_
        obtain ⟨y, hy, e⟩ := h v hv
        exact ⟨y, List.mem_cons_of_mem _ hy, e⟩

end GATL
