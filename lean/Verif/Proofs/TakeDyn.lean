import Verif.Proofs.TakeApi
import Verif.Proofs.Vector

/-!
# Grade parts of types with run-time basis blades
-/

namespace GATL
open Expr Spec
variable {ρ : Env} {N n : ℕ}

theorem countOneBits_built {e : Expr} (h : Built e) : Built (mkCountOneBits e) := by
  unfold mkCountOneBits
  split
  · exact .const _
  · exact built_fn1 h (by simp) (by simp) (by simp)

/-- The bit `k` of a set of grades. -/
theorem mem_grades {G : Word} {k : Nat} (hk : k < 64) :
    G &&& ((1 : Word) <<< k) ≠ 0 ↔ (⟨k, hk⟩ : Fin 64) ∈ vecs G := by
  rw [mem_vecs]
  constructor
  · intro h
    by_contra hc
    apply h
    refine word_ext fun i hi => ?_
    rw [BitVec.getLsbD_and]
    by_cases hik : i = k
    · subst hik; simp [hc]
    · have : ((1 : Word) <<< k).getLsbD i = false := by
        by_contra h1
        have := vecs_shift hk ⟨i, hi⟩ (by rw [mem_vecs]; exact Bool.not_eq_false _ ▸ h1)
        exact hik this
      rw [this]; simp
  · intro h h0
    have := congrArg (fun w : Word => w.getLsbD k) h0
    simp only [BitVec.getLsbD_and, h, Bool.true_and] at this
    simp [hk] at this

theorem keepComp_sound (hN : N ≤ 63) {g : Expr} {c c' : Comp} {A : MV ℝ} {m : ℤ} (hb : Built g) (hl : Lit g)
    (hm : Denotes ρ g m) (hA : SumDenotes ρ N [c] A) (h : keepComp g c = some c') :
    SumDenotes ρ N [c'] (gradePart m A) := by
  obtain ⟨hc, p, hp, hw, rfl⟩ := SumDenotes.single_iff.1 hA
  obtain ⟨coef, blade⟩ := c
  obtain ⟨x, t⟩ := p
  have hzero : SumDenotes ρ N [Comp.zero] 0 :=
    SumDenotes.single_iff.2 ⟨⟨.const 0, fun G e h => by cases h⟩, (0, .const 0),
      ⟨by simpa using (V.const (ρ := ρ) 0).2, rfl⟩, by simp [WellTyped, vecs], by simp⟩
  have hlc : Lit (mkCountOneBits blade.bits) := lit_count fun G e h => (hc.2 G e h).2
  have hden := cond_den (equal_den hlc hl (count_den hp.2) hm) hp.1 (V.const (ρ := ρ) 0).2
  simp only [decide_eq_true_eq, Int.cast_inj, Int.cast_zero] at hden
  have hbits : Built blade.bits := by
    cases blade with
    | const b => exact .cbits b
    | dyn G e => exact (hc.2 G e rfl).1
  have hbl : ∀ r, Built r → Built (mkIfElse (mkEqual (mkCountOneBits blade.bits) r) coef (.const 0)) := fun r hr =>
    mkIfElse_built (mkEqual_built (countOneBits_built hbits) hr) hc.1 (.const 0)
  have hpart : gradePart m (Finsupp.single t.bits x : MV ℝ) =
      Finsupp.single t.bits (if (gradeOf t.bits : ℤ) = m then x else 0) := by
    rw [gradePart_single, show ones t.bits = gradeOf t.bits from ones_eq_card _]
    by_cases hh : (gradeOf t.bits : ℤ) = m
    · rw [if_pos hh, if_pos hh]
    · rw [if_neg hh, if_neg hh]; simp
  have hgen : ∀ b, blade = b → SumDenotes ρ N [mkComp (mkIfElse (mkEqual (mkCountOneBits b.bits) g) coef (.const 0)) b]
      (gradePart m (Finsupp.single t.bits x)) := by
    rintro _ rfl
    refine mkComp_ok hN (SumDenotes.single_iff.2 ⟨⟨hbl g hb, hc.2⟩, (if (gradeOf t.bits : ℤ) = m then x else 0, t),
      ⟨hden, hp.2⟩, ?_, hpart.symm⟩)
    cases t with
    | const b => exact hw
    | dyn G b =>
      refine ⟨hw.1, hw.2.1, fun h0 => hw.2.2 fun h => h0 ?_⟩
      simp only at h ⊢
      simp [h]
  unfold keepComp at h
  split at h
  · next b k h1 =>
    simp only at h1
    subst h1
    cases h
    have em : m = k := by exact_mod_cast V.const_eq ⟨Built.const k, hm⟩
    subst em
    have et : t = .const b := hp.2
    subst et
    rw [show (TBlade.const b).bits = b from rfl, gradePart_single]
    split
    · exact hA
    · exact hzero
  · next G e k h1 =>
    simp only at h1
    subst h1
    have em : m = k := by exact_mod_cast V.const_eq ⟨Built.const k, hm⟩
    subst em
    obtain ⟨w, hw', rfl⟩ := hp.2
    obtain ⟨h1, h2⟩ := hc.2 G e rfl
    split at h
    · next hk =>
      obtain ⟨k0, k1, k2⟩ := hk
      obtain ⟨j, rfl⟩ := Int.eq_ofNat_of_zero_le k0
      simp only [Option.bind_eq_bind, Option.bind_eq_some_iff, Option.some.injEq, Int.toNat_natCast] at h k2
      obtain ⟨bl, hbl', rfl⟩ := h
      have hj : j < 64 := by omega
      rw [hpart]
      refine mkComp_ok hN (dynBlade_ok (hbl _ (.const _)) hden h1 h2 hw' ⟨fun g hg => ?_, hw.2.1, fun h0 => ?_⟩ hbl')
      · have := hw.1 _ ((mem_grades hj).1 k2)
        rw [vecs_shift hj g hg]; exact this
      · refine ⟨⟨j, hj⟩, ?_, ?_⟩
        · rw [mem_vecs]; simp [hj]
        · by_contra hne
          apply h0
          simp only
          rw [if_neg]
          intro h
          apply hne
          simp only
          exact_mod_cast h.symm
    · next hk =>
      cases h
      rw [hpart]
      suffices h : (if (gradeOf (TBlade.dyn G w).bits : ℤ) = m then x else 0) = 0 by
        rw [h]; simpa using hzero
      by_cases hg : (gradeOf (TBlade.dyn G w).bits : ℤ) = m
      · rw [if_pos hg]
        by_contra h0
        obtain ⟨j, hj, hj'⟩ := hw.2.2 h0
        have e1 : (j.val : ℤ) = m := by rw [hj']; exact hg
        subst e1
        refine hk ⟨by omega, by omega, ?_⟩
        rw [Int.toNat_natCast]
        exact (mem_grades j.isLt).2 hj
      · rw [if_neg hg]
  · cases h
    exact hgen _ rfl

theorem keepGrade_sound (hN : N ≤ 63) {g : Expr} {m : ℤ} (hb : Built g) (hl : Lit g) (hm : Denotes ρ g m) :
    ∀ (s : CSum) (A : MV ℝ) (e : CSum), SumDenotes ρ N s A → keepGrade n g s = some e →
      SumDenotes ρ N e (gradePart m A)
  | [], _, _, _, h => by simp [keepGrade] at h
  | [c], A, e, hA, h => by
    simp only [keepGrade, Option.bind_eq_bind, Option.bind_eq_some_iff, Option.some.injEq] at h
    obtain ⟨c', h, rfl⟩ := h
    exact keepComp_sound hN hb hl hm hA h
  | c :: d :: cs, A, e, hA, h => by
    obtain ⟨m₁, m₂, hA1, hA2, rfl⟩ := SumDenotes.cons_iff.1 hA
    simp only [keepGrade, Option.bind_eq_bind, Option.bind_eq_some_iff] at h
    obtain ⟨c', h1, u, h2, h⟩ := h
    rw [gradePart_add]
    exact addC_ok hN _ _ _ _ _ _ (keepComp_sound hN hb hl hm hA1 h1)
      (keepGrade_sound hN hb hl hm (d :: cs) m₂ u hA2 h2) h
end GATL
