import Verif.Proofs.Grades
import Verif.Spec.Write

/-!
# Reading what is written
-/

namespace GATL

open Expr Spec

theorem cut_clean {c : Char} : ∀ {w : Text}, c ∉ w → cut c w = [w]
  | [], _ => rfl
  | x :: w, h => by
    rw [List.mem_cons, not_or] at h
    rw [cut, if_neg (Ne.symm h.1), cut_clean h.2]

theorem cut_append {c : Char} (t : Text) : ∀ {w : Text}, c ∉ w → cut c (w ++ c :: t) = w :: cut c t
  | [], _ => by rw [List.nil_append, cut, if_pos rfl]
  | x :: w, h => by
    rw [List.mem_cons, not_or] at h
    rw [List.cons_append, cut, if_neg (Ne.symm h.1), cut_append t h.2]

theorem unwrap_wrap (l r : Char) (t : Text) : unwrap l r (l :: t ++ [r]) = t := by
  unfold unwrap
  rw [if_pos ⟨rfl, List.getLast?_concat⟩]
  exact List.dropLast_concat

theorem clean_wrap {c l r : Char} {t : Text} (hl : c ≠ l) (hr : c ≠ r) (h : c ∉ t) : c ∉ l :: t ++ [r] := by
  rw [List.cons_append, List.mem_cons, not_or, List.mem_append, not_or, List.mem_singleton]
  exact ⟨hl, h, hr⟩

theorem unwrap_clean {l r : Char} {t : Text} (h : l ∉ t) : unwrap l r t = t := by
  unfold unwrap
  rw [if_neg]
  rintro ⟨h1, -⟩
  exact h (List.mem_of_mem_head? h1)

theorem idxOf_getElem {names : List Text} (h : names.Nodup) {i : Nat} (hi : i < names.length) :
    names.idxOf? names[i] = some i := by
  rw [List.idxOf?_eq_some_iff]
  exact ⟨hi, by simp, fun j hj => by
    have := (List.nodup_iff_injective_get.1 h).ne (a₁ := ⟨j, by omega⟩) (a₂ := ⟨i, hi⟩) (by simp; omega)
    simpa using this⟩

theorem loop_spec {names : List Text} (g : GoodNames names) (hn : names.length ≤ 63) (arg : Word) :
    ∀ fuel b, InSpace names.length b → ones b < fuel → ones b ≤ ones arg → b ≠ 0 →
      ∃ t, writeBladeLoop names arg fuel b = some ((if b ≠ arg then ['^'] else []) ++ t) ∧ ' ' ∉ t ∧ '<' ∉ t ∧
        (∀ k, (∀ j, b.getLsbD j = true → k ≤ j) → readNames names k (cut '^' t) = some b) := by
  intro fuel
  induction fuel with
  | zero => intro b _ h; omega
  | succ fuel ih =>
    intro b hb hf ha h0
    obtain ⟨i, hi, hr, hs, ho, hlow, hbits⟩ := low_step h0 (fun j hj => by have := hb j hj; omega)
    have hin : i < names.length := hb ⟨i, by omega⟩ ((hbits i).2 (.inl rfl))
    have hix : ones (bit i - 1) = i := setBitIndex_bit i (by omega)
    have hbi : b.getLsbD i = true := (hbits i).2 (.inl rfl)
    have hx := fun j hj => bit_xor_low (b := b) (i := ⟨i, by omega⟩) hbi j hj
    have hor : BitVec.twoPow 64 i ||| (b ^^^ bit i) = b := by
      apply BitVec.eq_of_getLsbD_eq
      intro j hj
      rw [BitVec.getLsbD_or, hx j hj, BitVec.getLsbD_twoPow]
      rcases eq_or_ne i j with rfl | h
      · simp [hbi, hj]
      · simp [h, Ne.symm h]
    have hname := idxOf_getElem g.nodup hin
    obtain ⟨c1, c2, c3⟩ := g.clean _ (List.getElem_mem hin)
    rw [writeBladeLoop, if_pos h0, hr]
    simp only [Option.bind_eq_bind, Option.bind_some, hix, List.getElem?_eq_getElem hin]
    by_cases hz : b ^^^ bit i = 0
    · have hl : writeBladeLoop names arg fuel (b ^^^ bit i) = some [] := by
        rw [hz]
        cases fuel with
        | zero => omega
        | succ f => rw [writeBladeLoop, if_neg (by simp)]
      refine ⟨names[i], ?_, c1, c3, ?_⟩
      · rw [hl]; simp
      · intro k hk
        rw [cut_clean c2, readNames, hname]
        simp only [Option.bind_eq_bind, Option.bind_some]
        rw [if_pos (hk i ((hbits i).2 (.inl rfl))), readNames, Option.bind_some, ← hz, hor]
    · obtain ⟨t, h1, h2, h3, h4⟩ := ih (b ^^^ bit i)
        (fun j hj => hb j ((hbits j).2 (.inr hj))) (by omega) (by omega) hz
      have hne : b ^^^ bit i ≠ arg := by
        rintro rfl
        omega
      rw [if_pos hne] at h1
      refine ⟨names[i] ++ '^' :: t, ?_, ?_, ?_, ?_⟩
      · rw [h1]; simp
      · simp [c1, h2]
      · simp [c3, h3]
      · intro k hk
        rw [cut_append _ c2, readNames, hname]
        simp only [Option.bind_eq_bind, Option.bind_some]
        rw [if_pos (hk i ((hbits i).2 (.inl rfl))), h4 (i + 1), Option.bind_some, hor]
        intro j hj
        have := hlow j ((hbits j).2 (.inr hj))
        rcases Nat.eq_or_lt_of_le this with rfl | h
        · rw [hx i (by omega)] at hj
          simp at hj
        · exact h

theorem blade_spec {names : List Text} (g : GoodNames names) (hn : names.length ≤ 63) {w : Word}
    (hw : ∀ i ∈ vecs w, i.val < names.length) :
    ∃ t, writeBlade names w = some t ∧ ' ' ∉ t ∧ '<' ∉ t ∧ readBlade names t = some w ∧
      readBlade names ('<' :: t ++ ['>']) = some w := by
  by_cases h0 : w = 0
  · subst h0
    exact ⟨['1'], rfl, by decide, by decide, rfl, rfl⟩
  · obtain ⟨t, h1, h2, h3, h4⟩ := loop_spec g hn w 65 w (fun i hi => hw i (by simpa [vecs] using hi))
      (by have := ones_le w; omega) le_rfl h0
    rw [if_neg (by simp), List.nil_append] at h1
    have ht : t ≠ ['1'] := by
      rintro rfl
      have := h4 0 (by simp)
      rw [cut_clean (by decide), readNames] at this
      have h5 : names.idxOf? ['1'] = none := by rw [List.idxOf?_eq_none_iff]; exact g.one
      rw [h5] at this
      simp at this
    refine ⟨t, ?_, h2, h3, ?_, ?_⟩
    · rw [writeBlade, if_neg h0, h1]
    · rw [readBlade, unwrap_clean h3, if_neg ht, h4 0 (by simp)]
    · rw [readBlade, unwrap_wrap, if_neg ht, h4 0 (by simp)]

variable {F : Format} {S : Set ℝ} {number : Text → Option ℝ}

/-- What the coefficient of a component writes. -/
theorem coef_spec (hF : Exact F S number) {ρ : Env} {c : Expr} {vs : List ℝ} {x : ℝ} (names : List Text)
    (h : CoefReads ρ c vs x) (hS : ∀ v ∈ vs, v ∈ S) (hc : c = .stored ∨ ∃ v, c = .const v) :
    ∃ t, (∀ vs' ws, writeExpr F names c (vs ++ vs') ws = some (t, vs', ws)) ∧ ' ' ∉ t ∧
      readNumber number t = some x := by
  cases h with
  | stored =>
    obtain ⟨h1, h2, h3, h4⟩ := hF.real x (hS x (by simp))
    by_cases hx : 0 ≤ x
    · refine ⟨F.real x, ?_, h2, ?_⟩
      · intro vs' ws; rw [writeExpr]; simp [writeStored, hx]
      · rw [readNumber, unwrap_clean h3, unwrap_clean h4, h1]
    · refine ⟨'(' :: F.real x ++ [')'], ?_, ?_, ?_⟩
      · intro vs' ws; rw [writeExpr]; simp [writeStored, hx]
      · exact clean_wrap (by decide) (by decide) h2
      · rw [readNumber, unwrap_clean (clean_wrap (by decide) (by decide) h3), unwrap_wrap, h1]
  | symbolic _ _ hs hb hd =>
    rcases hc with rfl | ⟨v, rfl⟩
    · simp [hasStored] at hs
    · obtain ⟨h1, h2, h3, h4⟩ := hF.int v
      have hv : x = v := by simpa [Denotes, den, eq_comm] using hd
      refine ⟨'<' :: F.int v ++ ['>'], ?_, ?_, ?_⟩
      · intro vs' ws; rw [writeExpr]; rfl
      · exact clean_wrap (by decide) (by decide) h2
      · rw [readNumber, unwrap_wrap, unwrap_clean h4, h1, hv]

/-- What the basis blade of a component writes. -/
theorem bblade_spec {names : List Text} (g : GoodNames names) (hn : names.length ≤ 63) {ρ : Env} {b : Blade}
    {ws : List Word} {t : TBlade} (h : BladeReads ρ b ws t)
    (hb : (∃ b', b = .const b') ∨ ∃ G, b = .dyn G .storedBits) (hw : ∀ i ∈ vecs t.bits, i.val < names.length) :
    ∃ s, (∀ vs ws', writeBasisBlade F names b vs (ws ++ ws') = some (s, vs, ws')) ∧ ' ' ∉ s ∧
      readBlade names s = some t.bits := by
  cases h with
  | const b =>
    obtain ⟨s, h1, h2, h3, h4, h5⟩ := blade_spec g hn hw
    have h1' : writeBlade names b = some s := h1
    refine ⟨'<' :: s ++ ['>'], ?_, clean_wrap (by decide) (by decide) h2, h5⟩
    intro vs ws'
    rw [writeBasisBlade, writeExpr]
    simp [writeStoredBits, h1']
  | stored G w =>
    obtain ⟨s, h1, h2, h3, h4, h5⟩ := blade_spec g hn hw
    have h1' : writeBlade names w = some s := h1
    refine ⟨s, ?_, h2, h4⟩
    intro vs ws'
    rw [writeBasisBlade, writeExpr]
    simp [writeStoredBits, h1']
  | symbolic G e w hs =>
    rcases hb with ⟨b', hb⟩ | ⟨G', hb⟩
    · simp at hb
    · simp only [Blade.dyn.injEq] at hb
      rw [hb.2] at hs
      simp [hasStored] at hs

theorem sum_spec (hF : Exact F S number) {names : List Text} (g : GoodNames names) (hn : names.length ≤ 63)
    {ρ : Env} {s : CSum} {vs : List ℝ} {ws : List Word} {L : List (ℝ × TBlade)} (h : ReadsEach ρ s vs ws L)
    (h0 : s ≠ []) (hc : ∀ c ∈ s, c.coef = .stored ∨ ∃ v, c.coef = .const v)
    (hb : ∀ c ∈ s, (∃ b, c.blade = .const b) ∨ ∃ G, c.blade = .dyn G .storedBits)
    (hS : ∀ v ∈ vs, v ∈ S) (hL : ∀ p ∈ L, ∀ i ∈ vecs p.2.bits, i.val < names.length) :
    ∃ t, writeSum F names s vs ws = some (t, [], []) ∧
      readText number names t = some (L.map fun p => (p.1, p.2.bits)) := by
  induction h with
  | nil => exact absurd rfl h0
  | @cons c b s vs ws vs' ws' x t L hcr hbr hs ih =>
    obtain ⟨tc, hc1, hc2, hc3⟩ := coef_spec hF names hcr (fun v hv => hS v (by simp [hv])) (hc ⟨c, b⟩ (by simp))
    obtain ⟨tb, hb1, hb2, hb3⟩ := bblade_spec (F := F) g hn hbr (hb ⟨c, b⟩ (by simp)) (hL (x, t) (by simp))
    have hsum : isSum c = false := by
      rcases hc ⟨c, b⟩ (by simp) with h | ⟨v, h⟩ <;> (simp only at h; subst h; rfl)
    have hw : ∀ vs' ws', writeComp F names ⟨c, b⟩ (vs ++ vs') (ws ++ ws')
        = some (tc ++ (' ' :: '*' :: ' ' :: tb), vs', ws') := by
      intro vs' ws'
      simp [writeComp, hsum, inOrder, hc1, hb1, put]
    cases hs with
    | nil =>
      refine ⟨tc ++ (' ' :: '*' :: ' ' :: tb), ?_, ?_⟩
      · rw [writeSum, hw]
      · rw [readText, cut_append _ hc2, show '*' :: ' ' :: tb = ['*'] ++ ' ' :: tb from rfl,
          cut_append _ (by decide), cut_clean hb2]
        simp [readTerms, hc3, hb3]
    | @cons c' b' s' v1 w1 v2 w2 x' t' L' h1 h2 h3 =>
      obtain ⟨r, hr1, hr2⟩ := ih (by simp) (fun d hd => hc d (List.mem_cons_of_mem _ hd))
        (fun d hd => hb d (List.mem_cons_of_mem _ hd))
        (fun v hv => hS v (List.mem_append_right _ hv)) (fun p hp => hL p (List.mem_cons_of_mem _ hp))
      refine ⟨tc ++ (' ' :: '*' :: ' ' :: (tb ++ ' ' :: '+' :: ' ' :: r)), ?_, ?_⟩
      · rw [writeSum]
        simp only [inOrder, hw, Option.bind_eq_bind, Option.bind_some, put]
        rw [hr1]
        simp
      · rw [readText, cut_append _ hc2, show '*' :: ' ' :: (tb ++ ' ' :: '+' :: ' ' :: r)
            = ['*'] ++ ' ' :: (tb ++ ' ' :: '+' :: ' ' :: r) from rfl,
          cut_append _ (by decide), cut_append _ hb2, show '+' :: ' ' :: r = ['+'] ++ ' ' :: r from rfl,
          cut_append _ (by decide), readTerms, hc3, hb3]
        rw [readText] at hr2
        simp [hr2]

end GATL
