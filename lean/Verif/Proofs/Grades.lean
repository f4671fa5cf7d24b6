import Verif.Proofs.Enumerate
import Verif.Spec.Typed

/-! Helper lemmas: possible-grade sets. -/

namespace GATL
open Spec

theorem bit_mul_getLsbD (i : Nat) (R : Word) (g : Nat) (hg : g < 64) :
    (bit i * R).getLsbD g = (decide (i ≤ g) && R.getLsbD (g - i)) := by
  have : bit i * R = R <<< i := by
    rw [BitVec.shiftLeft_eq_mul_twoPow, BitVec.mul_comm]; rfl
  rw [this, BitVec.getLsbD_shiftLeft]
  by_cases h : i ≤ g <;> simp [h, hg]

theorem div_bit_getLsbD (i : Nat) (hi : i < 64) (R : Word) (g : Nat) :
    (R / bit i).getLsbD g = R.getLsbD (i + g) := by
  have : R / bit i = R >>> i := by
    apply BitVec.eq_of_toNat_eq
    rw [BitVec.toNat_udiv, bit_toNat i hi, BitVec.toNat_ushiftRight, Nat.shiftRight_eq_div_pow]
  rw [this, BitVec.getLsbD_ushiftRight]

theorem allGrades_getLsbD (n : Nat) (hn : n ≤ 63) (g : Nat) (hg : g < 64) :
    (allGrades n).getLsbD g = decide (g ≤ n) := by
  have := getLsbD_mask (n + 1) 0 g (by omega) hg
  rw [BitVec.shiftLeft_zero] at this
  unfold allGrades
  rw [this]
  congr 1
  simp only [eq_iff_iff]
  omega

theorem ne_zero_exists {b : Word} (h : b ≠ 0) : ∃ i < 64, b.getLsbD i = true := by
  obtain ⟨i, hi, _⟩ := exists_low h
  exact ⟨i, i.2, hi⟩

theorem zero_getLsbD {b : Word} (h : b = 0) (i : Nat) : b.getLsbD i = false := by
  subst h; exact BitVec.getLsbD_zero

theorem getLsbD_lt {b : Word} {i : Nat} (h : b.getLsbD i = true) : i < 64 := by
  by_contra hcon
  rw [BitVec.getLsbD_of_ge _ _ (by omega)] at h
  exact absurd h (by simp)

/-- one step of a recursion over the bits of a word -/
theorem low_step {L : Word} (h0 : L ≠ 0) (hL : InSpace 63 L) :
    ∃ i : Nat, i < 63 ∧ rightmostSetBit L = some (bit i) ∧ InSpace 63 (L ^^^ bit i) ∧
      ones L = ones (L ^^^ bit i) + 1 ∧
      (∀ j, L.getLsbD j = true → i ≤ j) ∧
      (∀ j, L.getLsbD j = true ↔ (j = i ∨ (L ^^^ bit i).getLsbD j = true)) := by
  obtain ⟨i, hi, hlow⟩ := exists_low h0
  have h63 := hL i hi
  refine ⟨i, h63, rightmost_eq hi hlow h63, ?_, ?_, ?_, ?_⟩
  · intro j hj
    rw [bit_xor_low hi j j.2, Bool.and_eq_true] at hj
    exact hL j hj.1
  · have := ones_bit_xor hi
    rw [BitVec.xor_comm] at this
    omega
  · intro j hj
    by_contra hcon
    rw [hlow j (by omega)] at hj
    exact absurd hj (by simp)
  · intro j
    constructor
    · intro hj
      have hj64 := getLsbD_lt hj
      by_cases h : j = i
      · exact Or.inl h
      · right; rw [bit_xor_low hi j hj64, hj]; simpa using h
    · rintro (rfl | hj)
      · exact hi
      · have hj64 := getLsbD_lt hj
        rw [bit_xor_low hi j hj64, Bool.and_eq_true] at hj
        exact hj.1

theorem extGrades_spec (n : Nat) (hn : n ≤ 63) (R : Word) :
    ∀ fuel L, InSpace 63 L → ones L < fuel → ∃ G, extGrades n fuel L R = some G ∧
      ∀ g < 64, G.getLsbD g = true ↔
        ∃ l r, L.getLsbD l = true ∧ R.getLsbD r = true ∧ g = l + r ∧ g ≤ n := by
  intro fuel
  induction fuel with
  | zero => intro L _ h; exact absurd h (by omega)
  | succ fuel ih =>
    intro L hL hf
    unfold extGrades
    by_cases h0 : L = 0
    · rw [if_pos h0]
      refine ⟨0, rfl, fun g hg => ?_⟩
      simp [h0]
    · rw [if_neg h0]
      obtain ⟨i, hi63, hr, hL', hones, hmin, hmem⟩ := low_step h0 hL
      rw [hr]
      simp only [Option.bind_eq_bind, Option.bind_some]
      have hpos : ∀ g < 64, ((bit i * R) &&& allGrades n).getLsbD g = true ↔
          ∃ r, R.getLsbD r = true ∧ g = i + r ∧ g ≤ n := by
        intro g hg
        rw [BitVec.getLsbD_and, bit_mul_getLsbD i R g hg, allGrades_getLsbD n hn g hg]
        simp only [Bool.and_eq_true, decide_eq_true_eq]
        constructor
        · rintro ⟨⟨h1, h2⟩, h3⟩
          exact ⟨g - i, h2, by omega, h3⟩
        · rintro ⟨r, h1, rfl, h3⟩
          exact ⟨⟨by omega, by rwa [Nat.add_sub_cancel_left]⟩, h3⟩
      by_cases hp : (bit i * R) &&& allGrades n = 0
      · rw [if_neg (by simpa using hp)]
        obtain ⟨G, hG, hG'⟩ := ih 0 (by intro j hj; simp at hj) (by rw [ones_zero]; omega)
        rw [hG]
        refine ⟨_, rfl, fun g hg => ?_⟩
        rw [BitVec.getLsbD_or, Bool.or_eq_true, hG' g hg, hpos g hg]
        constructor
        · rintro (⟨l, r, h, _⟩ | ⟨r, h1, h2, h3⟩)
          · simp at h
          · exact ⟨i, r, (hmem i).mpr (Or.inl rfl), h1, h2, h3⟩
        · rintro ⟨l, r, h1, h2, rfl, h4⟩
          exfalso
          have hil := hmin l h1
          have := (hpos (i + r) (by omega)).mpr ⟨r, h2, rfl, by omega⟩
          rw [zero_getLsbD hp] at this
          exact absurd this (by simp)
      · rw [if_pos hp]
        obtain ⟨G, hG, hG'⟩ := ih (L ^^^ bit i) hL' (by omega)
        rw [hG]
        refine ⟨_, rfl, fun g hg => ?_⟩
        rw [BitVec.getLsbD_or, Bool.or_eq_true, hG' g hg, hpos g hg]
        constructor
        · rintro (⟨l, r, h1, h2⟩ | ⟨r, h1, h2, h3⟩)
          · exact ⟨l, r, (hmem l).mpr (Or.inr h1), h2⟩
          · exact ⟨i, r, (hmem i).mpr (Or.inl rfl), h1, h2, h3⟩
        · rintro ⟨l, r, h1, h2, h3, h4⟩
          rcases (hmem l).mp h1 with rfl | h
          · exact Or.inr ⟨r, h2, h3, h4⟩
          · exact Or.inl ⟨l, r, h, h2, h3, h4⟩

theorem contGrades_spec (R : Word) :
    ∀ fuel L, InSpace 63 L → ones L < fuel → ∃ G, contGrades fuel L R = some G ∧
      ∀ g < 64, G.getLsbD g = true ↔
        ∃ l r, L.getLsbD l = true ∧ R.getLsbD r = true ∧ r = l + g := by
  intro fuel
  induction fuel with
  | zero => intro L _ h; exact absurd h (by omega)
  | succ fuel ih =>
    intro L hL hf
    unfold contGrades
    by_cases h0 : L = 0
    · rw [if_pos h0]
      refine ⟨0, rfl, fun g hg => ?_⟩
      simp [h0]
    · rw [if_neg h0]
      obtain ⟨i, hi63, hr, hL', hones, hmin, hmem⟩ := low_step h0 hL
      rw [hr]
      simp only [Option.bind_eq_bind, Option.bind_some]
      have hpos : ∀ g, (R / bit i).getLsbD g = true ↔
          ∃ r, R.getLsbD r = true ∧ r = i + g := by
        intro g
        rw [div_bit_getLsbD i (by omega)]
        exact ⟨fun h => ⟨_, h, rfl⟩, fun ⟨r, h, e⟩ => e ▸ h⟩
      by_cases hp : R / bit i = 0
      · rw [if_neg (by simpa using hp)]
        obtain ⟨G, hG, hG'⟩ := ih 0 (by intro j hj; simp at hj) (by rw [ones_zero]; omega)
        rw [hG]
        refine ⟨_, rfl, fun g hg => ?_⟩
        rw [BitVec.getLsbD_or, Bool.or_eq_true, hG' g hg, hpos g]
        constructor
        · rintro (⟨l, r, h, _⟩ | ⟨r, h1, h2⟩)
          · simp at h
          · exact ⟨i, r, (hmem i).mpr (Or.inl rfl), h1, h2⟩
        · rintro ⟨l, r, h1, h2, rfl⟩
          exfalso
          have hil := hmin l h1
          have := (hpos (l + g - i)).mpr ⟨_, h2, by omega⟩
          rw [zero_getLsbD hp] at this
          exact absurd this (by simp)
      · rw [if_pos hp]
        obtain ⟨G, hG, hG'⟩ := ih (L ^^^ bit i) hL' (by omega)
        rw [hG]
        refine ⟨_, rfl, fun g hg => ?_⟩
        rw [BitVec.getLsbD_or, Bool.or_eq_true, hG' g hg, hpos g]
        constructor
        · rintro (⟨l, r, h1, h2⟩ | ⟨r, h1, h2⟩)
          · exact ⟨l, r, (hmem l).mpr (Or.inr h1), h2⟩
          · exact ⟨i, r, (hmem i).mpr (Or.inl rfl), h1, h2⟩
        · rintro ⟨l, r, h1, h2, h3⟩
          rcases (hmem l).mp h1 with rfl | h
          · exact Or.inr ⟨r, h2, h3⟩
          · exact Or.inl ⟨l, r, h, h2, h3⟩

theorem iterateRight_spec (res : Nat → Nat → Word) (l : Nat) :
    ∀ fuel R, InSpace 63 R → ones R < fuel → ∃ G, iterateRight res fuel l R = some G ∧
      ∀ g, G.getLsbD g = true ↔ ∃ r, R.getLsbD r = true ∧ (res l r).getLsbD g = true := by
  intro fuel
  induction fuel with
  | zero => intro L _ h; exact absurd h (by omega)
  | succ fuel ih =>
    intro R hR hf
    unfold iterateRight
    by_cases h0 : R = 0
    · rw [if_pos h0]
      refine ⟨0, rfl, fun g => ?_⟩
      simp [h0]
    · rw [if_neg h0]
      obtain ⟨i, hi63, hr, hR', hones, hmin, hmem⟩ := low_step h0 hR
      rw [hr]
      simp only [Option.bind_eq_bind, Option.bind_some]
      obtain ⟨G, hG, hG'⟩ := ih (R ^^^ bit i) hR' (by omega)
      rw [hG]
      refine ⟨_, rfl, fun g => ?_⟩
      rw [BitVec.getLsbD_or, Bool.or_eq_true, hG' g, setBitIndex_bit i (by omega)]
      constructor
      · rintro (⟨r, h1, h2⟩ | h)
        · exact ⟨r, (hmem r).mpr (Or.inr h1), h2⟩
        · exact ⟨i, (hmem i).mpr (Or.inl rfl), h⟩
      · rintro ⟨r, h1, h2⟩
        rcases (hmem r).mp h1 with rfl | h
        · exact Or.inr h2
        · exact Or.inl ⟨r, h, h2⟩

theorem iterateLeft_spec (f : Nat) (hf65 : 64 < f) (R : Word) (hR : InSpace 63 R) :
    ∀ fuel L, InSpace 63 L → ones L < fuel → ∃ G, iterateLeft f fuel L R = some G ∧
      ∀ g, G.getLsbD g = true ↔
        ∃ l r, L.getLsbD l = true ∧ R.getLsbD r = true ∧ (gpBit l r).getLsbD g = true := by
  intro fuel
  induction fuel with
  | zero => intro L _ h; exact absurd h (by omega)
  | succ fuel ih =>
    intro L hL hf
    unfold iterateLeft
    by_cases h0 : L = 0
    · rw [if_pos h0]
      refine ⟨0, rfl, fun g => ?_⟩
      simp [h0]
    · rw [if_neg h0]
      obtain ⟨i, hi63, hr, hL', hones, hmin, hmem⟩ := low_step h0 hL
      rw [hr]
      simp only [Option.bind_eq_bind, Option.bind_some]
      obtain ⟨G, hG, hG'⟩ := ih (L ^^^ bit i) hL' (by omega)
      rw [hG, setBitIndex_bit i (by omega)]
      obtain ⟨H, hH, hH'⟩ := iterateRight_spec gpBit i f R hR (by have := ones_le R; omega)
      rw [hH]
      refine ⟨_, rfl, fun g => ?_⟩
      rw [BitVec.getLsbD_or, Bool.or_eq_true, hG' g, hH' g]
      constructor
      · rintro (⟨l, r, h1, h2⟩ | ⟨r, h1, h2⟩)
        · exact ⟨l, r, (hmem l).mpr (Or.inr h1), h2⟩
        · exact ⟨i, r, (hmem i).mpr (Or.inl rfl), h1, h2⟩
      · rintro ⟨l, r, h1, h2, h3⟩
        rcases (hmem l).mp h1 with rfl | h
        · exact Or.inr ⟨r, h2, h3⟩
        · exact Or.inl ⟨l, r, h, h2, h3⟩

theorem regBit_spec (n l r g : Nat) (hn : n ≤ 63) (hl : l ≤ n) (hr : r ≤ n) :
    (regBit n l r).getLsbD g = true ↔ l + r = g + n := by
  unfold regBit
  dsimp only
  by_cases h : (0 : Int) ≤ (l : Int) + r - n ∧ (l : Int) + r - n ≤ n
  · rw [if_pos h]
    have hlt : ((l : Int) + r - n).toNat < 64 := by omega
    change (bit ((l : Int) + r - n).toNat).getLsbD g = true ↔ _
    by_cases hg : g < 64
    · rw [getLsbD_bit _ _ hlt]; simp; omega
    · constructor
      · intro hh; exact absurd (getLsbD_lt hh) hg
      · intro hh; omega
  · rw [if_neg h]
    simp; omega

theorem keepHigh (R : Word) (k : Nat) (hk : k < 64) (j : Nat) :
    (safeRshift R k <<< k).getLsbD j = true ↔ (R.getLsbD j = true ∧ k ≤ j) := by
  unfold safeRshift
  rw [if_pos (by omega), BitVec.getLsbD_shiftLeft, BitVec.getLsbD_ushiftRight]
  constructor
  · intro h
    simp only [Bool.and_eq_true, decide_eq_true_eq, Bool.not_eq_true',
      decide_eq_false_iff_not] at h
    rw [show k + (j - k) = j by omega] at h
    exact ⟨h.2, by omega⟩
  · rintro ⟨h1, h2⟩
    have := getLsbD_lt h1
    rw [show k + (j - k) = j by omega]
    simp [h1, this]; omega

theorem regGrades_step (n f fuel : Nat) (L R : Word) (h0 : L ≠ 0) (i : Nat) (hi : i < 64)
    (hr : rightmostSetBit L = some (bit i)) :
    regGrades n f (fuel + 1) L R = (regGrades n f fuel (L ^^^ bit i) R).bind fun rest =>
      (iterateRight (regBit n) f i (safeRshift R (n - i) <<< (n - i))).bind fun here =>
        some (rest ||| here) := by
  have key : ∀ lb l, rightmostSetBit L = some lb → setBitIndex lb = l →
      regGrades n f (fuel + 1) L R = (regGrades n f fuel (L ^^^ lb) R).bind fun rest =>
      (iterateRight (regBit n) f l (safeRshift R (n - l) <<< (n - l))).bind fun here =>
        some (rest ||| here) := by
    intro lb l h1 h2
    rw [regGrades, if_neg h0, h1]
    subst h2
    rfl
  exact key (bit i) i hr (setBitIndex_bit i hi)

theorem regGrades_spec (n f : Nat) (hf65 : 64 < f) (hn : n ≤ 62) (R : Word) (hR : InSpace (n + 1) R) :
    ∀ fuel L, InSpace (n + 1) L → ones L < fuel → ∃ G, regGrades n f fuel L R = some G ∧
      ∀ g < 64, G.getLsbD g = true ↔
        ∃ l r, L.getLsbD l = true ∧ R.getLsbD r = true ∧ l + r = g + n := by
  intro fuel
  induction fuel with
  | zero => intro L _ h; exact absurd h (by omega)
  | succ fuel ih =>
    intro L hL hf
    by_cases h0 : L = 0
    · refine ⟨0, by rw [regGrades, if_pos h0], fun g hg => ?_⟩
      simp [h0]
    · have hL63 : InSpace 63 L := fun i hi => by have := hL i hi; omega
      obtain ⟨i, hi63, hr, hL', hones, hmin, hmem⟩ := low_step h0 hL63
      rw [regGrades_step n f fuel L R h0 i (by omega) hr]
      have hin : i ≤ n := by
        have := hL ⟨i, by omega⟩ ((hmem i).mpr (Or.inl rfl))
        simp at this; omega
      obtain ⟨G, hG, hG'⟩ := ih (L ^^^ bit i) (fun j hj => hL j ((hmem j).mpr (Or.inr hj))) (by omega)
      rw [hG]
      have hR'g := keepHigh R (n - i) (by omega)
      have hR63 : InSpace 63 (safeRshift R (n - i) <<< (n - i)) := fun j hj => by
        have := hR j ((hR'g j).mp hj).1; omega
      generalize safeRshift R (n - i) <<< (n - i) = R' at hR'g hR63 ⊢
      obtain ⟨H, hH, hH'⟩ := iterateRight_spec (regBit n) i f R' hR63
        (by have := ones_le R'; omega)
      rw [hH]
      refine ⟨_, rfl, fun g hg => ?_⟩
      rw [BitVec.getLsbD_or, Bool.or_eq_true, hG' g hg, hH' g]
      have hRn : ∀ r, R.getLsbD r = true → r ≤ n := fun r h => by
        have := hR ⟨r, getLsbD_lt h⟩ h; simp at this; omega
      constructor
      · rintro (⟨l, r, h1, h2⟩ | ⟨r, h1, h2⟩)
        · exact ⟨l, r, (hmem l).mpr (Or.inr h1), h2⟩
        · have h1' := (hR'g r).mp h1
          exact ⟨i, r, (hmem i).mpr (Or.inl rfl), h1'.1,
            (regBit_spec n i r g (by omega) hin (hRn r h1'.1)).mp h2⟩
      · rintro ⟨l, r, h1, h2, h3⟩
        rcases (hmem l).mp h1 with rfl | h
        · refine Or.inr ⟨r, (hR'g r).mpr ⟨h2, by omega⟩, ?_⟩
          exact (regBit_spec n l r g (by omega) hin (hRn r h2)).mpr h3
        · exact Or.inl ⟨l, r, h, h2, h3⟩

theorem even_pattern (i : Nat) (hi : i < 64) :
    (0x5555555555555555#64).getLsbD i = decide (i % 2 = 0) := by
  have : ∀ i : Fin 64, (0x5555555555555555#64).getLsbD i.val = decide (i.val % 2 = 0) := by decide
  exact this ⟨i, hi⟩

theorem gpBit_spec (l r g : Nat) (hl : l < 64) (hr : r < 64) (hg : g < 64) :
    (gpBit l r).getLsbD g = true ↔
      (l ≤ r + g ∧ r ≤ l + g ∧ g ≤ l + r ∧ (l + r + g) % 2 = 0) := by
  unfold gpBit
  dsimp only
  generalize hmin : (if l ≤ r then r - l else l - r) = mn
  generalize hmax : (if l + r < 64 then l + r else 63) = mx
  have hmn : (l ≤ r ∧ mn = r - l) ∨ (r < l ∧ mn = l - r) := by
    by_cases h : l ≤ r
    · rw [if_pos h] at hmin; left; omega
    · rw [if_neg h] at hmin; right; omega
  have hmx : (l + r < 64 ∧ mx = l + r) ∨ (64 ≤ l + r ∧ mx = 63) := by
    by_cases h : l + r < 64
    · rw [if_pos h] at hmax; left; omega
    · rw [if_neg h] at hmax; right; omega
  have hmask : ∀ i < 64, (safeRshift (~~~0#64) (64 - mx - 1)).getLsbD i = decide (i ≤ mx) := by
    intro i hi
    have := allGrades_getLsbD mx (by omega) i hi
    unfold allGrades at this
    rw [show 64 - mx - 1 = 64 - (mx + 1) by omega]
    exact this
  rw [BitVec.getLsbD_shiftLeft]
  by_cases h1 : g < mn
  · simp [h1]; omega
  · rw [BitVec.getLsbD_and, even_pattern _ (by omega)]
    conv_lhs => rw [show safeRshift (safeRshift (~~~0#64) (64 - mx - 1)) mn
      = (safeRshift (~~~0#64) (64 - mx - 1)) >>> mn from by
        rw [safeRshift, if_pos (by omega)]]
    rw [BitVec.getLsbD_ushiftRight, hmask _ (by omega)]
    simp only [hg, h1, decide_true, decide_false, Bool.not_false, Bool.and_true, Bool.true_and,
      Bool.and_eq_true, decide_eq_true_eq]
    omega

/-- the possible grades of a graded product -/
def validTriple (n : Nat) : GradedProduct → Nat → Nat → Nat → Prop
  | .gp, l, r, g => l ≤ r + g ∧ r ≤ l + g ∧ g ≤ l + r ∧ (l + r + g) % 2 = 0 ∧ g ≤ n
  | .lcont, l, r, g => r = l + g
  | .rcont, l, r, g => l = r + g
  | .dot, l, r, g => r = l + g ∨ l = r + g
  | .hip, l, r, g => l ≠ 0 ∧ r ≠ 0 ∧ (r = l + g ∨ l = r + g)
  | .sp, l, r, g => l = r ∧ g = 0

theorem mask_scalar (L : Word) (j : Nat) :
    ((L ||| 1) ^^^ 1).getLsbD j = true ↔ (L.getLsbD j = true ∧ j ≠ 0) := by
  have e : (1 : Word) = bit 0 := rfl
  by_cases hj : j < 64
  · rw [BitVec.getLsbD_xor, BitVec.getLsbD_or, e, getLsbD_bit 0 j (by omega)]
    by_cases h : j = 0
    · subst h; simp
    · simp [h]
  · constructor
    · intro h; exact absurd (getLsbD_lt h) hj
    · intro h; exact absurd (getLsbD_lt h.1) hj

theorem gradedGrades_spec (n : Nat) (hn : n ≤ 63) (p : GradedProduct) (L R : Word)
    (hL : InSpace 63 L) (hR : InSpace 63 R) :
    ∃ G, gradedGrades n p L R = some G ∧
      ∀ g < 64, G.getLsbD g = true ↔
        ∃ l r, L.getLsbD l = true ∧ R.getLsbD r = true ∧ validTriple n p l r g := by
  have hoL := ones_le L
  have hoR := ones_le R
  cases p with
  | gp =>
    obtain ⟨G, hG, hG'⟩ := iterateLeft_spec 65 (by omega) R hR 65 L hL (by omega)
    refine ⟨G &&& allGrades n, by simp [gradedGrades, hG], fun g hg => ?_⟩
    rw [BitVec.getLsbD_and, Bool.and_eq_true, hG', allGrades_getLsbD n (by omega) g hg,
      decide_eq_true_eq]
    constructor
    · rintro ⟨⟨l, r, h1, h2, h3⟩, h4⟩
      rw [gpBit_spec l r g (getLsbD_lt h1) (getLsbD_lt h2) hg] at h3
      exact ⟨l, r, h1, h2, h3.1, h3.2.1, h3.2.2.1, h3.2.2.2, h4⟩
    · rintro ⟨l, r, h1, h2, h3, h4, h5, h6, h7⟩
      exact ⟨⟨l, r, h1, h2, (gpBit_spec l r g (getLsbD_lt h1) (getLsbD_lt h2) hg).mpr
        ⟨h3, h4, h5, h6⟩⟩, h7⟩
  | lcont =>
    obtain ⟨G, hG, hG'⟩ := contGrades_spec R 65 L hL (by omega)
    exact ⟨G, hG, hG'⟩
  | rcont =>
    obtain ⟨G, hG, hG'⟩ := contGrades_spec L 65 R hR (by omega)
    refine ⟨G, hG, fun g hg => ?_⟩
    rw [hG' g hg]
    exact ⟨fun ⟨l, r, h1, h2, h3⟩ => ⟨r, l, h2, h1, h3⟩, fun ⟨l, r, h1, h2, h3⟩ => ⟨r, l, h2, h1, h3⟩⟩
  | dot =>
    obtain ⟨G, hG, hG'⟩ := contGrades_spec R 65 L hL (by omega)
    obtain ⟨H, hH, hH'⟩ := contGrades_spec L 65 R hR (by omega)
    refine ⟨G ||| H, by simp [gradedGrades, hG, hH], fun g hg => ?_⟩
    rw [BitVec.getLsbD_or, Bool.or_eq_true, hG' g hg, hH' g hg]
    constructor
    · rintro (⟨l, r, h1, h2, h3⟩ | ⟨l, r, h1, h2, h3⟩)
      · exact ⟨l, r, h1, h2, Or.inl h3⟩
      · exact ⟨r, l, h2, h1, Or.inr h3⟩
    · rintro ⟨l, r, h1, h2, h3 | h3⟩
      · exact Or.inl ⟨l, r, h1, h2, h3⟩
      · exact Or.inr ⟨r, l, h2, h1, h3⟩
  | hip =>
    have hL' : InSpace 63 ((L ||| 1) ^^^ 1) := fun j hj => hL j ((mask_scalar L j).mp hj).1
    have hR' : InSpace 63 ((R ||| 1) ^^^ 1) := fun j hj => hR j ((mask_scalar R j).mp hj).1
    have hoL' := ones_le ((L ||| 1) ^^^ 1)
    have hoR' := ones_le ((R ||| 1) ^^^ 1)
    obtain ⟨G, hG, hG'⟩ := contGrades_spec ((R ||| 1) ^^^ 1) 65 ((L ||| 1) ^^^ 1) hL' (by omega)
    obtain ⟨H, hH, hH'⟩ := contGrades_spec ((L ||| 1) ^^^ 1) 65 ((R ||| 1) ^^^ 1) hR' (by omega)
    refine ⟨G ||| H, ?_, fun g hg => ?_⟩
    · show (do
        some ((← contGrades 65 ((L ||| 1) ^^^ 1) ((R ||| 1) ^^^ 1))
          ||| (← contGrades 65 ((R ||| 1) ^^^ 1) ((L ||| 1) ^^^ 1)))) = _
      rw [hG, hH]; rfl
    rw [BitVec.getLsbD_or, Bool.or_eq_true, hG' g hg, hH' g hg]
    simp only [mask_scalar]
    constructor
    · rintro (⟨l, r, h1, h2, h3⟩ | ⟨l, r, h1, h2, h3⟩)
      · exact ⟨l, r, h1.1, h2.1, h1.2, h2.2, Or.inl h3⟩
      · exact ⟨r, l, h2.1, h1.1, h2.2, h1.2, Or.inr h3⟩
    · rintro ⟨l, r, h1, h2, h4, h5, h3 | h3⟩
      · exact Or.inl ⟨l, r, ⟨h1, h4⟩, ⟨h2, h5⟩, h3⟩
      · exact Or.inr ⟨r, l, ⟨h2, h5⟩, ⟨h1, h4⟩, h3⟩
  | sp =>
    refine ⟨_, rfl, fun g hg => ?_⟩
    by_cases h : L &&& R ≠ 0
    · rw [if_pos h]
      obtain ⟨i, _, hi⟩ := ne_zero_exists h
      rw [BitVec.getLsbD_and, Bool.and_eq_true] at hi
      have e : (1 : Word) = bit 0 := rfl
      rw [e, getLsbD_bit 0 g (by omega), decide_eq_true_eq]
      constructor
      · intro h; exact ⟨i, i, hi.1, hi.2, rfl, h⟩
      · rintro ⟨l, r, _, _, _, h⟩; exact h
    · rw [if_neg h]
      push Not at h
      rw [zero_getLsbD rfl]
      constructor
      · intro h; exact absurd h (by simp)
      · rintro ⟨l, r, h1, h2, rfl, _⟩
        have := zero_getLsbD h l
        rw [BitVec.getLsbD_and, h1, h2] at this
        exact absurd this (by simp)

end GATL

namespace GATL
open Spec

theorem basisVectors_eq (n : Nat) (hn : n ≤ 63) : basisVectors n = full n := by
  apply word_ext
  intro i hi
  have := getLsbD_mask n 0 i (by omega) hi
  rw [BitVec.shiftLeft_zero] at this
  unfold basisVectors
  rw [this, getLsbD_full n i hi]
  congr 1
  simp

theorem eq_full {n : Nat} (hn : n ≤ 63) {w : Word} (hw : InSpace n w) (h : ones w = n) :
    w = full n :=
  ones_mono_eq (inSpace_and hw) (by rw [h, vecs_full n (by omega)])

theorem inSpace_ones {n : Nat} (hn : n ≤ 63) {w : Word} (hw : InSpace n w) : ones w ≤ n := by
  rw [← vecs_full n (by omega), ones_eq_card, ones_eq_card]
  refine Finset.card_le_card fun i hi => ?_
  rw [mem_vecs] at hi ⊢
  rw [getLsbD_full _ _ i.2]
  simpa using hw i hi

theorem wellTyped_const {K : Type*} [Zero K] {n : Nat} {a : K} {b : Word} :
    WellTyped n (a, TBlade.const b) ↔ InSpace n b := by
  unfold WellTyped InSpace
  simp only [mem_vecs]

theorem wellTyped_dyn {K : Type*} [Zero K] {n : Nat} {a : K} {G b : Word} :
    WellTyped n (a, TBlade.dyn G b) ↔ (InSpace (n + 1) G ∧ InSpace n b ∧
      (a ≠ 0 → G.getLsbD (ones b) = true)) := by
  unfold WellTyped InSpace
  simp only [mem_vecs, gradeOf, ← ones_eq_card, Nat.lt_succ_iff]
  refine and_congr_right fun _ => and_congr_right fun _ => imp_congr_right fun _ => ?_
  constructor
  · rintro ⟨g, h1, h2⟩; rw [← h2]; exact h1
  · intro h; exact ⟨⟨ones b, getLsbD_lt h⟩, h, rfl⟩

/-- operands of a typed product -/
theorem wellTyped_grades {K : Type*} [Zero K] {n : Nat} (hn : n ≤ 62) {c : K × TBlade}
    (h : WellTyped n c) : InSpace (n + 1) c.2.grades := by
  obtain ⟨a, b | ⟨G, b⟩⟩ := c
  · rw [wellTyped_const] at h
    intro i hi
    have hle := inSpace_ones (by omega) h
    change (bit (ones b)).getLsbD i = true at hi
    rw [getLsbD_bit _ _ (by omega)] at hi
    simp at hi; omega
  · exact (wellTyped_dyn.mp h).1

theorem wellTyped_bits {K : Type*} [Zero K] {n : Nat} (hn : n ≤ 62) {c : K × TBlade}
    (h : WellTyped n c) (h0 : c.1 ≠ 0) :
    InSpace n c.2.bits ∧ c.2.grades.getLsbD (ones c.2.bits) = true := by
  obtain ⟨a, b | ⟨G, b⟩⟩ := c
  · rw [wellTyped_const] at h
    have hle := inSpace_ones (by omega) h
    refine ⟨h, ?_⟩
    change (bit (ones b)).getLsbD (ones b) = true
    rw [getLsbD_bit _ _ (by omega)]; simp
  · exact ⟨(wellTyped_dyn.mp h).2.1, (wellTyped_dyn.mp h).2.2 h0⟩

theorem wellTyped_space {K : Type*} [Zero K] {n : Nat} {c : K × TBlade}
    (h : WellTyped n c) : InSpace n c.2.bits := by
  obtain ⟨a, b | ⟨G, b⟩⟩ := c
  · exact wellTyped_const.1 h
  · exact (wellTyped_dyn.1 h).2.1

variable {K : Type*} [CommRing K]

/-- one product of components: `sound` says that the grade of a nonzero product is possible -/
theorem typedMul_spec (n : Nat) (hn : n ≤ 62) (grades : Word → Word → Option Word)
    (mul : BladeMul K)
    (hgr : ∀ L R, InSpace (n + 1) L → InSpace (n + 1) R → ∃ G, grades L R = some G ∧
      InSpace (n + 1) G ∧ ∀ l r, InSpace n l → InSpace n r → L.getLsbD (ones l) = true →
        R.getLsbD (ones r) = true → (mul l r).1 ≠ 0 → G.getLsbD (ones (mul l r).2) = true)
    (hin : ∀ l r, InSpace n l → InSpace n r → InSpace n (mul l r).2)
    {A B : K × TBlade} (hA : WellTyped n A) (hB : WellTyped n B) :
    ∃ C, typedMul n grades mul A B = some C ∧ WellTyped n C ∧
      (Finsupp.single C.2.bits C.1 : MV K)
        = Finsupp.single (mul A.2.bits B.2.bits).2 (A.1 * B.1 * (mul A.2.bits B.2.bits).1) := by
  obtain ⟨G, hG, hGn, hs⟩ := hgr _ _ (wellTyped_grades hn hA) (wellTyped_grades hn hB)
  unfold typedMul
  rw [hG]
  refine ⟨_, rfl, ?_⟩
  dsimp only
  -- is the product of coefficients nonzero?
  by_cases hz : A.1 * B.1 * (mul A.2.bits B.2.bits).1 = 0
  · -- the value is zero
    unfold typedComponent
    split_ifs with h1 h2 h3 h4
    · refine ⟨wellTyped_const.mpr (by intro i hi; simp at hi), ?_⟩
      rw [hz]; simp
    · refine ⟨wellTyped_const.mpr ?_, by dsimp only; rw [hz]; simp⟩
      rw [basisVectors_eq n (by omega)]; exact inSpace_full n
    · refine ⟨wellTyped_const.mpr ?_, by dsimp only; rw [hz]; simp⟩
      rw [Bool.and_eq_true] at h3
      obtain ⟨a, a' | ⟨a', a''⟩⟩ := A
      · obtain ⟨b, b' | ⟨b', b''⟩⟩ := B
        · exact hin _ _ (wellTyped_const.mp hA) (wellTyped_const.mp hB)
        · exact absurd h3.2 (by simp [TBlade.isConst])
      · exact absurd h3.1 (by simp [TBlade.isConst])
    · refine ⟨wellTyped_const.mpr (by intro i hi; simp at hi), by dsimp only; rw [hz]; simp⟩
    · refine ⟨wellTyped_dyn.mpr ⟨hGn, hin _ _ (wellTyped_space hA) (wellTyped_space hB),
        fun h => absurd hz h⟩, by dsimp only; rw [hz]; simp⟩
  · have hA0 : A.1 ≠ 0 := fun h => hz (by rw [h]; ring)
    have hB0 : B.1 ≠ 0 := fun h => hz (by rw [h]; ring)
    have hm0 : (mul A.2.bits B.2.bits).1 ≠ 0 := fun h => hz (by rw [h]; ring)
    obtain ⟨hAi, hAg⟩ := wellTyped_bits hn hA hA0
    obtain ⟨hBi, hBg⟩ := wellTyped_bits hn hB hB0
    have hgrade := hs _ _ hAi hBi hAg hBg hm0
    have hspace := hin _ _ hAi hBi
    generalize mul A.2.bits B.2.bits = m at *
    unfold typedComponent
    split_ifs with h1 h2 h3 h4
    · rw [zero_getLsbD h1] at hgrade; exact absurd hgrade (by simp)
    · have hn' : ones m.2 = n := by
        rw [h2] at hgrade
        change (bit n).getLsbD (ones m.2) = true at hgrade
        rw [getLsbD_bit _ _ (by omega)] at hgrade
        simpa using hgrade
      rw [basisVectors_eq n (by omega), ← eq_full (by omega) hspace hn']
      exact ⟨wellTyped_const.mpr hspace, rfl⟩
    · exact ⟨wellTyped_const.mpr hspace, rfl⟩
    · have hn' : ones m.2 = 0 := by
        rw [h4] at hgrade
        change (bit 0).getLsbD (ones m.2) = true at hgrade
        rw [getLsbD_bit _ _ (by omega)] at hgrade
        simpa using hgrade
      rw [ones_eq_zero] at hn'
      rw [hn']
      exact ⟨wellTyped_const.mpr (by intro i hi; simp at hi), rfl⟩
    · exact ⟨wellTyped_dyn.mpr ⟨hGn, hspace, fun _ => hgrade⟩, rfl⟩

theorem mapM_exists {α β : Type*} (f : α → Option β) (P : α → β → Prop) :
    ∀ l : List α, (∀ a ∈ l, ∃ b, f a = some b ∧ P a b) →
      ∃ l', l.mapM f = some l' ∧ List.Forall₂ P l l' := by
  intro l
  induction l with
  | nil => intro _; exact ⟨[], by simp, List.Forall₂.nil⟩
  | cons a l ih =>
    intro h
    obtain ⟨b, hb, hp⟩ := h a (by simp)
    obtain ⟨l', hl', hp'⟩ := ih fun x hx => h x (by simp [hx])
    refine ⟨b :: l', ?_, List.Forall₂.cons hp hp'⟩
    rw [List.mapM_cons, hb, hl']; rfl

theorem typedProd_spec (n : Nat) (hn : n ≤ 62) (grades : Word → Word → Option Word)
    (mul : BladeMul K)
    (hgr : ∀ L R, InSpace (n + 1) L → InSpace (n + 1) R → ∃ G, grades L R = some G ∧
      InSpace (n + 1) G ∧ ∀ l r, InSpace n l → InSpace n r → L.getLsbD (ones l) = true →
        R.getLsbD (ones r) = true → (mul l r).1 ≠ 0 → G.getLsbD (ones (mul l r).2) = true)
    (hin : ∀ l r, InSpace n l → InSpace n r → InSpace n (mul l r).2)
    {A B : List (K × TBlade)} (hA : ∀ a ∈ A, WellTyped n a) (hB : ∀ b ∈ B, WellTyped n b) :
    ∃ C, typedProd n grades mul A B = some C ∧ (∀ c ∈ C, WellTyped n c) ∧
      typedValue C = bilin mul (typedValue A) (typedValue B) := by
  have hrow : ∀ a ∈ A, ∃ Cs, B.mapM (fun b => typedMul n grades mul a b) = some Cs ∧
      ((∀ c ∈ Cs, WellTyped n c) ∧
        typedValue Cs = bilin mul (Finsupp.single a.2.bits a.1) (typedValue B)) := by
    intro a ha
    obtain ⟨Cs, hCs, hf⟩ := mapM_exists (fun b => typedMul n grades mul a b)
      (fun b C => WellTyped n C ∧ (Finsupp.single C.2.bits C.1 : MV K)
        = Finsupp.single (mul a.2.bits b.2.bits).2 (a.1 * b.1 * (mul a.2.bits b.2.bits).1)) B
      (fun b hb => typedMul_spec n hn grades mul hgr hin (hA a ha) (hB b hb))
    refine ⟨Cs, hCs, ?_⟩
    clear hCs hB
    induction hf with
    | nil => exact ⟨by simp, by simp [typedValue]⟩
    | cons h _ ih =>
      rename_i b c B' C'
      refine ⟨fun x hx => ?_, ?_⟩
      · rcases List.mem_cons.mp hx with rfl | hx
        · exact h.1
        · exact ih.1 x hx
      · have ih2 := ih.2
        unfold typedValue at ih2 ⊢
        rw [List.map_cons, List.sum_cons, List.map_cons, List.sum_cons, map_add, ih2, h.2]
        congr 1
        simp only [bilin, Finsupp.linearCombination_single, LinearMap.smul_apply,
          Finsupp.smul_single, smul_eq_mul]
        congr 1; ring
  obtain ⟨Cs, hCs, hf⟩ := mapM_exists (fun a => B.mapM fun b => typedMul n grades mul a b) _ A hrow
  refine ⟨Cs.flatten, by unfold typedProd; rw [hCs]; rfl, ?_⟩
  clear hCs hrow hA
  induction hf with
  | nil => exact ⟨by simp, by simp [typedValue]⟩
  | cons h _ ih =>
    rename_i a c A' C'
    refine ⟨fun x hx => ?_, ?_⟩
    · rw [List.flatten_cons, List.mem_append] at hx
      exact hx.elim (h.1 x) (ih.1 x)
    · have ih2 := ih.2
      have h2 := h.2
      unfold typedValue at ih2 h2 ⊢
      rw [List.flatten_cons, List.map_append, List.sum_append, List.map_cons, List.sum_cons,
        map_add, LinearMap.add_apply, ih2, h2]

/-- A product of an `n`-dimensional space computed in `d` dimensions: the same space, or the space of
real numbers, which the library uses when an operand is a scalar. -/
def SpaceOk (n d : Nat) (L R : Word) : Prop := d = n ∨ d = 63 ∧ (L = 1 ∨ R = 1)

theorem one_getLsbD (i : Nat) : (1 : Word).getLsbD i = decide (i = 0) := by
  have e : (1 : Word) = bit 0 := rfl
  by_cases hi : i < 64
  · rw [e, getLsbD_bit 0 i (by omega)]
  · rw [BitVec.getLsbD_of_ge _ _ (by omega)]
    simp; omega

theorem extGrades_ok {K : Type*} [CommRing K] (n d : Nat) (hn : n ≤ 62) :
    ∀ L R, SpaceOk n d L R → InSpace (n + 1) L → InSpace (n + 1) R → ∃ G, extGrades d 65 L R = some G ∧
      InSpace (n + 1) G ∧ ∀ l r, InSpace n l → InSpace n r → L.getLsbD (ones l) = true →
        R.getLsbD (ones r) = true → ((fun L R => (((extMul L R).1 : K), (extMul L R).2) : BladeMul K) l r).1 ≠ 0 →
        G.getLsbD (ones ((fun L R => (((extMul L R).1 : K), (extMul L R).2) : BladeMul K) l r).2) = true := by
  intro L R hd hL hR
  obtain ⟨G, hG, hG'⟩ := extGrades_spec d (by rcases hd with h | h <;> omega) R 65 L
    (fun i hi => by have := hL i hi; omega) (by have := ones_le L; omega)
  refine ⟨G, hG, fun i hi => ?_, ?_⟩
  · obtain ⟨l, r, h1, h2, h3, h⟩ := (hG' i i.2).mp hi
    rcases hd with rfl | ⟨-, h0 | h0⟩
    · omega
    · have := hR ⟨r, getLsbD_lt h2⟩ h2
      rw [h0, one_getLsbD] at h1
      simp only [decide_eq_true_eq] at h1
      simp only at this; omega
    · have := hL ⟨l, getLsbD_lt h1⟩ h1
      rw [h0, one_getLsbD] at h2
      simp only [decide_eq_true_eq] at h2
      simp only at this; omega
  · intro l r hl hr h1 h2 h3
    have hle := inSpace_ones (by omega) (inSpace_or hl hr)
    have hne : ones l + ones r = ones (l ||| r) := by
      by_contra h
      simp [extMul, h] at h3
    refine (hG' _ ?_).mpr ⟨ones l, ones r, h1, h2, hne.symm, by
      have : n ≤ d := by rcases hd with h | h <;> omega
      exact le_trans hle this⟩
    show ones (l ||| r) < 64
    omega

theorem regGrades_ok {K : Type*} [CommRing K] (n : Nat) (hn : n ≤ 62) :
    ∀ L R, InSpace (n + 1) L → InSpace (n + 1) R → ∃ G, regGrades n 65 65 L R = some G ∧
      InSpace (n + 1) G ∧ ∀ l r, InSpace n l → InSpace n r → L.getLsbD (ones l) = true →
        R.getLsbD (ones r) = true → ((fun L R => (((regMul n L R).1 : K), (regMul n L R).2) : BladeMul K) l r).1 ≠ 0 →
        G.getLsbD (ones ((fun L R => (((regMul n L R).1 : K), (regMul n L R).2) : BladeMul K) l r).2) = true := by
  intro L R hL hR
  obtain ⟨G, hG, hG'⟩ := regGrades_spec n 65 (by omega) hn R hR 65 L hL
    (by have := ones_le L; omega)
  refine ⟨G, hG, fun i hi => ?_, ?_⟩
  · obtain ⟨l, r, h1, h2, h⟩ := (hG' i i.2).mp hi
    have := hL ⟨l, getLsbD_lt h1⟩ h1
    have := hR ⟨r, getLsbD_lt h2⟩ h2
    simp at *; omega
  · intro l r hl hr h1 h2 h3
    have hle := inSpace_ones (by omega) (inSpace_and' (r := r) hl)
    have hne : (ones l : Int) + ones r + -1 * ones (l &&& r) = n := by
      by_contra h
      unfold regMul at h3
      dsimp only at h3
      rw [if_neg h] at h3
      simp at h3
    refine (hG' _ ?_).mpr ⟨ones l, ones r, h1, h2, ?_⟩
    · show ones (l &&& r) < 64
      omega
    · show ones l + ones r = ones (l &&& r) + n
      omega

theorem gradedGrades_ok {K : Type*} [CommRing K] (n d : Nat) (hn : n ≤ 62) (factor : Word → K)
    (p : GradedProduct) :
    ∀ L R, SpaceOk n d L R → InSpace (n + 1) L → InSpace (n + 1) R → ∃ G, gradedGrades d p L R = some G ∧
      InSpace (n + 1) G ∧ ∀ l r, InSpace n l → InSpace n r → L.getLsbD (ones l) = true →
        R.getLsbD (ones r) = true → (orthMul factor p l r).1 ≠ 0 →
        G.getLsbD (ones (orthMul factor p l r).2) = true := by
  intro L R hd hL hR
  obtain ⟨G, hG, hG'⟩ := gradedGrades_spec d (by rcases hd with h | h <;> omega) p L R
    (fun i hi => by have := hL i hi; omega) (fun i hi => by have := hR i hi; omega)
  refine ⟨G, hG, fun i hi => ?_, ?_⟩
  · obtain ⟨l, r, h1, h2, h⟩ := (hG' i i.2).mp hi
    have := hL ⟨l, getLsbD_lt h1⟩ h1
    have := hR ⟨r, getLsbD_lt h2⟩ h2
    simp only at *
    cases p with
    | gp =>
      simp only [validTriple] at h
      rcases hd with rfl | ⟨-, h0 | h0⟩
      · omega
      · rw [h0, one_getLsbD] at h1
        simp only [decide_eq_true_eq] at h1
        omega
      · rw [h0, one_getLsbD] at h2
        simp only [decide_eq_true_eq] at h2
        omega
    | _ => simp only [validTriple] at h; omega
  · intro l r hl hr h1 h2 h3
    have hle := inSpace_ones (by omega) (inSpace_xor hl hr)
    have hx := ones_xor_add_two_and l r
    have hal := inSpace_ones (by omega) hl
    have har := inSpace_ones (by omega) hr
    have hc1 : ones (l &&& r) ≤ ones l := by
      rw [ones_eq_card, ones_eq_card]
      refine Finset.card_le_card fun i hi => ?_
      rw [mem_vecs, BitVec.getLsbD_and, Bool.and_eq_true] at hi
      exact mem_vecs.mpr hi.1
    have hc2 : ones (l &&& r) ≤ ones r := by
      rw [ones_eq_card, ones_eq_card]
      refine Finset.card_le_card fun i hi => ?_
      rw [mem_vecs, BitVec.getLsbD_and, Bool.and_eq_true] at hi
      exact mem_vecs.mpr hi.2
    have hv : areValidGrades p (ones l) (ones r) (ones (l ^^^ r)) = true := by
      by_contra h
      unfold orthMul at h3
      dsimp only at h3
      rw [if_neg h] at h3
      exact h3 rfl
    have e2 : (orthMul factor p l r).2 = l ^^^ r := rfl
    rw [e2]
    refine (hG' _ (by omega)).mpr ⟨ones l, ones r, h1, h2, ?_⟩
    have hnd : n ≤ d := by rcases hd with h | h <;> omega
    generalize ones (l ^^^ r) = x at *
    generalize ones (l &&& r) = c at *
    generalize ones l = a at *
    generalize ones r = b at *
    cases p <;> simp only [areValidGrades, validTriple] at hv ⊢
    · omega
    · have := of_decide_eq_true hv; omega
    · have := of_decide_eq_true hv; omega
    · split_ifs at hv with hc
      · have := of_decide_eq_true hv; omega
      · have := of_decide_eq_true hv; omega
    · split_ifs at hv with hc
      · have := of_decide_eq_true hv
        simp at hc; omega
      · have := of_decide_eq_true hv
        simp at hc; omega
    · have := of_decide_eq_true hv; omega

end GATL
