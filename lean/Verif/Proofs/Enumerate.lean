import Verif.Proofs.Gosper
import Mathlib.Data.Finset.Sort
import Mathlib.Data.Finset.Powerset
import Mathlib.Data.Nat.Choose.Sum

/-! Helper lemmas: enumeration of blades and of basis vectors. -/

namespace GATL
open Spec

theorem inSpace_lt {n : Nat} {b : Word} : InSpace n b ↔ b.toNat < 2 ^ n := by
  constructor
  · intro h
    apply Nat.lt_pow_two_of_testBit
    intro i hi
    by_cases h64 : i < 64
    · by_contra hcon
      have := h ⟨i, h64⟩ (by simpa [BitVec.getLsbD] using hcon)
      simp at this; omega
    · exact Nat.testBit_lt_two_pow (lt_of_lt_of_le b.isLt (Nat.pow_le_pow_right (by omega) (by omega)))
  · intro h i hi
    by_contra hcon
    have : b.toNat.testBit i = false := Nat.testBit_lt_two_pow (lt_of_lt_of_le h
      (Nat.pow_le_pow_right (by omega) (by omega)))
    rw [BitVec.getLsbD, this] at hi
    exact absurd hi (by simp)

/-- enumeration from a given combination -/
theorem kvectorFrom_spec (n : Nat) (hn : n ≤ 63) (k : Nat) (hk : k ≠ 0) :
    ∀ (fuel : Nat) (c : Word), (c ≠ 0) → c.toNat < 2 ^ n → ones c = k → 2 ^ n - c.toNat < fuel →
      ∃ L, kvectorFrom fuel (full n) c = some L ∧ L.Pairwise (fun x y => x.toNat < y.toNat) ∧
        ∀ x, x ∈ L ↔ (x.toNat < 2 ^ n ∧ ones x = k ∧ c.toNat ≤ x.toNat) := by
  intro fuel
  induction fuel with
  | zero => intro c _ _ _ h; exact absurd h (by omega)
  | succ fuel ih =>
    intro c hc hlt hpc hf
    obtain ⟨c', hnext, hcase⟩ := nextCombination_spec n hn c hc hlt
    unfold kvectorFrom
    rw [if_neg hc, hnext]
    simp only [Option.bind_eq_bind, Option.bind_some]
    rcases hcase with ⟨h0, hlt', hcc, hp', hmin⟩ | ⟨rfl, hmax⟩
    · obtain ⟨L, hL, hs, hm⟩ := ih c' h0 hlt' (hp'.trans hpc) (by omega)
      rw [hL]
      refine ⟨c :: L, rfl, ?_, ?_⟩
      · rw [List.pairwise_cons]
        exact ⟨fun x hx => lt_of_lt_of_le hcc ((hm x).mp hx).2.2, hs⟩
      · intro x
        rw [List.mem_cons, hm]
        constructor
        · rintro (rfl | ⟨h1, h2, h3⟩)
          · exact ⟨hlt, hpc, le_refl _⟩
          · exact ⟨h1, h2, by omega⟩
        · rintro ⟨h1, h2, h3⟩
          rcases Nat.eq_or_lt_of_le h3 with h | h
          · left; exact (BitVec.eq_of_toNat_eq h).symm
          · right; exact ⟨h1, h2, hmin x h (h2.trans hpc.symm)⟩
    · have : fuel ≠ 0 := by omega
      obtain ⟨f, rfl⟩ := Nat.exists_eq_succ_of_ne_zero this
      refine ⟨[c], ?_, by simp, ?_⟩
      · unfold kvectorFrom; simp
      · intro x
        rw [List.mem_singleton]
        constructor
        · rintro rfl; exact ⟨hlt, hpc, le_refl _⟩
        · rintro ⟨h1, h2, h3⟩
          have := hmax x h1 (h2.trans hpc.symm)
          exact BitVec.eq_of_toNat_eq (by omega)

theorem full_ne_zero (k : Nat) (hk : k ≠ 0) (hk' : k ≤ 63) : full k ≠ 0 := by
  intro h
  have := congrArg BitVec.toNat h
  rw [full_toNat k (by omega)] at this
  have h2 : 2 ^ 1 ≤ 2 ^ k := Nat.pow_le_pow_right (by omega) (by omega)
  have h0 : (0 : Word).toNat = 0 := rfl
  omega

/-- the blades of one grade -/
theorem kvector_spec (n : Nat) (hn : n ≤ 63) (k : Nat) (hk : k ≠ 0) (hkn : k ≤ n) (fuel : Nat)
    (hf : 2 ^ n < fuel) :
    ∃ L, kvectorFrom fuel (full n) (full k) = some L ∧
      L.Pairwise (fun x y => x.toNat < y.toNat) ∧
      ∀ x, x ∈ L ↔ (x.toNat < 2 ^ n ∧ ones x = k) := by
  have hpow : 2 ^ k ≤ 2 ^ n := Nat.pow_le_pow_right (by omega) hkn
  have hpos : 0 < 2 ^ k := by positivity
  have hfull : (full k).toNat = 2 ^ k - 1 := full_toNat k (by omega)
  obtain ⟨L, h1, h2, h3⟩ := kvectorFrom_spec n hn k hk fuel (full k) (full_ne_zero k hk (by omega))
    (by omega) (vecs_full k (by omega)) (by omega)
  refine ⟨L, h1, h2, fun x => ?_⟩
  rw [h3]
  refine ⟨fun h => ⟨h.1, h.2.1⟩, fun h => ⟨h.1, h.2, ?_⟩⟩
  have := popN_lower x.toNat
  rw [← ones_toNat, h.2] at this
  omega

theorem bit_xor_low {b : Word} {i : Fin 64} (hi : b.getLsbD i = true) (j : Nat) (hj : j < 64) :
    (b ^^^ bit i).getLsbD j = (b.getLsbD j && decide (j ≠ i)) := by
  rw [BitVec.getLsbD_xor, getLsbD_bit i j i.2]
  by_cases h : j = i
  · subst h; simp [hi]
  · simp [h]

theorem mem_vecs {b : Word} {i : Fin 64} : i ∈ vecs b ↔ b.getLsbD i = true := by
  unfold vecs; simp

theorem vecs_low {b : Word} {i : Fin 64} (hi : b.getLsbD i = true)
    (hlow : ∀ j < i.val, b.getLsbD j = false) :
    (vecs b).sort (· ≤ ·) = i :: (vecs (b ^^^ bit i)).sort (· ≤ ·) := by
  have e : vecs b = insert i (vecs (b ^^^ bit i)) := by
    ext j
    rw [Finset.mem_insert, mem_vecs, mem_vecs, bit_xor_low hi j j.2]
    by_cases h : j = i
    · subst h; simp [hi]
    · have : j.val ≠ i.val := fun h' => h (Fin.ext h')
      simp [h, this]
  have hni : i ∉ vecs (b ^^^ bit i) := by
    rw [mem_vecs, bit_xor_low hi i i.2]; simp
  rw [e, Finset.sort_insert (r := (· ≤ ·)) ?_ hni]
  intro j hj
  rw [mem_vecs, bit_xor_low hi j j.2, Bool.and_eq_true] at hj
  by_contra hcon
  rw [hlow j (by simpa using hcon)] at hj
  exact absurd hj.1 (by simp)

theorem forEachLoop_stop {σ : Type} (f : Nat → σ → σ × Bool) (fuel : Nat) (b : Word) (s : σ) :
    forEachLoop f (fuel + 1) b s false = some (s, false) := by
  unfold forEachLoop; simp

theorem forEachLoop_spec {σ : Type} (f : Nat → σ → σ × Bool) :
    ∀ (fuel : Nat) (b : Word) (s : σ), InSpace 63 b → (vecs b).card < fuel →
      forEachLoop f fuel b s true = some (visit f ((vecs b).sort (· ≤ ·)) s) := by
  intro fuel
  induction fuel with
  | zero => intro b s _ h; exact absurd h (by omega)
  | succ fuel ih =>
    intro b s hb hf
    by_cases h0 : b = 0
    · subst h0
      have : vecs (0 : Word) = ∅ := by ext i; rw [mem_vecs]; simp
      rw [this]
      unfold forEachLoop
      simp [visit]
    · obtain ⟨i, hi, hlow⟩ := exists_low h0
      have hi63 := hb i hi
      rw [vecs_low hi hlow]
      unfold forEachLoop
      rw [if_pos (by simpa using h0), rightmost_eq hi hlow hi63]
      simp only [Option.bind_eq_bind, Option.bind_some]
      rw [setBitIndex_bit i i.2, visit]
      have hcard : (vecs b).card = (vecs (b ^^^ bit i)).card + 1 := by
        have := congrArg List.length (vecs_low hi hlow)
        simpa using this
      cases hr : (f (i.val + 1) s).2
      · rw [if_neg (by simp)]
        have : fuel ≠ 0 := by omega
        obtain ⟨g, rfl⟩ := Nat.exists_eq_succ_of_ne_zero this
        exact forEachLoop_stop f g _ _
      · rw [if_pos rfl]
        refine ih _ _ ?_ (by omega)
        intro j hj
        rw [bit_xor_low hi j j.2, Bool.and_eq_true] at hj
        exact hb j hj.1

theorem exists_word (S : Finset (Fin 64)) : ∃ w : Word, vecs w = S := by
  classical
  induction S using Finset.induction_on with
  | empty => exact ⟨0, by ext i; rw [mem_vecs]; simp⟩
  | insert i S _ ih =>
    obtain ⟨w, rfl⟩ := ih
    refine ⟨w ||| bit i, ?_⟩
    ext j
    rw [mem_vecs, Finset.mem_insert, mem_vecs, BitVec.getLsbD_or, getLsbD_bit i j i.2,
      Bool.or_eq_true, or_comm]
    simp [Fin.ext_iff]

theorem gradeList_of {n k : Nat} {L : List Word}
    (h1 : L.Pairwise fun x y => x.toNat < y.toNat)
    (h2 : ∀ x, x ∈ L ↔ (x.toNat < 2 ^ n ∧ ones x = k)) : GradeList n k L := by
  refine ⟨h1, fun b => ?_⟩
  rw [h2, ← inSpace_lt, ones_eq_card]
  unfold InSpace
  simp only [mem_vecs]

theorem gradeList_zero (n : Nat) : GradeList n 0 [0] := by
  refine ⟨by simp, fun b => ?_⟩
  rw [List.mem_singleton]
  have hv : vecs (0 : Word) = ∅ := by ext i; rw [mem_vecs]; simp
  constructor
  · rintro rfl; rw [hv]; simp
  · rintro ⟨_, h⟩
    rw [Finset.card_eq_zero] at h
    apply word_ext
    intro i hi
    have : (⟨i, hi⟩ : Fin 64) ∉ vecs b := by rw [h]; simp
    rw [mem_vecs] at this
    simpa using this

theorem gradeList_length {n k : Nat} (hn : n ≤ 63) {L : List Word} (h : GradeList n k L) :
    L.length = n.choose k := by
  classical
  have hnd : L.Nodup := h.increasing.imp fun hlt heq => by rw [heq] at hlt; exact lt_irrefl _ hlt
  have hinj : Function.Injective vecs := by
    intro a b hab
    apply word_ext
    intro i hi
    have h1 : (⟨i, hi⟩ : Fin 64) ∈ vecs a ↔ (⟨i, hi⟩ : Fin 64) ∈ vecs b := by rw [hab]
    rw [mem_vecs, mem_vecs] at h1
    exact Bool.eq_iff_iff.mpr h1
  have hcard : (L.toFinset.image vecs).card = L.length := by
    rw [Finset.card_image_of_injective _ hinj, List.toFinset_card_of_nodup hnd]
  rw [← hcard]
  have himg : L.toFinset.image vecs
      = (Finset.univ.filter fun i : Fin 64 => i.val < n).powersetCard k := by
    ext S
    rw [Finset.mem_image, Finset.mem_powersetCard]
    constructor
    · rintro ⟨b, hb, rfl⟩
      rw [List.mem_toFinset, h.complete] at hb
      exact ⟨fun i hi => by simpa using hb.1 i hi, hb.2⟩
    · rintro ⟨h1, h2⟩
      obtain ⟨w, hv⟩ := exists_word S
      refine ⟨w, ?_, hv⟩
      rw [List.mem_toFinset, h.complete, hv]
      exact ⟨fun i hi => by simpa using h1 hi, h2⟩
  rw [himg, Finset.card_powersetCard]
  congr 1
  have : (Finset.univ.filter fun i : Fin 64 => i.val < n).card = (Finset.range n).card := by
    refine Finset.card_bij (fun i _ => i.val) (fun i hi => by simpa using hi)
      (fun i _ j _ hij => Fin.ext hij) (fun j hj => ?_)
    have : j < n := by simpa using hj
    exact ⟨⟨j, by omega⟩, by simpa using this, rfl⟩
  rw [this, Finset.card_range]

theorem multivectorFrom_spec (n : Nat) (hn : n ≤ 63) (fuel : Nat) (hf : 2 ^ n < fuel)
    (Ls : Nat → List Word) (hz : Ls 0 = [0])
    (hL : ∀ k, k ≠ 0 → k ≤ n → kvectorFrom fuel (full n) (full k) = some (Ls k)) :
    ∀ gap first, first + gap ≤ n →
      multivectorFrom fuel (full n) first gap = some ((List.range' first (gap + 1)).flatMap Ls) := by
  intro gap
  induction gap with
  | zero =>
    intro first h
    cases first with
    | zero => simp [multivectorFrom, hz]
    | succ g =>
      unfold multivectorFrom
      rw [firstCombination_eq (g + 1) (by omega)]
      simp only [Option.bind_eq_bind, Option.bind_some]
      rw [hL (g + 1) (by omega) (by omega)]
      simp
  | succ gap ih =>
    intro first h
    cases first with
    | zero =>
      unfold multivectorFrom
      rw [ih 1 (by omega)]
      simp only [Option.bind_eq_bind, Option.bind_some]
      rw [show List.range' 0 (gap + 1 + 1) = 0 :: List.range' 1 (gap + 1) from rfl, List.flatMap_cons, hz]
      rfl
    | succ g =>
      unfold multivectorFrom
      rw [firstCombination_eq (g + 1) (by omega)]
      simp only [Option.bind_eq_bind, Option.bind_some]
      rw [hL (g + 1) (by omega) (by omega), ih (g + 2) (by omega)]
      simp only [Option.bind_some]
      rw [show List.range' (g + 1) (gap + 1 + 1) = (g + 1) :: List.range' (g + 2) (gap + 1) from rfl, List.flatMap_cons]

end GATL
