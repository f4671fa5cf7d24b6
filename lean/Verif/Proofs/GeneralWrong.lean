import Verif.Proofs.GeneralProd

/-! Helper lemmas: what the general-metric mapping computes for blades of high grade. -/

namespace GATL
open Spec

variable {K : Type*} [CommRing K]

theorem keep_of_homog {p : GradedProduct} {r s k : Nat} {Y : MV K} (hY : Homogeneous k Y)
    (h : areValidGrades p (r : Int) (s : Int) (k : Int) = false) : keep p r s Y = 0 := by
  unfold keep
  ext b
  by_cases hb : Y b = 0
  · rw [Finsupp.filter_apply, hb]; simp
  · rw [Finsupp.filter_apply_neg]
    · rfl
    · have := hY b hb
      rw [gradeOf_eq] at this
      rw [this, h]; simp

/-- two blades of grade 8: the term with eight contractions is missing -/
theorem genMul_sp_eight (entry : Nat → Nat → K) {n : Nat} (hn : n ≤ 62) {A B : Word}
    (hA : InSpace n A) (hB : InSpace n B) (h1 : ones A = 8) (h2 : ones B = 8) (fuel : Nat)
    (hf : 2 ^ n < fuel) :
    ∃ L, genMul fuel entry n .sp A B = some L ∧ ofComponents L = 0 := by
  obtain ⟨cand, hc, hcand⟩ := candOk hn .sp hA hB
  obtain ⟨L, hL, hv⟩ := orderSum_spec entry hn .sp hA hB hcand (mask_small (ones B) (by omega)) fuel hf
    7 (by omega) (by omega)
  refine ⟨L, ?_, ?_⟩
  · unfold genMul
    have hmin : min (min (ones A) 7) (min (ones B) 7) = 7 := by omega
    rw [hc, Option.bind_some, leftmost_shift ⟨ones A, by omega⟩, leftmost_shift ⟨ones B, by omega⟩,
      hmin, hL]
  · rw [hv]
    refine Finset.sum_eq_zero fun k hk => keep_of_homog (wickK_homog _ k A B) ?_
    rw [Finset.mem_range] at hk
    simp only [areValidGrades, decide_eq_false_iff_not]
    omega

theorem next_high : ∀ s : Fin 63, 9 ≤ s.val →
    nextCombination 1 (leftmostSetBit ((1 : Word) <<< s.val) - 1) = some 0 := by decide +kernel

/-- contraction by a basis vector of a blade of grade nine or more: only the first vector of the
blade is looked at -/
theorem genMul_lcont_nine (entry : Nat → Nat → K) {n : Nat} (hn : n ≤ 62) {B : Word} {c i : Fin 64}
    (hc : c.val < n) (hB : InSpace n B) (h9 : 9 ≤ ones B) (hi : B.getLsbD i = true)
    (hlow : ∀ j < i.val, B.getLsbD j = false) (fuel : Nat) (hf : 2 ^ n < fuel) :
    ∃ L, genMul fuel entry n .lcont (bit c) B = some L ∧
      ofComponents L = Finsupp.single (B ^^^ bit i) (entry (i.val + 1) (c.val + 1)) := by
  classical
  have hA : InSpace n (bit c) := by
    intro j hj
    rw [getLsbD_bit c j c.2] at hj
    have := of_decide_eq_true hj
    omega
  have hoB := inSpace_ones (by omega : n ≤ 63) hB
  have hone := ones_bit c
  obtain ⟨cand, hcd, hcand⟩ := candOk hn .lcont hA hB
  have hnth : nth B 0 = i := by
    unfold nth; rw [sl_low hi hlow]; rfl
  have hv0 : vecs (0 : Word) = ∅ := by ext j; rw [mem_vecs]; simp
  have hw1 : wordOf ({i} : Finset (Fin 64)) = bit i := by
    rw [← vecs_bit i, wordOf_vecs]
  have hv1 : vecs (1 : Word) = {0} := vecs_bit 0
  have hibB : bit i &&& B = bit i := (bit_and_eq i B).mpr hi
  have h2n : 2 ≤ fuel := by
    have : 0 < 2 ^ n := by positivity
    omega
  -- the rows
  have hrows : ∀ cols, ones cols = 1 → rowsSum entry n .lcont cand (bit c) B cols fuel (full 1)
      = some [resultComponent .lcont cand (bit c) B (rowsTerm entry n (bit c) B cols (bit i))] := by
    intro cols _
    obtain ⟨f, rfl⟩ : ∃ f, fuel = f + 2 := ⟨fuel - 2, by omega⟩
    have hf1 : full 1 = 1 := by decide
    have hin1 : InSpace (ones B) (1 : Word) := by
      intro j hj
      have := getLsbD_bit 0 j.val (by omega)
      have e : (1 : Word) = bit 0 := rfl
      rw [e, this] at hj
      have := of_decide_eq_true hj
      omega
    rw [hf1]
    unfold rowsSum
    rw [if_neg (by decide), indirectSubset_eq B (by omega) 65 1 hin1 (by decide), Option.bind_some,
      next_high ⟨ones B, by omega⟩ h9, Option.bind_some, hv1, Finset.image_singleton, hnth, hw1]
    unfold rowsSum
    rw [if_pos rfl]; rfl
  obtain ⟨LA, hLA, hLAp, hLAm⟩ := kvector_spec n (by omega) 1 (by omega) (by omega) fuel hf
  have hcols := columnsSum_list entry (n := n) (k := 1) (by omega) (by omega) .lcont (cand := cand)
      (A := bit c) (B := B) fuel _ hrows fuel _ LA hLA (fun x hx => ((hLAm x).mp hx).2)
  have h0 : InSpace n (0 : Word) := fun i hi => by simp at hi
  have hrow := fun (C : Word) (hC : InSpace n C) (hk : ones C = 1) =>
    rows_term entry hn .lcont (k := 1) hA hB hC hk (ones_bit i) hibB hcand
  -- order zero
  have hw := rows_term entry hn .lcont (C := 0) (X := 0) hA hB h0 ones_zero ones_zero
      (by simp) hcand
  unfold genMul
  rw [hcd, Option.bind_some, leftmost_shift ⟨ones (bit c), by omega⟩,
    leftmost_shift ⟨ones B, by omega⟩]
  have hm : ∀ x y : Nat, x = 1 → 9 ≤ y → min (min x 7) (min y 7) = 1 := by omega
  have hmin : min (min (ones (bit c)) 7) (min (ones B) 7) = 1 := hm _ _ hone h9
  simp only
  rw [hmin]
  unfold orderSum
  have hord0 := orderSum_zero entry hn .lcont hA hB hcand fuel
  obtain ⟨L0, hL0, hv0⟩ := hord0
  rw [hL0, Option.bind_some, firstCombination_eq 1 (by omega), Option.bind_some, hcols]
  refine ⟨_, rfl, ?_⟩
  have hk0 : keep .lcont (ones (bit c)) (ones B) (wickK (ent entry) 0 (bit c) B) = 0 := by
    refine keep_of_homog (wickK_homog _ 0 _ B) ?_
    generalize ones (bit c) = x at *
    generalize ones B = y at *
    simp only [areValidGrades, decide_eq_false_iff_not]
    omega
  rw [ofComponents_append, hv0, hk0, zero_add]
  unfold scaleComponents
  rw [List.map_flatMap, ofComponents_flatMap]
  have hin : ∀ C : Word, InSpace n C → ones C = 1 →
      ofComponents (([resultComponent .lcont cand (bit c) B (rowsTerm entry n (bit c) B C (bit i))].map
            fun x => ((((columnsSign C : Int) : K)) * x.1, x.2)).map
          fun x => (((orderSign (0 + 1) (ones (bit c)) : Int) : K) * x.1, x.2))
        = keep .lcont (ones (bit c)) (ones B) (wterm (ent entry) (bit c) C B (bit i)) := by
    intro C hC hk
    rw [← hrow C hC hk]
    unfold ofComponents
    simp only [List.map_cons, List.map_nil, List.sum_cons, List.sum_nil, add_zero, Nat.zero_add]
    rw [mul_assoc]
  rw [List.map_congr_left (fun C hC => hin C (inSpace_lt.mpr ((hLAm C).mp hC).1) ((hLAm C).mp hC).2),
    gradeList_sum hLAp hLAm (by omega), Finset.sum_eq_single {c}]
  · have hwc : wordOf ({c} : Finset (Fin 64)) = bit c := by rw [← vecs_bit c, wordOf_vecs]
    have hself : bit c ^^^ bit c = 0 := BitVec.xor_self
    rw [hwc]
    unfold wterm
    rw [if_pos BitVec.and_self, hself, par_zero_left, sg_zero, one_smul]
    have : (Finsupp.single (0 : Word) (1 : K)) = scalar 1 := rfl
    rw [this, op_scalar_left, one_smul, keep_single, if_pos, par_bit_low hlow, sg_zero, mul_one,
      ← det_eq entry 1 (bit i) (bit c) (ones_bit i) (ones_bit c)]
    · refine single_ext ?_ fun _ => rfl
      unfold determinant
      rw [metricIndex_bit, metricIndex_bit]
    · have := ones_xor_sub hibB
      rw [ones_bit] at this
      simp only [areValidGrades, decide_eq_true_eq]
      omega
  · intro S hS hne
    rw [Finset.mem_powersetCard] at hS
    unfold wterm
    rw [if_neg, keep_zero]
    intro h
    rw [sub_iff, vecs_wordOf, vecs_bit, Finset.subset_singleton_iff] at h
    rcases h with rfl | h
    · simp at hS
    · exact hne h
  · intro h
    exfalso; apply h
    rw [Finset.mem_powersetCard, Finset.singleton_subset_iff, mem_vecs, getLsbD_full n c c.2]
    simpa using hc

end GATL
