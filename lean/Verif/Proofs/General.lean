import Verif.Proofs.Wick
import Verif.Proofs.Grades
import Verif.Model.General

/-! Helper lemmas: the general-metric mapping computes the expansion `wick`. -/

namespace GATL
open Spec

variable {K : Type*} [CommRing K]

/-- the increasing list of the basis vectors of a blade -/
abbrev sl (b : Word) : List (Fin 64) := (vecs b).sort (· ≤ ·)

theorem sl_length (b : Word) : (sl b).length = ones b := by
  rw [Finset.length_sort, ← gradeOf_eq]; rfl

theorem sl_low {b : Word} {i : Fin 64} (hi : b.getLsbD i = true)
    (hlow : ∀ j < i.val, b.getLsbD j = false) : sl b = i :: sl (b ^^^ bit i) := vecs_low hi hlow

theorem xor_bit_self (b : Word) (i : Fin 64) : (b ^^^ bit i) ^^^ bit i = b := by
  rw [BitVec.xor_assoc, BitVec.xor_self, BitVec.xor_zero]

/-- `indirect_element_bitset` -/
theorem indirectElement_eq : ∀ (j : Nat) (b : Word), j < (sl b).length →
    indirectElement b j = bit ((sl b).getD j 0) ∧ b.getLsbD ((sl b).getD j 0) = true ∧
      sl (b ^^^ bit ((sl b).getD j 0)) = (sl b).eraseIdx j := by
  intro j
  induction j with
  | zero =>
    intro b hj
    have hne : b ≠ 0 := by
      rintro rfl
      rw [sl_length, ones_zero] at hj; omega
    obtain ⟨i, hi, hlow⟩ := exists_low hne
    rw [sl_low hi hlow]
    refine ⟨?_, hi, ?_⟩
    · unfold indirectElement rightOne; exact and_neg_bit hi hlow
    · simp
  | succ j ih =>
    intro b hj
    have hne : b ≠ 0 := by
      rintro rfl
      rw [sl_length, ones_zero] at hj; omega
    obtain ⟨i, hi, hlow⟩ := exists_low hne
    have hsl := sl_low hi hlow
    rw [hsl] at hj
    obtain ⟨h1, h2, h3⟩ := ih (b ^^^ bit i) (by simpa using hj)
    have hget : (sl b).getD (j + 1) 0 = (sl (b ^^^ bit i)).getD j 0 := by rw [hsl]; simp
    rw [hget]
    generalize hk : (sl (b ^^^ bit i)).getD j 0 = k at *
    have hki : ¬ k.val ≤ i.val := by
      intro h
      have := low_rest hi hlow k.val h
      rw [this] at h2; exact absurd h2 (by simp)
    have hkb : b.getLsbD k = true := by
      rw [bit_xor_low hi k k.2, Bool.and_eq_true] at h2; exact h2.1
    refine ⟨?_, hkb, ?_⟩
    · unfold indirectElement rightOne
      rw [and_neg_bit hi hlow]; exact h1
    · have := sl_low (b := b ^^^ bit k) (i := i)
        (by rw [BitVec.getLsbD_xor, hi, getLsbD_bit k i k.2]
            have : ¬ (i.val = k.val) := by omega
            simp [this])
        (by intro m hm
            rw [BitVec.getLsbD_xor, hlow m hm, getLsbD_bit k m k.2]
            simp; omega)
      rw [this, hsl, List.eraseIdx_cons_succ, ← h3]
      congr 2
      rw [BitVec.xor_assoc, BitVec.xor_assoc, BitVec.xor_comm (bit k)]

theorem metricIndex_bit (i : Fin 64) : metricIndex (bit i) = i.val + 1 := by
  unfold metricIndex
  rw [bit_sub_one i.val i.2, vecs_full i.val (by omega), Nat.add_comm]

theorem colSum_eq (t : Nat → K) (n : Nat) : colSum t n = ∑ j ∈ Finset.range n, t (j + 1) := by
  induction n with
  | zero => simp [colSum]
  | succ n ih =>
    cases n with
    | zero => simp [colSum]
    | succ n => rw [Finset.sum_range_succ, ← ih]; rfl

/-- metric entries by 0-based indices -/
def ent (entry : Nat → Nat → K) (x c : Fin 64) : K := entry (x.val + 1) (c.val + 1)

/-- expansion along the first row, for every order -/
theorem det_succ (entry : Nat → Nat → K) (N : Nat) {rows cols : Word} {i : Fin 64}
    (hi : rows.getLsbD i = true) (hlow : ∀ j < i.val, rows.getLsbD j = false)
    (hr : ones rows = N + 1) (hc : ones cols = N + 1) :
    determinant entry (N + 1) rows cols
      = ∑ j ∈ Finset.range (N + 1), (-1 : K) ^ j * ent entry i ((sl cols).getD j 0)
          * determinant entry N (rows ^^^ bit i) (cols ^^^ bit ((sl cols).getD j 0)) := by
  have hlen : (sl cols).length = N + 1 := by rw [sl_length, hc]
  have hro : rightOne rows = bit i := and_neg_bit hi hlow
  match N with
  | 0 =>
    have hrow : rows = bit i := by
      obtain ⟨k, rfl⟩ := ones_eq_one hr
      rw [getLsbD_bit k i k.2] at hi
      have : i = k := Fin.ext (by simpa using hi)
      rw [this]
    obtain ⟨h1, h2, -⟩ := indirectElement_eq 0 cols (by omega)
    have hcol : cols = bit ((sl cols).getD 0 0) := by
      obtain ⟨k, hk⟩ := ones_eq_one hc
      rw [hk, getLsbD_bit k _ k.2] at h2
      have : (sl cols).getD 0 0 = k := by
        have := (decide_eq_true_eq.mp h2)
        rw [← hk] at this
        exact Fin.ext this
      rw [this]; exact hk
    unfold determinant
    rw [Finset.sum_range_one]
    conv_lhs => rw [hcol, hrow]
    rw [metricIndex_bit, metricIndex_bit, pow_zero, one_mul, mul_one]; rfl
  | 1 =>
    obtain ⟨h1, h2, h3⟩ := indirectElement_eq 0 cols (by omega)
    obtain ⟨h4, h5, h6⟩ := indirectElement_eq 1 cols (by omega)
    have hrest := ones_bit_xor hi
    obtain ⟨i2, hi2⟩ := ones_eq_one (b := rows ^^^ bit i) (by rw [BitVec.xor_comm]; omega)
    have hc2 : cols ^^^ bit ((sl cols).getD 0 0) = bit ((sl cols).getD 1 0) := by
      have hone := ones_bit_xor h2
      obtain ⟨k, hk⟩ := ones_eq_one (b := cols ^^^ bit ((sl cols).getD 0 0))
        (by rw [BitVec.xor_comm]; omega)
      have : indirectElement cols 1 = rightOne (bit k) := by
        unfold indirectElement
        have : rightOne cols = bit ((sl cols).getD 0 0) := h1
        rw [this, hk]; rfl
      rw [hk, ← h4, this]
      unfold rightOne
      rw [and_neg_bit (i := k) (by rw [getLsbD_bit k k k.2]; simp)
        (by intro j hj; rw [getLsbD_bit k j k.2]; simp; omega)]
    have hc1 : cols ^^^ bit ((sl cols).getD 1 0) = bit ((sl cols).getD 0 0) := by
      rw [← hc2, ← BitVec.xor_assoc, BitVec.xor_self, BitVec.zero_xor]
    unfold determinant
    have hrc : rightOne cols = bit ((sl cols).getD 0 0) := h1
    simp only [hro, hrc, hc2, hi2, Finset.sum_range_succ, Finset.sum_range_zero, metricIndex_bit, hc1,
      determinant]
    unfold ent
    ring
  | n + 2 =>
    conv_lhs => unfold determinant
    simp only []
    rw [colSum_eq]
    refine Finset.sum_congr rfl fun j hj => ?_
    obtain ⟨h1, -, -⟩ := indirectElement_eq j cols (by rw [hlen]; exact Finset.mem_range.mp hj)
    rw [Nat.add_sub_cancel, h1, hro, metricIndex_bit, metricIndex_bit]
    have hs : (if j + 1 = 1 then (1 : K) else if (j + 1) % 2 = 0 then -1 else 1) = (-1) ^ j := by
      rcases Nat.even_or_odd j with he | ho
      · rw [he.neg_one_pow]
        obtain ⟨m, rfl⟩ := he
        split
        · rfl
        · rw [if_neg (by omega)]
      · rw [ho.neg_one_pow]
        obtain ⟨m, rfl⟩ := ho
        rw [if_neg (by omega), if_pos (by omega)]
    rw [hs]; rfl

theorem lc_ev_mvec (M : Fin 64 → Fin 64 → K) (i c : Fin 64) :
    lc (ev i) (mvec M c) = scalar (M i c) := by
  unfold mvec
  rw [lc_sum_right, Finset.sum_eq_single i]
  · have : lc (ev i) (M i c • ev i) = M i c • lc (ev i) (ev i : MV K) := prod_smul_right _ _ _ _ _
    rw [this, lc_ev_ev, if_pos rfl]
    unfold scalar
    rw [Finsupp.smul_single, smul_eq_mul, mul_one]
  · intro x _ hx
    have : lc (ev i) (M x c • ev x) = M x c • lc (ev i) (ev x : MV K) := prod_smul_right _ _ _ _ _
    rw [this, lc_ev_ev, if_neg (Ne.symm hx)]
    simp [scalar]
  · simp

/-- contraction of an outer product of vectors -/
theorem lc_lamL (M : Fin 64 → Fin 64 → K) (i : Fin 64) (l : List (Fin 64)) :
    lc (ev i) (lamL M l)
      = ∑ j ∈ Finset.range l.length, ((-1 : K) ^ j * M i (l.getD j 0)) • lamL M (l.eraseIdx j) := by
  induction l with
  | nil =>
    rw [List.length_nil, Finset.sum_range_zero]
    exact lcont_one _ (homog_bit i)
  | cons c t ih =>
    have hd : lc (ev i) (op (mvec M c) (lamL M t))
        = M i c • lamL M t - op (mvec M c) (lc (ev i) (lamL M t)) := by
      unfold lc
      rw [lcont_derivation _ (homog_bit i) (mvec_homog M c)]
      have h : orthProd (diagFactor fun _ => (1 : K)) .lcont (ev i) (mvec M c) = scalar (M i c) :=
        lc_ev_mvec M i c
      rw [h, op_scalar_left, pow_one, neg_one_smul, sub_eq_add_neg]
    show lc (ev i) (op (mvec M c) (lamL M t)) = _
    rw [hd, ih, List.length_cons, Finset.sum_range_succ', op_sum_right, sub_eq_add_neg, add_comm,
      ← Finset.sum_neg_distrib]
    refine congrArg₂ (· + ·) (Finset.sum_congr rfl fun j _ => ?_) ?_
    · rw [op_smul_right, List.getD_cons_succ, List.eraseIdx_cons_succ, ← neg_smul]
      show _ = ((-1 : K) ^ (j + 1) * _) • op (mvec M c) (lamL M (t.eraseIdx j))
      congr 1
      rw [pow_succ]; ring
    · simp

/-- coefficient of a blade through contraction by its lowest vector -/
theorem coeff_low (Y : MV K) {X : Word} {i : Fin 64} (hi : X.getLsbD i = true)
    (hlow : ∀ j < i.val, X.getLsbD j = false) : Y X = lc (ev i) Y (X ^^^ bit i) := by
  classical
  induction Y using mv_induction with
  | h0 =>
    have : lc (ev i) (0 : MV K) = 0 := prod_zero_right _ _ _
    rw [this]; rfl
  | hadd A B hA hB =>
    have : lc (ev i) (A + B) = lc (ev i) A + lc (ev i) B := prod_add_right _ _ _ _ _
    rw [this, Finsupp.add_apply, Finsupp.add_apply, hA, hB]
  | hs b a =>
    rw [lc_single]
    by_cases h : b = X
    · subst h
      rw [Finsupp.single_eq_same, BitVec.xor_comm (bit i), Finsupp.single_eq_same,
        if_pos ((bit_and_eq i b).mpr hi), par_bit_low hlow, sg_zero]
      ring
    · rw [Finsupp.single_eq_of_ne (Ne.symm h), Finsupp.single_eq_of_ne]
      intro h'
      apply h
      rw [← xor_bit_self b i, ← xor_bit_self X i, h', BitVec.xor_comm (bit i)]

/-- the determinants are the coordinates of the outer products of the contraction vectors -/
theorem det_eq (entry : Nat → Nat → K) : ∀ (N : Nat) (rows cols : Word), ones rows = N →
    ones cols = N → determinant entry N rows cols = lam (ent entry) cols rows := by
  intro N
  induction N with
  | zero =>
    intro rows cols hr hc
    rw [ones_eq_zero] at hr hc
    subst hr hc
    rw [lam_zero]
    unfold determinant scalar
    rw [Finsupp.single_eq_same]
  | succ N ih =>
    intro rows cols hr hc
    have hne : rows ≠ 0 := by rintro rfl; rw [ones_zero] at hr; omega
    obtain ⟨i, hi, hlow⟩ := exists_low hne
    have hlen : (sl cols).length = N + 1 := by rw [sl_length, hc]
    have hrest : ones (rows ^^^ bit i) = N := by
      have := ones_bit_xor hi; rw [BitVec.xor_comm] at this; omega
    rw [det_succ entry N hi hlow hr hc, coeff_low _ hi hlow]
    unfold lam
    rw [lc_lamL, hlen, Finsupp.finset_sum_apply]
    refine Finset.sum_congr rfl fun j hj => ?_
    obtain ⟨-, h2, h3⟩ := indirectElement_eq j cols (by rw [hlen]; exact Finset.mem_range.mp hj)
    have hcrest : ones (cols ^^^ bit ((sl cols).getD j 0)) = N := by
      have := ones_bit_xor h2; rw [BitVec.xor_comm] at this; omega
    rw [ih _ _ hrest hcrest, Finsupp.smul_apply, smul_eq_mul]
    unfold lam
    unfold sl at h3 ⊢
    rw [h3]

/-- contraction by a homogeneous multivector, in coordinates -/
theorem lc_expand {k : Nat} {Y : MV K} (hY : Homogeneous k Y) (B : Word) :
    lc Y (Finsupp.single B 1)
      = ∑ S ∈ (vecs B).powersetCard k,
          Finsupp.single (B ^^^ wordOf S) (Y (wordOf S) * sg K (par (wordOf S) B)) := by
  classical
  refine homog_induction (p := fun Y => lc Y (Finsupp.single B 1)
      = ∑ S ∈ (vecs B).powersetCard k,
          Finsupp.single (B ^^^ wordOf S) (Y (wordOf S) * sg K (par (wordOf S) B))) hY ?_ ?_ ?_
  · simp [lc, prod_zero_left]
  · intro A A' h h'
    have : lc (A + A') (Finsupp.single B 1) = lc A (Finsupp.single B 1) + lc A' (Finsupp.single B 1) :=
      prod_add_left _ _ _ _ _
    rw [this, h, h', ← Finset.sum_add_distrib]
    refine Finset.sum_congr rfl fun S _ => ?_
    rw [← Finsupp.single_add, Finsupp.add_apply, add_mul]
  · intro b a hb
    rw [lc_single]
    have hsub : b &&& B = b ↔ vecs b ⊆ vecs B := by
      constructor
      · intro h i hi
        rw [mem_vecs] at hi ⊢
        have := word_bit h i
        rw [BitVec.getLsbD_and, hi] at this
        simpa using this
      · intro h
        apply word_ext
        intro i hi
        rw [BitVec.getLsbD_and]
        cases hbi : b.getLsbD i
        · rfl
        · have := h (mem_vecs.mpr (show b.getLsbD (⟨i, hi⟩ : Fin 64) = true from hbi))
          rw [mem_vecs] at this
          simpa using this
    by_cases hd : b &&& B = b
    · rw [if_pos hd, Finset.sum_eq_single (vecs b)]
      · rw [wordOf_vecs, Finsupp.single_eq_same, BitVec.xor_comm, mul_one]
      · intro S _ hS
        rw [Finsupp.single_eq_of_ne, zero_mul, Finsupp.single_zero]
        rintro rfl
        exact hS (vecs_wordOf S).symm
      · intro h
        exfalso
        apply h
        rw [Finset.mem_powersetCard]
        exact ⟨hsub.mp hd, by rw [← hb, ← gradeOf_eq]; rfl⟩
    · rw [if_neg hd, mul_zero, Finsupp.single_zero, Finset.sum_eq_zero]
      intro S hS
      rw [Finset.mem_powersetCard] at hS
      rw [Finsupp.single_eq_of_ne, zero_mul, Finsupp.single_zero]
      rintro rfl
      apply hd
      rw [hsub, vecs_wordOf]
      exact hS.1

/-- `a ⊆ b` for blades -/
theorem sub_iff {a b : Word} : a &&& b = a ↔ vecs a ⊆ vecs b := by
  constructor
  · intro h i hi
    rw [mem_vecs] at hi ⊢
    have := word_bit h i
    rw [BitVec.getLsbD_and, hi] at this
    simpa using this
  · intro h
    apply word_ext
    intro i hi
    rw [BitVec.getLsbD_and]
    cases hbi : a.getLsbD i
    · rfl
    · have := h (mem_vecs.mpr (show a.getLsbD (⟨i, hi⟩ : Fin 64) = true from hbi))
      rw [mem_vecs] at this
      simpa using this

/-- number of basis vectors of even 0-based index -/
theorem par_full (n : Nat) (hn : n ≤ 64) {C : Word} (hC : InSpace n C) :
    par C (full n) + (ones (C &&& 0x5555555555555555#64) : ZMod 2) = (ones C : ZMod 2) := by
  rw [← gr_eq, ← gr_eq]
  unfold par gr
  rw [← Finset.sum_add_distrib]
  refine Finset.sum_congr rfl fun i hi => ?_
  have hi64 : i < 64 := Finset.mem_range.mp hi
  have h1 : (∑ j ∈ Finset.range 64, if j < i then bz C i * bz (full n) j else 0)
      = bz C i * (i : ZMod 2) := by
    cases hb : C.getLsbD i
    · have : bz C i = 0 := by unfold bz; rw [hb]; rfl
      simp [this]
    · have hin : i < n := hC ⟨i, hi64⟩ hb
      have : bz C i = 1 := by unfold bz; rw [hb]; rfl
      rw [this, one_mul]
      have e : ∀ j ∈ Finset.range 64, (if j < i then (1 : ZMod 2) * bz (full n) j else 0)
          = if j < i then 1 else 0 := by
        intro j hj
        split
        · have : bz (full n) j = 1 := by
            unfold bz; rw [getLsbD_full n j (Finset.mem_range.mp hj)]
            simp; omega
          rw [this, one_mul]
        · rfl
      rw [Finset.sum_congr rfl e, ← Finset.sum_filter, Finset.sum_const, nsmul_eq_mul, mul_one]
      congr 1
      have : (Finset.range 64).filter (fun j => j < i) = Finset.range i := by
        ext j; simp only [Finset.mem_filter, Finset.mem_range]; omega
      rw [this, Finset.card_range]
  rw [h1, bz_and]
  have h2 : bz (0x5555555555555555#64) i = (i : ZMod 2) + 1 := by
    have key : ∀ i : Fin 64, bz (0x5555555555555555#64) i.val = (i.val : ZMod 2) + 1 := by
      decide +kernel
    exact key ⟨i, hi64⟩
  rw [h2]
  generalize bz C i = x
  generalize (i : ZMod 2) = y
  revert x y; decide

end GATL
