import Verif.Proofs.Involutions

/-! Helper lemmas: the regressive product. -/

namespace GATL
open Spec

variable {K : Type*} [CommRing K]

/-- blade of all basis vectors -/
def full (n : Nat) : Word := BitVec.ofNat 64 (2 ^ n - 1)

theorem getLsbD_full (n i : Nat) (hi : i < 64) : (full n).getLsbD i = decide (i < n) := by
  unfold full
  rw [BitVec.getLsbD_ofNat, Nat.testBit_two_pow_sub_one]
  simp [hi]

/-- the blade lies in the `n`-dimensional space -/
def InSpace (n : Nat) (b : Word) : Prop := ∀ i : Fin 64, b.getLsbD i = true → i.val < n

theorem inSpace_and {n : Nat} {b : Word} (h : InSpace n b) : b &&& full n = b := by
  apply word_ext; intro i hi
  rw [BitVec.getLsbD_and, getLsbD_full n i hi]
  cases hb : b.getLsbD i
  · rfl
  · simpa using h ⟨i, hi⟩ hb

theorem inSpace_iff {n : Nat} {b : Word} : InSpace n b ↔ b &&& full n = b := by
  refine ⟨inSpace_and, fun h i hi => ?_⟩
  have := word_bit h i
  rw [BitVec.getLsbD_and, getLsbD_full n i i.2, hi] at this
  simpa using this

theorem inSpace_full (n : Nat) : InSpace n (full n) := inSpace_iff.mpr (BitVec.and_self)

theorem inSpace_xor {n : Nat} {l r : Word} (hl : InSpace n l) (hr : InSpace n r) :
    InSpace n (l ^^^ r) := by
  intro i hi
  rw [BitVec.getLsbD_xor] at hi
  cases h1 : l.getLsbD i
  · cases h2 : r.getLsbD i
    · rw [h1, h2] at hi; exact absurd hi (by simp)
    · exact hr i h2
  · exact hl i h1

theorem inSpace_and' {n : Nat} {l r : Word} (hl : InSpace n l) :
    InSpace n (l &&& r) := by
  intro i hi
  rw [BitVec.getLsbD_and, Bool.and_eq_true] at hi
  exact hl i hi.1

theorem inSpace_or {n : Nat} {l r : Word} (hl : InSpace n l) (hr : InSpace n r) :
    InSpace n (l ||| r) := by
  intro i hi
  rw [BitVec.getLsbD_or, Bool.or_eq_true] at hi
  exact hi.elim (hl i) (hr i)

theorem vecs_full (n : Nat) (hn : n ≤ 64) : ones (full n) = n := by
  rw [ones_eq_sum]
  have : ∀ i ∈ Finset.range 64, bn (full n) i = if i < n then 1 else 0 := by
    intro i hi
    unfold bn
    rw [getLsbD_full n i (Finset.mem_range.mp hi)]
    by_cases h : i < n <;> simp [h]
  rw [Finset.sum_congr rfl this, ← Finset.sum_filter]
  have : (Finset.range 64).filter (fun i => i < n) = Finset.range n := by
    ext i; simp only [Finset.mem_filter, Finset.mem_range]; omega
  rw [this]; simp

theorem complement_single (n : Nat) (b : Word) (a : K) :
    complement n (Finsupp.single b a : MV K)
      = Finsupp.single (full n ^^^ b) (a * sg K (par b (full n ^^^ b))) := by
  unfold complement
  rw [Finsupp.linearCombination_single, Finsupp.smul_single, smul_eq_mul]
  change Finsupp.single (full n ^^^ b) (a * (-1) ^ (inversions (vecs b) (vecs (full n ^^^ b))).card) = _
  rw [← strictInv_eq_card, ← sg_natCast, ← par_eq]

theorem op_complement (n : Nat) {b : Word} (h : InSpace n b) :
    op (Finsupp.single b (1 : K)) (complement n (Finsupp.single b 1)) = Finsupp.single (full n) 1 := by
  have hd : b &&& (full n ^^^ b) = 0 := by
    apply word_ext; intro i _
    have := word_bit (inSpace_and h) i
    simp only [BitVec.getLsbD_and, BitVec.getLsbD_xor] at *
    revert this
    cases b.getLsbD i <;> cases (full n).getLsbD i <;> simp
  rw [complement_single, op_single', if_pos hd]
  have : b ^^^ (full n ^^^ b) = full n := by
    apply word_ext; intro i _
    simp only [BitVec.getLsbD_xor]
    cases b.getLsbD i <;> cases (full n).getLsbD i <;> simp
  rw [this]
  congr 1
  linear_combination sg_mul_self (K := K) (par b (full n ^^^ b))

/-- inverse of the complement -/
noncomputable def complementInv (n : Nat) : MV K →ₗ[K] MV K :=
  Finsupp.linearCombination K fun b =>
    Finsupp.single (full n ^^^ b) (sg K (par (full n ^^^ b) b))

theorem xor_xor_cancel (x b : Word) : x ^^^ (x ^^^ b) = b := by
  apply word_ext; intro i _
  simp only [BitVec.getLsbD_xor]
  cases b.getLsbD i <;> cases x.getLsbD i <;> simp

theorem complementInv_complement (n : Nat) (A : MV K) : complementInv n (complement n A) = A := by
  induction A using mv_induction with
  | h0 => simp
  | hadd A B hA hB => rw [map_add, map_add, hA, hB]
  | hs b a =>
    rw [complement_single]
    unfold complementInv
    rw [Finsupp.linearCombination_single, Finsupp.smul_single, smul_eq_mul, xor_xor_cancel,
      mul_assoc, sg_mul_self, mul_one]

theorem complement_complementInv (n : Nat) (A : MV K) : complement n (complementInv n A) = A := by
  induction A using mv_induction with
  | h0 => simp
  | hadd A B hA hB => rw [map_add, map_add, hA, hB]
  | hs b a =>
    unfold complementInv
    rw [Finsupp.linearCombination_single, Finsupp.smul_single, smul_eq_mul, complement_single,
      xor_xor_cancel, mul_assoc, sg_mul_self, mul_one]

theorem complement_mem (n : Nat) {A : MV K} (hA : A ∈ space K n) : complement n A ∈ space K n := by
  refine space_eq_sum (p := fun A => complement n A ∈ space K n) hA (by simp) ?_ ?_
  · intro A B h h'; rw [map_add]; exact Submodule.add_mem _ h h'
  · intro b a hb
    rw [complement_single]
    exact single_mem_space _ (inSpace_xor (inSpace_full n) hb)

theorem rp_single (n : Nat) (l r : Word) (a b : K) :
    rp n (Finsupp.single l a) (Finsupp.single r b)
      = Finsupp.single (l &&& r)
        (a * b * if ones (l ||| r) = n then sg K (par (l ^^^ (l &&& r)) (r ^^^ (l &&& r))) else 0) := by
  unfold rp
  rw [bilin_single]
  unfold regMul
  dsimp only
  have h := ones_or_add_and l r
  have : ((ones l : Int) + ones r + -1 * ones (l &&& r) = n) ↔ ones (l ||| r) = n := by omega
  congr 1
  by_cases hc : ones (l ||| r) = n
  · rw [if_pos (this.mpr hc), if_pos hc, reorderingSign_cast]
  · rw [if_neg (fun h' => hc (this.mp h')), if_neg hc]; simp

/-- the complement turns the regressive product into the outer product -/
theorem complement_rp (n : Nat) (hn : n ≤ 64) {A B : MV K} (hA : A ∈ space K n)
    (hB : B ∈ space K n) : complement n (rp n A B) = op (complement n A) (complement n B) := by
  have h0l : ∀ B : MV K, rp n 0 B = 0 := by intro B; simp [rp]
  have h0r : ∀ B : MV K, rp n B 0 = 0 := by intro B; simp [rp]
  have hal : ∀ A B C : MV K, rp n (A + B) C = rp n A C + rp n B C := by intros; simp [rp]
  have har : ∀ A B C : MV K, rp n A (B + C) = rp n A B + rp n A C := by intros; simp [rp]
  refine space_eq_sum (p := fun A => complement n (rp n A B) = op (complement n A) (complement n B))
    hA ?_ ?_ ?_
  · rw [h0l, map_zero, op_zero_left]
  · intro A A' h h'; rw [hal, map_add, map_add, h, h', op_add_left]
  intro l a hl
  refine space_eq_sum (p := fun B => complement n (rp n (Finsupp.single l a) B)
    = op (complement n (Finsupp.single l a)) (complement n B)) hB ?_ ?_ ?_
  · rw [h0r, map_zero, op_zero_right]
  · intro A A' h h'; rw [har, map_add, map_add, h, h', op_add_right]
  intro r b hr
  have hl' := inSpace_and hl
  have hr' := inSpace_and hr
  rw [rp_single, complement_single, complement_single, complement_single, op_single']
  -- spanning condition
  have hspan : ones (l ||| r) = n ↔ (full n ^^^ l) &&& (full n ^^^ r) = 0 := by
    constructor
    · intro h
      have : l ||| r = full n :=
        ones_mono_eq (inSpace_and (inSpace_or hl hr)) (by rw [h, vecs_full n hn])
      apply word_ext; intro i _
      have := word_bit this i
      simp only [BitVec.getLsbD_and, BitVec.getLsbD_xor, BitVec.getLsbD_or] at *
      revert this
      cases l.getLsbD i <;> cases r.getLsbD i <;> cases (full n).getLsbD i <;> simp
    · intro h
      have : l ||| r = full n := by
        apply word_ext; intro i _
        have h1 := word_bit h i; have h2 := word_bit hl' i; have h3 := word_bit hr' i
        simp only [BitVec.getLsbD_and, BitVec.getLsbD_xor, BitVec.getLsbD_or] at *
        revert h1 h2 h3
        cases l.getLsbD i <;> cases r.getLsbD i <;> cases (full n).getLsbD i <;> simp
      rw [this, vecs_full n hn]
  by_cases hs : ones (l ||| r) = n
  · rw [if_pos hs, if_pos (hspan.mp hs)]
    have hd := hspan.mp hs
    -- L = L' + C, R = C + R', complements R' and L'
    have e1 : l ^^^ (l &&& r) = full n ^^^ r := by
      apply word_ext; intro i _
      have h1 := word_bit hd i; have h2 := word_bit hl' i; have h3 := word_bit hr' i
      simp only [BitVec.getLsbD_and, BitVec.getLsbD_xor] at *
      revert h1 h2 h3
      cases l.getLsbD i <;> cases r.getLsbD i <;> cases (full n).getLsbD i <;> simp
    have e2 : r ^^^ (l &&& r) = full n ^^^ l := by
      apply word_ext; intro i _
      have h1 := word_bit hd i; have h2 := word_bit hl' i; have h3 := word_bit hr' i
      simp only [BitVec.getLsbD_and, BitVec.getLsbD_xor] at *
      revert h1 h2 h3
      cases l.getLsbD i <;> cases r.getLsbD i <;> cases (full n).getLsbD i <;> simp
    have e3 : full n ^^^ (l &&& r) = (full n ^^^ l) ^^^ (full n ^^^ r) := by
      apply word_ext; intro i _
      have h1 := word_bit hd i; have h2 := word_bit hl' i; have h3 := word_bit hr' i
      simp only [BitVec.getLsbD_and, BitVec.getLsbD_xor] at *
      revert h1 h2 h3
      cases l.getLsbD i <;> cases r.getLsbD i <;> cases (full n).getLsbD i <;> simp
    have el : l = (full n ^^^ r) ^^^ (l &&& r) := by
      rw [← e1]; apply word_ext; intro i _
      simp only [BitVec.getLsbD_and, BitVec.getLsbD_xor]
      cases l.getLsbD i <;> cases r.getLsbD i <;> simp
    have er : r = (full n ^^^ l) ^^^ (l &&& r) := by
      rw [← e2]; apply word_ext; intro i _
      simp only [BitVec.getLsbD_and, BitVec.getLsbD_xor]
      cases l.getLsbD i <;> cases r.getLsbD i <;> simp
    rw [e1, e2, e3]
    congr 1
    have p1 : par l (full n ^^^ l) = par (full n ^^^ r) (full n ^^^ l) + par (l &&& r) (full n ^^^ l) := by
      conv_lhs => arg 1; rw [el]
      rw [par_xor_left]
    have p2 : par r (full n ^^^ r) = par (full n ^^^ l) (full n ^^^ r) + par (l &&& r) (full n ^^^ r) := by
      conv_lhs => arg 1; rw [er]
      rw [par_xor_left]
    rw [p1, p2, par_xor_right (full n ^^^ l) (full n ^^^ r) (l &&& r)]
    simp only [sg_add]
    have h1 := sg_mul_self (K := K) (par (full n ^^^ l) (full n ^^^ r))
    linear_combination (-(a * b * sg K (par (full n ^^^ r) (full n ^^^ l))
      * sg K (par (l &&& r) (full n ^^^ l)) * sg K (par (l &&& r) (full n ^^^ r)))) * h1
  · rw [if_neg hs, if_neg (fun h => hs (hspan.mpr h))]; simp

theorem rp_mem (n : Nat) {A B : MV K} (hA : A ∈ space K n) (hB : B ∈ space K n) :
    rp n A B ∈ space K n := by
  refine bilin_mem_space _ ?_ hA hB
  intro l r hl _ i hi
  exact inSpace_and' hl i hi

theorem complement_inj (n : Nat) {A B : MV K} (h : complement n A = complement n B) : A = B := by
  rw [← complementInv_complement n A, h, complementInv_complement]

theorem complement_full (n : Nat) : complement n (Finsupp.single (full n) (1 : K)) = scalar 1 := by
  rw [complement_single, BitVec.xor_self]
  unfold scalar
  have : par (full n) 0#64 = 0 := par_zero_right _
  rw [this, sg_zero, mul_one]; rfl

end GATL
