import Verif.Proofs.Homog

/-! Helper lemmas: identities between the products, reversion and involutions. -/

namespace GATL
open Spec

variable {K : Type*} [CommRing K]

/-! ### grade parts -/

theorem orthMul_gradePart (f : Word → K) (g : GradedProduct) {r s : Nat} {A B : MV K}
    (hA : Homogeneous r A) (hB : Homogeneous s B) (k : Int)
    (h : ∀ t : Nat, areValidGrades g r s t = true ↔ (t : Int) = k) :
    orthProd f g A B = gradePart k (orthProd f .gp A B) := by
  refine bilin_gradePart hA hB _ _ k fun L R hL hR => ?_
  unfold orthMul
  rw [hL, hR]
  have := h (ones (L ^^^ R))
  by_cases hv : (ones (L ^^^ R) : Int) = k
  · rw [if_pos (this.mpr hv)]
    dsimp only
    rw [if_pos hv]
    simp [areValidGrades]
  · rw [if_neg (fun h' => hv (this.mp h'))]
    dsimp only
    rw [if_neg hv, Finsupp.single_zero]

theorem op_gradePart (f : Word → K) (hf : f 0 = 1) {r s : Nat} {A B : MV K}
    (hA : Homogeneous r A) (hB : Homogeneous s B) :
    op A B = gradePart ((r + s : Nat) : Int) (orthProd f .gp A B) := by
  refine bilin_gradePart hA hB _ _ _ fun L R hL hR => ?_
  dsimp only
  rw [ext_form, extMul_snd, orthMul_gp]
  dsimp only
  have h1 := ones_xor_add_two_and L R
  have hiff : ((ones (L ^^^ R) : Int) = ((r + s : Nat) : Int)) ↔ L &&& R = 0 := by
    rw [← ones_eq_zero, Int.natCast_inj]; omega
  by_cases hd : L &&& R = 0
  · rw [if_pos hd, if_pos (hiff.mpr hd), or_eq_xor hd, hd, hf, mul_one]
  · rw [if_neg hd, if_neg (fun h => hd (hiff.mp h)), Finsupp.single_zero]

theorem sum_gradePart (A : MV K) : ∑ k ∈ Finset.range 65, gradePart (k : Int) A = A := by
  induction A using mv_induction with
  | h0 => simp [gradePart_zero]
  | hadd A B hA hB => simp only [gradePart_add, Finset.sum_add_distrib, hA, hB]
  | hs b a =>
    rw [Finset.sum_eq_single (ones b)]
    · rw [gradePart_single, if_pos rfl]
    · intro k _ hk; rw [gradePart_single, if_neg]; rw [Int.natCast_inj]; exact Ne.symm hk
    · intro h; exact absurd (Finset.mem_range.mpr (Nat.lt_succ_of_le (ones_le b))) h

theorem gradePart_homog (k : Nat) (A : MV K) : Homogeneous k (gradePart (k : Int) A) := by
  intro b hb
  unfold gradePart at hb
  rw [← Finsupp.mem_support_iff, Finsupp.support_filter, Finset.mem_filter] at hb
  exact Int.natCast_inj.mp hb.2

theorem bilin_sum_gradePart (m : BladeMul K) (A B : MV K) :
    bilin m A B = ∑ r ∈ Finset.range 65, ∑ s ∈ Finset.range 65,
      bilin m (gradePart (r : Int) A) (gradePart (s : Int) B) := by
  conv_lhs => rw [← sum_gradePart A]
  rw [map_sum, LinearMap.sum_apply]
  refine Finset.sum_congr rfl fun r _ => ?_
  conv_lhs => rw [← sum_gradePart B]
  rw [map_sum]

/-! ### bit identities -/

/-- prove equality of words bit by bit -/
macro "bits" : tactic => `(tactic| (
  apply word_ext; intro i _;
  simp only [BitVec.getLsbD_and, BitVec.getLsbD_or, BitVec.getLsbD_xor];
  (repeat generalize BitVec.getLsbD _ i = x); simp_all))

theorem word_bit {x y : Word} (h : x = y) (i : Nat) : x.getLsbD i = y.getLsbD i := by rw [h]

theorem bit_and_eq (i : Fin 64) (b : Word) : bit i &&& b = bit i ↔ b.getLsbD i = true := by
  constructor
  · intro h
    have := word_bit h i
    rw [BitVec.getLsbD_and, getLsbD_bit _ _ i.2] at this
    simpa using this
  · intro h
    apply word_ext; intro j _
    rw [BitVec.getLsbD_and, getLsbD_bit _ _ i.2]
    by_cases hj : j = i
    · subst hj; simp [h]
    · simp [hj]

theorem bit_and_zero (i : Fin 64) (b : Word) : bit i &&& b = 0 ↔ b.getLsbD i = false := by
  constructor
  · intro h
    have := word_bit h i
    rw [BitVec.getLsbD_and, getLsbD_bit _ _ i.2] at this
    simpa using this
  · intro h
    apply word_ext; intro j _
    rw [BitVec.getLsbD_and, getLsbD_bit _ _ i.2]
    by_cases hj : j = i
    · subst hj; rw [h]; simp
    · simp [hj]

theorem bit_ne_zero (i : Fin 64) : bit i ≠ 0 := by
  intro h
  have := word_bit h i
  rw [getLsbD_bit _ _ i.2] at this
  simp at this

/-! ### singles -/

theorem op_single (l r : Word) (a b : K) :
    op (Finsupp.single l a) (Finsupp.single r b)
      = Finsupp.single (l ||| r) (a * b * if l &&& r = 0 then sg K (par l r) else 0) := by
  unfold op; rw [bilin_single, ext_form, extMul_snd]

theorem op_single' (l r : Word) (a b : K) :
    op (Finsupp.single l a) (Finsupp.single r b)
      = Finsupp.single (l ^^^ r) (a * b * if l &&& r = 0 then sg K (par l r) else 0) := by
  rw [op_single]
  refine single_ext rfl fun h => or_eq_xor ?_
  by_contra h'; rw [if_neg h', mul_zero] at h; exact h rfl

theorem gp_single (f : Word → K) (l r : Word) (a b : K) :
    orthProd f .gp (Finsupp.single l a) (Finsupp.single r b)
      = Finsupp.single (l ^^^ r) (a * b * (sg K (par l r) * f (l &&& r))) := by
  unfold orthProd; rw [bilin_single, orthMul_gp]

theorem lcont_single (f : Word → K) (l r : Word) (a b : K) :
    orthProd f .lcont (Finsupp.single l a) (Finsupp.single r b)
      = Finsupp.single (l ^^^ r) (a * b * if l &&& r = l then sg K (par l r) * f l else 0) := by
  unfold orthProd; rw [bilin_single, lcont_form]

theorem rcont_single (f : Word → K) (l r : Word) (a b : K) :
    orthProd f .rcont (Finsupp.single l a) (Finsupp.single r b)
      = Finsupp.single (l ^^^ r) (a * b * if l &&& r = r then sg K (par l r) * f r else 0) := by
  unfold orthProd; rw [bilin_single, rcont_form]

theorem sp_single (f : Word → K) (l r : Word) (a b : K) :
    orthProd f .sp (Finsupp.single l a) (Finsupp.single r b)
      = Finsupp.single 0 (a * b * if l = r then sg K (par l l) * f l else 0) := by
  unfold orthProd; rw [bilin_single, sp_form]
  refine single_ext rfl fun h => ?_
  rw [xor_eq_zero]
  by_contra h'; rw [if_neg h', mul_zero] at h; exact h rfl

theorem dot_single (f : Word → K) (l r : Word) (a b : K) :
    orthProd f .dot (Finsupp.single l a) (Finsupp.single r b)
      = Finsupp.single (l ^^^ r)
        (a * b * if l &&& r = l ∨ l &&& r = r then sg K (par l r) * f (l &&& r) else 0) := by
  unfold orthProd; rw [bilin_single, dot_form]

/-! additivity of the products, for rewriting -/

theorem op_add_left (A B C : MV K) : op (A + B) C = op A C + op B C := by simp [op]
theorem op_add_right (A B C : MV K) : op A (B + C) = op A B + op A C := by simp [op]
theorem op_zero_left (C : MV K) : op 0 C = 0 := by simp [op]
theorem op_zero_right (C : MV K) : op C 0 = 0 := by simp [op]
theorem op_smul_left (a : K) (A B : MV K) : op (a • A) B = a • op A B := by simp [op]
theorem op_smul_right (a : K) (A B : MV K) : op A (a • B) = a • op A B := by simp [op]

section
variable (f : Word → K) (g : GradedProduct)
theorem prod_add_left (A B C : MV K) :
    orthProd f g (A + B) C = orthProd f g A C + orthProd f g B C := by simp [orthProd]
theorem prod_add_right (A B C : MV K) :
    orthProd f g A (B + C) = orthProd f g A B + orthProd f g A C := by simp [orthProd]
theorem prod_zero_left (C : MV K) : orthProd f g 0 C = 0 := by simp [orthProd]
theorem prod_zero_right (C : MV K) : orthProd f g C 0 = 0 := by simp [orthProd]
theorem prod_smul_left (a : K) (A B : MV K) :
    orthProd f g (a • A) B = a • orthProd f g A B := by simp [orthProd]
theorem prod_smul_right (a : K) (A B : MV K) :
    orthProd f g A (a • B) = a • orthProd f g A B := by simp [orthProd]
theorem prod_neg_left (A B : MV K) :
    orthProd f g (-A) B = - orthProd f g A B := by simp [orthProd]
theorem prod_neg_right (A B : MV K) :
    orthProd f g A (-B) = - orthProd f g A B := by simp [orthProd]
theorem prod_sub_left (A B C : MV K) :
    orthProd f g (A - B) C = orthProd f g A C - orthProd f g B C := by simp [orthProd]
theorem prod_sub_right (A B C : MV K) :
    orthProd f g A (B - C) = orthProd f g A B - orthProd f g A C := by simp [orthProd]
end

/-- two bilinear maps that agree on scaled blades are equal -/
theorem bilinear_ext {F G : MV K → MV K → MV K}
    (hF0 : ∀ B, F 0 B = 0) (hG0 : ∀ B, G 0 B = 0) (hF0' : ∀ A, F A 0 = 0) (hG0' : ∀ A, G A 0 = 0)
    (hF : ∀ A A' B, F (A + A') B = F A B + F A' B) (hG : ∀ A A' B, G (A + A') B = G A B + G A' B)
    (hF' : ∀ A B B', F A (B + B') = F A B + F A B') (hG' : ∀ A B B', G A (B + B') = G A B + G A B')
    (h : ∀ l r a b, F (Finsupp.single l a) (Finsupp.single r b)
      = G (Finsupp.single l a) (Finsupp.single r b)) (A B : MV K) : F A B = G A B := by
  induction A using mv_induction with
  | h0 => rw [hF0, hG0]
  | hadd A A' h1 h2 => rw [hF, hG, h1, h2]
  | hs l a =>
    induction B using mv_induction with
    | h0 => rw [hF0', hG0']
    | hadd B B' h1 h2 => rw [hF', hG', h1, h2]
    | hs r b => exact h l r a b

/-! ### contraction identities -/

theorem diagFactor_or (q : Fin 64 → K) {l r : Word} (h : l &&& r = 0) :
    diagFactor q (l ^^^ r) = diagFactor q l * diagFactor q r := by
  simp only [diagFactor_eq, ← Finset.prod_mul_distrib]
  refine Finset.prod_congr rfl fun i _ => ?_
  have := word_bit h i
  rw [BitVec.getLsbD_and] at this
  rw [BitVec.getLsbD_xor]
  revert this
  cases l.getLsbD i <;> cases r.getLsbD i <;> simp

theorem diagFactor_bit (q : Fin 64 → K) (i : Fin 64) : diagFactor q (bit i) = q i := by
  unfold diagFactor; rw [vecs_bit, Finset.prod_singleton]

theorem gp_vector (q : Fin 64 → K) {a : MV K} (ha : Homogeneous 1 a) (B : MV K) :
    orthProd (diagFactor q) .gp a B = orthProd (diagFactor q) .lcont a B + op a B := by
  refine homog_induction (p := fun a => orthProd (diagFactor q) .gp a B
    = orthProd (diagFactor q) .lcont a B + op a B) ha ?_ ?_ ?_
  · simp only [prod_zero_left, op_zero_left, add_zero]
  · intro A A' h h'; simp only [prod_add_left, op_add_left, h, h']; abel
  · intro l x hl
    obtain ⟨i, rfl⟩ := ones_eq_one hl
    induction B using mv_induction with
    | h0 => simp only [prod_zero_right, op_zero_right, add_zero]
    | hadd A A' h h' => simp only [prod_add_right, op_add_right, h, h']; abel
    | hs b y =>
      rw [gp_single, lcont_single, op_single', ← Finsupp.single_add]
      congr 1
      cases hb : b.getLsbD i
      · have h1 := (bit_and_zero i b).mpr hb
        have h2 : ¬ (bit i &&& b = bit i) := by rw [h1]; exact (bit_ne_zero i).symm
        rw [if_neg h2, if_pos h1, h1, diagFactor_zero, mul_one, mul_zero, zero_add]
      · have h1 := (bit_and_eq i b).mpr hb
        have h2 : ¬ (bit i &&& b = 0) := by rw [h1]; exact bit_ne_zero i
        rw [if_pos h1, if_neg h2, h1, mul_zero, add_zero]

theorem lcont_op (q : Fin 64 → K) (A B C : MV K) :
    orthProd (diagFactor q) .lcont (op A B) C
      = orthProd (diagFactor q) .lcont A (orthProd (diagFactor q) .lcont B C) := by
  unfold orthProd op
  apply bilin_assoc
  intro l r t
  simp only [lcont_form, ext_form, extMul_snd]
  apply single_ext
  · by_cases h : l &&& r = 0
    · rw [if_pos h, or_eq_xor h]
      by_cases hr : r &&& t = r
      · rw [if_pos hr]
        have e : ((l ^^^ r) &&& t = l ^^^ r) ↔ (l &&& (r ^^^ t) = l) := by
          constructor
          · intro h3
            apply word_ext; intro i _
            have h1 := word_bit h i; have h2 := word_bit hr i; have h4 := word_bit h3 i
            simp only [BitVec.getLsbD_and, BitVec.getLsbD_xor] at *
            revert h1 h2 h4
            cases l.getLsbD i <;> cases r.getLsbD i <;> cases t.getLsbD i <;> simp
          · intro h3
            apply word_ext; intro i _
            have h1 := word_bit h i; have h2 := word_bit hr i; have h4 := word_bit h3 i
            simp only [BitVec.getLsbD_and, BitVec.getLsbD_xor] at *
            revert h1 h2 h4
            cases l.getLsbD i <;> cases r.getLsbD i <;> cases t.getLsbD i <;> simp
        by_cases h3 : (l ^^^ r) &&& t = l ^^^ r
        · rw [if_pos h3, if_pos (e.mp h3), par_xor_left, par_xor_right, sg_add, sg_add,
            diagFactor_or q h]
          ring
        · rw [if_neg h3, if_neg (fun h' => h3 (e.mpr h'))]; ring
      · rw [if_neg hr]
        have : ¬ ((l ^^^ r) &&& t = l ^^^ r) := by
          intro h3; apply hr
          apply word_ext; intro i _
          have h1 := word_bit h i; have h4 := word_bit h3 i
          simp only [BitVec.getLsbD_and, BitVec.getLsbD_xor] at *
          revert h1 h4
          cases l.getLsbD i <;> cases r.getLsbD i <;> cases t.getLsbD i <;> simp
        rw [if_neg this]; ring
    · rw [if_neg h, zero_mul]
      by_cases hr : r &&& t = r
      · have : ¬ (l &&& (r ^^^ t) = l) := by
          intro h3; apply h
          apply word_ext; intro i _
          have h1 := word_bit hr i; have h4 := word_bit h3 i
          simp only [BitVec.getLsbD_and, BitVec.getLsbD_xor] at *
          revert h1 h4
          cases l.getLsbD i <;> cases r.getLsbD i <;> cases t.getLsbD i <;> simp
        rw [if_neg this, mul_zero]
      · rw [if_neg hr, zero_mul]
  · intro hne
    have h : l &&& r = 0 := by
      by_contra h'; rw [if_neg h', zero_mul] at hne; exact hne rfl
    rw [or_eq_xor h, BitVec.xor_assoc]

theorem sp_op (q : Fin 64 → K) (A B C : MV K) :
    orthProd (diagFactor q) .sp (op A B) C
      = orthProd (diagFactor q) .sp A (orthProd (diagFactor q) .lcont B C) := by
  unfold orthProd op
  apply bilin_assoc
  intro l r t
  simp only [lcont_form, sp_form, ext_form, extMul_snd]
  apply single_ext
  · by_cases h : l &&& r = 0
    · rw [if_pos h, or_eq_xor h]
      by_cases hr : l ^^^ r = t
      · subst hr
        have h1 : r &&& (l ^^^ r) = r := by
          apply word_ext; intro i _
          have h1 := word_bit h i
          simp only [BitVec.getLsbD_and, BitVec.getLsbD_xor] at *
          revert h1
          cases l.getLsbD i <;> cases r.getLsbD i <;> simp
        have h2 : l = r ^^^ (l ^^^ r) := by
          apply word_ext; intro i _
          simp only [BitVec.getLsbD_xor]
          cases l.getLsbD i <;> cases r.getLsbD i <;> simp
        rw [if_pos rfl, if_pos h1, if_pos h2, par_xor_left, par_xor_right, par_xor_right,
          diagFactor_or q h]
        simp only [sg_add]
        have := sg_mul_self (K := K) (par l r)
        linear_combination (diagFactor q l * diagFactor q r * sg K (par l l) * sg K (par r l)
          * sg K (par r r)) * this
      · rw [if_neg hr, mul_zero]
        by_cases h3 : r &&& t = r
        · rw [if_neg (fun h2 : l = r ^^^ t => hr (by
            rw [h2]
            apply word_ext; intro i _
            simp only [BitVec.getLsbD_xor]
            cases t.getLsbD i <;> cases r.getLsbD i <;> simp)), mul_zero]
        · rw [if_neg h3, zero_mul]
    · rw [if_neg h, zero_mul]
      by_cases hr : r &&& t = r
      · have : ¬ (l = r ^^^ t) := by
          intro h3; apply h
          apply word_ext; intro i _
          have h1 := word_bit hr i; have h4 := word_bit h3 i
          simp only [BitVec.getLsbD_and, BitVec.getLsbD_xor] at *
          revert h1 h4
          cases l.getLsbD i <;> cases r.getLsbD i <;> cases t.getLsbD i <;> simp
        rw [if_neg this, mul_zero]
      · rw [if_neg hr, zero_mul]
  · intro hne
    have h : l &&& r = 0 := by
      by_contra h'; rw [if_neg h', zero_mul] at hne; exact hne rfl
    rw [or_eq_xor h, BitVec.xor_assoc]

theorem gr_bit (i : Fin 64) : gr (bit i) = 1 := by rw [gr_eq, ones_bit]; rfl

theorem gr_zero : gr 0 = 0 := by rw [gr_eq, ones_zero]; rfl

theorem lcont_derivation (q : Fin 64 → K) {a : MV K} (ha : Homogeneous 1 a) {r : Nat} {B : MV K}
    (hB : Homogeneous r B) (C : MV K) :
    orthProd (diagFactor q) .lcont a (op B C)
      = op (orthProd (diagFactor q) .lcont a B) C
        + (-1 : K) ^ r • op B (orthProd (diagFactor q) .lcont a C) := by
  refine homog_induction (p := fun a => orthProd (diagFactor q) .lcont a (op B C)
      = op (orthProd (diagFactor q) .lcont a B) C
        + (-1 : K) ^ r • op B (orthProd (diagFactor q) .lcont a C)) ha ?_ ?_ ?_
  · simp only [prod_zero_left, op_zero_left, op_zero_right, add_zero, smul_zero]
  · intro A A' h h'
    simp only [prod_add_left, op_add_left, op_add_right, h, h', smul_add]; abel
  intro l x hl
  obtain ⟨i, rfl⟩ := ones_eq_one hl
  refine homog_induction (p := fun B => orthProd (diagFactor q) .lcont (Finsupp.single (bit i) x) (op B C)
      = op (orthProd (diagFactor q) .lcont (Finsupp.single (bit i) x) B) C
        + (-1 : K) ^ r • op B (orthProd (diagFactor q) .lcont (Finsupp.single (bit i) x) C)) hB ?_ ?_ ?_
  · simp only [prod_zero_right, op_zero_left, add_zero, smul_zero]
  · intro A A' h h'
    simp only [prod_add_right, op_add_left, h, h', smul_add]; abel
  intro b y hb
  induction C using mv_induction with
  | h0 => simp only [prod_zero_right, op_zero_right, add_zero, smul_zero]
  | hadd A A' h h' => simp only [prod_add_right, op_add_right, h, h', smul_add]; abel
  | hs c z =>
    rw [op_single', lcont_single, lcont_single, op_single', lcont_single, op_single',
      Finsupp.smul_single, smul_eq_mul]
    have e1 : bit i ^^^ (b ^^^ c) = (bit i ^^^ b) ^^^ c := (BitVec.xor_assoc _ _ _).symm
    have e2 : b ^^^ (bit i ^^^ c) = (bit i ^^^ b) ^^^ c := by
      rw [← BitVec.xor_assoc, BitVec.xor_comm b]
    rw [e1, e2, ← Finsupp.single_add]
    congr 1
    have hsw := par_swap (bit i) b
    have hgb : gr b = (r : ZMod 2) := by rw [gr_eq, hb]
    rw [gr_bit, one_mul, hgb] at hsw
    have hi0 : ∀ c : Word, c.getLsbD i = false → ¬ (bit i &&& c = bit i) := by
      intro c hc h; rw [bit_and_eq] at h; rw [hc] at h; exact absurd h (by simp)
    have hx : ∀ u v : Word, u.getLsbD i = v.getLsbD i → (u ^^^ v).getLsbD i = false := by
      intro u v h; rw [BitVec.getLsbD_xor, h]; simp
    cases hbi : b.getLsbD i <;> cases hci : c.getLsbD i
    · rw [if_neg (hi0 _ hbi), if_neg (hi0 _ hci), if_neg (hi0 _ (hx b c (by rw [hbi, hci])))]
      simp
    · have h1 : (bit i &&& (b ^^^ c) = bit i) := by
        rw [bit_and_eq, BitVec.getLsbD_xor, hbi, hci]; rfl
      have h2 : (bit i &&& c = bit i) := by rw [bit_and_eq, hci]
      have h3 : b &&& (bit i ^^^ c) = b &&& c := by
        apply word_ext; intro j _
        simp only [BitVec.getLsbD_and, BitVec.getLsbD_xor, getLsbD_bit _ _ i.2]
        by_cases hj : j = i
        · subst hj; rw [hbi]; rfl
        · simp [hj]
      rw [if_neg (hi0 _ hbi), if_pos h1, if_pos h2, h3]
      rw [(bit_and_zero i b).mpr hbi, gr_zero, add_zero] at hsw
      by_cases hd : b &&& c = 0
      · simp only [if_pos hd]
        rw [par_xor_right, par_xor_right]
        simp only [sg_add]
        have hs2 : sg K (par (bit i) b) * sg K (par b (bit i)) = (-1) ^ r := by
          rw [← sg_add, hsw, sg_natCast]
        have hs3 := sg_mul_self (K := K) (par b (bit i))
        rw [← hs2]
        linear_combination (-1 : K) * (x * y * z * sg K (par b c) * sg K (par (bit i) b)
          * sg K (par (bit i) c) * diagFactor q (bit i)) * hs3
      · simp only [if_neg hd]; simp
    · have h1 : (bit i &&& (b ^^^ c) = bit i) := by
        rw [bit_and_eq, BitVec.getLsbD_xor, hbi, hci]; rfl
      have h2 : (bit i &&& b = bit i) := by rw [bit_and_eq, hbi]
      have h3 : (bit i ^^^ b) &&& c = b &&& c := by
        apply word_ext; intro j _
        simp only [BitVec.getLsbD_and, BitVec.getLsbD_xor, getLsbD_bit _ _ i.2]
        by_cases hj : j = i
        · subst hj; rw [hci]; simp
        · simp [hj]
      rw [if_neg (hi0 _ hci), if_pos h1, if_pos h2, h3]
      by_cases hd : b &&& c = 0
      · simp only [if_pos hd]
        rw [par_xor_right, par_xor_left]
        simp only [sg_add]
        ring
      · simp only [if_neg hd]; simp
    · have hbc : ¬ (b &&& c = 0) := by
        intro h
        have := word_bit h i
        rw [BitVec.getLsbD_and, hbi, hci] at this
        simp at this
      have h2 : (bit i &&& b = bit i) := by rw [bit_and_eq, hbi]
      have h2' : (bit i &&& c = bit i) := by rw [bit_and_eq, hci]
      have h3 : (bit i ^^^ b) &&& c = b &&& (bit i ^^^ c) := by
        apply word_ext; intro j _
        simp only [BitVec.getLsbD_and, BitVec.getLsbD_xor, getLsbD_bit _ _ i.2]
        by_cases hj : j = i
        · subst hj; rw [hci, hbi]; simp
        · simp [hj]
      rw [if_neg hbc, if_pos h2, if_pos h2', h3]
      rw [h2, gr_bit] at hsw
      by_cases hd : b &&& (bit i ^^^ c) = 0
      · simp only [if_pos hd]
        simp only [par_xor_right, par_xor_left]
        simp only [sg_add]
        have hs2 : sg K (par (bit i) b) * sg K (par b (bit i)) = - (-1) ^ r := by
          rw [← sg_add, hsw, sg_add, sg_natCast, sg_one, mul_neg_one]
        have hs3 := sg_mul_self (K := K) (par b (bit i))
        have hs4 : (-1 : K) ^ r = - (sg K (par (bit i) b) * sg K (par b (bit i))) := by
          rw [hs2, neg_neg]
        rw [hs4]
        linear_combination (x * y * z * sg K (par b c) * sg K (par (bit i) b)
          * sg K (par (bit i) c) * diagFactor q (bit i)) * hs3
      · simp only [if_neg hd]; simp

end GATL
