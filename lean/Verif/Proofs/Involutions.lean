import Verif.Proofs.Inner

/-! Helper lemmas: reversion, involution, conjugation. -/

namespace GATL
open Spec

variable {K : Type*} [CommRing K]

theorem gum_single (pat : Word) (b : Word) (a : K) :
    gradedUnaryMinus pat (Finsupp.single b a : MV K)
      = Finsupp.single b (a * if pat &&& ((1 : Word) <<< ones b) = 0 then (1 : K) else -1) := by
  unfold gradedUnaryMinus
  rw [Finsupp.linearCombination_single, Finsupp.smul_single, smul_eq_mul]

theorem gum_apply (pat : Word) (A : MV K) (b : Word) :
    gradedUnaryMinus pat A b
      = (if pat &&& ((1 : Word) <<< ones b) = 0 then (1 : K) else -1) * A b := by
  classical
  induction A using mv_induction with
  | h0 => simp
  | hadd A B hA hB => rw [map_add, Finsupp.add_apply, hA, hB, Finsupp.add_apply, mul_add]
  | hs c a =>
    rw [gum_single, Finsupp.single_apply, Finsupp.single_apply]
    split
    · rename_i h; subst h; ring
    · ring

theorem rev_table : ∀ k : Fin 65,
    (0xCCCCCCCCCCCCCCCC#64 &&& ((1 : Word) <<< k.val) = 0) ↔ k.val * (k.val - 1) / 2 % 2 = 0 := by
  decide +kernel
theorem inv_table : ∀ k : Fin 65,
    (0xAAAAAAAAAAAAAAAA#64 &&& ((1 : Word) <<< k.val) = 0) ↔ k.val % 2 = 0 := by decide +kernel
theorem conj_table : ∀ k : Fin 65,
    (0x6666666666666666#64 &&& ((1 : Word) <<< k.val) = 0) ↔ k.val * (k.val + 1) / 2 % 2 = 0 := by
  decide +kernel

theorem table_sign {c : Prop} [Decidable c] {m : Nat} (h : c ↔ m % 2 = 0) :
    (if c then (1 : K) else -1) = (-1) ^ m := by
  rcases Nat.even_or_odd m with h' | h'
  · rw [if_pos (h.mpr (Nat.even_iff.mp h')), h'.neg_one_pow]
  · rw [if_neg (fun hc => by have := h.mp hc; rw [Nat.odd_iff.mp h'] at this; omega),
      h'.neg_one_pow]

theorem reverse_apply (A : MV K) (b : Word) :
    reverse A b = (-1) ^ (ones b * (ones b - 1) / 2) * A b := by
  unfold reverse
  rw [gum_apply, table_sign (rev_table ⟨ones b, Nat.lt_succ_of_le (ones_le b)⟩)]

theorem involute_apply (A : MV K) (b : Word) : involute A b = (-1) ^ ones b * A b := by
  unfold involute
  rw [gum_apply, table_sign (inv_table ⟨ones b, Nat.lt_succ_of_le (ones_le b)⟩)]

theorem conjugate_apply (A : MV K) (b : Word) :
    conjugate A b = (-1) ^ (ones b * (ones b + 1) / 2) * A b := by
  unfold conjugate
  rw [gum_apply, table_sign (conj_table ⟨ones b, Nat.lt_succ_of_le (ones_le b)⟩)]

theorem reverse_single (b : Word) (a : K) :
    reverse (Finsupp.single b a : MV K) = Finsupp.single b (sg K (par b b) * a) := by
  unfold reverse
  rw [gum_single, table_sign (rev_table ⟨ones b, Nat.lt_succ_of_le (ones_le b)⟩), par_eq,
    sg_natCast, strictInv_self_choose, Nat.choose_two_right, mul_comm]

theorem involute_single (b : Word) (a : K) :
    involute (Finsupp.single b a : MV K) = Finsupp.single b (sg K (gr b) * a) := by
  unfold involute
  rw [gum_single, table_sign (inv_table ⟨ones b, Nat.lt_succ_of_le (ones_le b)⟩), gr_eq,
    sg_natCast, mul_comm]

theorem conjugate_single (b : Word) (a : K) :
    conjugate (Finsupp.single b a : MV K) = Finsupp.single b (sg K (par b b + gr b) * a) := by
  have h := table_sign (K := K) (conj_table ⟨ones b, Nat.lt_succ_of_le (ones_le b)⟩)
  dsimp only at h
  have h2 : sg K (par b b + gr b) = (-1) ^ (ones b * (ones b - 1) / 2 + ones b) := by
    rw [gr_eq, par_eq, ← Nat.cast_add, sg_natCast, strictInv_self_choose, Nat.choose_two_right]
  unfold conjugate
  rw [gum_single, h, h2, mul_comm]
  refine congrArg (fun k => Finsupp.single b ((-1 : K) ^ k * a)) ?_
  generalize ones b = n
  rcases n with _ | n
  · rfl
  · have e1 : (n + 1) * (n + 1 + 1) = (n + 1) * n + 2 * (n + 1) := by ring
    rw [e1, Nat.add_sub_cancel]
    omega

theorem reverse_add (A B : MV K) : reverse (A + B) = reverse A + reverse B := by simp [reverse]
theorem involute_add (A B : MV K) : involute (A + B) = involute A + involute B := by simp [involute]
theorem conjugate_add (A B : MV K) : conjugate (A + B) = conjugate A + conjugate B := by
  simp [conjugate]
theorem reverse_zero : reverse (0 : MV K) = 0 := by simp [reverse]
theorem involute_zero : involute (0 : MV K) = 0 := by simp [involute]
theorem conjugate_zero : conjugate (0 : MV K) = 0 := by simp [conjugate]
theorem reverse_smul (a : K) (A : MV K) : reverse (a • A) = a • reverse A := by simp [reverse]
theorem involute_smul (a : K) (A : MV K) : involute (a • A) = a • involute A := by simp [involute]

theorem reverse_reverse (A : MV K) : reverse (reverse A) = A := by
  ext b
  rw [reverse_apply, reverse_apply, ← mul_assoc, ← pow_add, ← two_mul]; simp
theorem involute_involute (A : MV K) : involute (involute A) = A := by
  ext b
  rw [involute_apply, involute_apply, ← mul_assoc, ← pow_add, ← two_mul]; simp
theorem conjugate_conjugate (A : MV K) : conjugate (conjugate A) = A := by
  ext b
  rw [conjugate_apply, conjugate_apply, ← mul_assoc, ← pow_add, ← two_mul]; simp

theorem reverse_gp (f : Word → K) (A B : MV K) :
    reverse (orthProd f .gp A B) = orthProd f .gp (reverse B) (reverse A) := by
  refine bilinear_ext (F := fun A B => reverse (orthProd f .gp A B))
    (G := fun A B => orthProd f .gp (reverse B) (reverse A)) ?_ ?_ ?_ ?_ ?_ ?_ ?_ ?_ ?_ A B <;>
    intros <;> try simp only [prod_zero_left, prod_zero_right, reverse_zero, prod_add_left,
      prod_add_right, reverse_add]
  rename_i l r a b
  rw [gp_single, reverse_single, reverse_single, reverse_single, gp_single, BitVec.xor_comm r l,
    BitVec.and_comm r l]
  congr 1
  simp only [par_xor_left, par_xor_right, sg_add]
  have := sg_mul_self (K := K) (par l r)
  linear_combination (a * b * f (l &&& r) * sg K (par l l) * sg K (par r l) * sg K (par r r)) * this

theorem involute_gp (f : Word → K) (A B : MV K) :
    involute (orthProd f .gp A B) = orthProd f .gp (involute A) (involute B) := by
  refine bilinear_ext (F := fun A B => involute (orthProd f .gp A B))
    (G := fun A B => orthProd f .gp (involute A) (involute B)) ?_ ?_ ?_ ?_ ?_ ?_ ?_ ?_ ?_ A B <;>
    intros <;> try simp only [prod_zero_left, prod_zero_right, involute_zero, prod_add_left,
      prod_add_right, involute_add]
  rename_i l r a b
  rw [gp_single, involute_single, involute_single, involute_single, gp_single]
  congr 1
  simp only [gr_xor, sg_add]
  ring

theorem conjugate_eq (A : MV K) : conjugate A = reverse (involute A) := by
  induction A using mv_induction with
  | h0 => simp [conjugate_zero, reverse_zero, involute_zero]
  | hadd A B hA hB => rw [conjugate_add, involute_add, reverse_add, hA, hB]
  | hs b a =>
    rw [conjugate_single, involute_single, reverse_single, sg_add, mul_assoc]

/-! relations between the inner products -/

theorem rcont_reverse (f : Word → K) (A B : MV K) :
    orthProd f .rcont A B = reverse (orthProd f .lcont (reverse B) (reverse A)) := by
  refine bilinear_ext (F := fun A B => orthProd f .rcont A B)
    (G := fun A B => reverse (orthProd f .lcont (reverse B) (reverse A))) ?_ ?_ ?_ ?_ ?_ ?_ ?_ ?_ ?_ A B <;>
    intros <;> try simp only [prod_zero_left, prod_zero_right, reverse_zero, prod_add_left,
      prod_add_right, reverse_add]
  rename_i l r a b
  rw [rcont_single, reverse_single, reverse_single, lcont_single, reverse_single,
    BitVec.xor_comm r l, BitVec.and_comm r l]
  congr 1
  split
  · simp only [par_xor_left, par_xor_right, sg_add]
    have h1 := sg_mul_self (K := K) (par r l)
    have h2 := sg_mul_self (K := K) (par r r)
    have h3 := sg_mul_self (K := K) (par l l)
    have : sg K (par l l) * sg K (par l l) * (sg K (par r r) * sg K (par r r)) *
      (sg K (par r l) * sg K (par r l)) = 1 := by rw [h1, h2, h3]; ring
    linear_combination (-(a * b * f r * sg K (par l r))) * this
  · ring

theorem sp_comm (f : Word → K) (A B : MV K) : orthProd f .sp A B = orthProd f .sp B A := by
  refine bilinear_ext (F := fun A B => orthProd f .sp A B)
    (G := fun A B => orthProd f .sp B A) ?_ ?_ ?_ ?_ ?_ ?_ ?_ ?_ ?_ A B <;>
    intros <;> try simp only [prod_zero_left, prod_zero_right, prod_add_left, prod_add_right]
  rename_i l r a b
  rw [sp_single, sp_single]
  congr 1
  by_cases h : l = r
  · subst h; ring
  · rw [if_neg h, if_neg (Ne.symm h)]; ring

theorem dot_eq (f : Word → K) (A B : MV K) :
    orthProd f .dot A B = orthProd f .lcont A B + orthProd f .rcont A B - orthProd f .sp A B := by
  refine bilinear_ext (F := fun A B => orthProd f .dot A B)
    (G := fun A B => orthProd f .lcont A B + orthProd f .rcont A B - orthProd f .sp A B)
    ?_ ?_ ?_ ?_ ?_ ?_ ?_ ?_ ?_ A B
  · intros; simp only [prod_zero_left]
  · intros; simp only [prod_zero_left, add_zero, sub_zero]
  · intros; simp only [prod_zero_right]
  · intros; simp only [prod_zero_right, add_zero, sub_zero]
  · intros; simp only [prod_add_left]
  · intros; simp only [prod_add_left]; abel
  · intros; simp only [prod_add_right]
  · intros; simp only [prod_add_right]; abel
  · intro l r a b
    rw [dot_single, lcont_single, rcont_single, sp_single]
    by_cases hlr : l = r
    · subst hlr
      simp [BitVec.and_self]
    · rw [if_neg hlr, mul_zero, Finsupp.single_zero, sub_zero, ← Finsupp.single_add]
      congr 1
      by_cases h1 : l &&& r = l
      · have h2 : ¬ (l &&& r = r) := by rw [h1]; exact hlr
        rw [if_pos (Or.inl h1), if_pos h1, if_neg h2, h1]; ring
      · by_cases h2 : l &&& r = r
        · rw [if_pos (Or.inr h2), if_neg h1, if_pos h2, h2]; ring
        · rw [if_neg (not_or.mpr ⟨h1, h2⟩), if_neg h1, if_neg h2]; ring

theorem hip_eq (f : Word → K) (A B : MV K) :
    orthProd f .hip A B
      = orthProd f .dot (A - scalar (A 0)) (B - scalar (B 0)) := by
  classical
  refine bilinear_ext (F := fun A B => orthProd f .hip A B)
    (G := fun A B => orthProd f .dot (A - scalar (A 0)) (B - scalar (B 0)))
    ?_ ?_ ?_ ?_ ?_ ?_ ?_ ?_ ?_ A B
  · intros; simp only [prod_zero_left]
  · intros; simp [scalar, prod_zero_left]
  · intros; simp only [prod_zero_right]
  · intros; simp [scalar, prod_zero_right]
  · intros; simp only [prod_add_left]
  · intro A A' B
    rw [← prod_add_left]; congr 1
    simp only [scalar, Finsupp.add_apply, Finsupp.single_add]; abel
  · intros; simp only [prod_add_right]
  · intro A B B'
    rw [← prod_add_right]; congr 1
    simp only [scalar, Finsupp.add_apply, Finsupp.single_add]; abel
  · intro l r a b
    have hz : ∀ (l : Word) (a : K), (Finsupp.single l a - scalar ((Finsupp.single l a : MV K) 0) : MV K)
        = if l = 0 then 0 else Finsupp.single l a := by
      intro l a
      unfold scalar
      rw [Finsupp.single_apply]
      split
      · rename_i h; subst h; simp
      · simp
    rw [hz, hz]
    unfold orthProd
    rw [bilin_single, hip_form]
    by_cases hl : l = 0
    · simp [hl]
    · by_cases hr : r = 0
      · simp [hr]
      · rw [if_neg hl, if_neg hr, bilin_single, if_neg (not_or.mpr ⟨hl, hr⟩)]; rfl

theorem lcont_scalar (f : Word → K) (hf : f 0 = 1) (a : K) (B : MV K) :
    orthProd f .lcont (scalar a) B = a • B := by
  induction B using mv_induction with
  | h0 => simp [prod_zero_right]
  | hadd A A' h h' => rw [prod_add_right, h, h', smul_add]
  | hs b y =>
    unfold scalar
    rw [lcont_single, Finsupp.smul_single, smul_eq_mul, par_zero_left, sg_zero, hf]
    simp

end GATL
