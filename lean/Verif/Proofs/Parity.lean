import Verif.Proofs.Swaps
import Mathlib.Data.Nat.Choose.Basic
import Mathlib.Tactic.LinearCombination

/-! Helper lemmas: the bilinear parity form behind the reordering sign. -/

namespace GATL
open Spec

/-- bit `i` modulo two -/
def bz (x : Word) (i : Nat) : ZMod 2 := if x.getLsbD i then 1 else 0

theorem bz_eq_bn (x : Word) (i : Nat) : bz x i = (bn x i : ZMod 2) := by
  unfold bz bn; cases x.getLsbD i <;> simp

theorem zmod2_add_self (a : ZMod 2) : a + a = 0 := by revert a; decide
theorem zmod2_mul_self (a : ZMod 2) : a * a = a := by revert a; decide

theorem bz_xor (x y : Word) (i : Nat) : bz (x ^^^ y) i = bz x i + bz y i := by
  unfold bz; rw [BitVec.getLsbD_xor]
  cases x.getLsbD i <;> cases y.getLsbD i <;> decide

theorem bz_and (x y : Word) (i : Nat) : bz (x &&& y) i = bz x i * bz y i := by
  unfold bz; rw [BitVec.getLsbD_and]
  cases x.getLsbD i <;> cases y.getLsbD i <;> decide

theorem bz_or (x y : Word) (i : Nat) : bz (x ||| y) i = bz x i + bz y i + bz x i * bz y i := by
  unfold bz; rw [BitVec.getLsbD_or]
  cases x.getLsbD i <;> cases y.getLsbD i <;> decide

theorem bz_zero (i : Nat) : bz 0 i = 0 := by simp [bz]

/-- parity of the number of inversions -/
def par (L R : Word) : ZMod 2 :=
  ∑ i ∈ Finset.range 64, ∑ j ∈ Finset.range 64, if j < i then bz L i * bz R j else 0

theorem par_eq (L R : Word) : par L R = (strictInv L R : ZMod 2) := by
  unfold par strictInv
  push_cast
  simp only [bz_eq_bn]

theorem par_xor_left (A B R : Word) : par (A ^^^ B) R = par A R + par B R := by
  unfold par
  rw [← Finset.sum_add_distrib]
  refine Finset.sum_congr rfl fun i _ => ?_
  rw [← Finset.sum_add_distrib]
  refine Finset.sum_congr rfl fun j _ => ?_
  rw [bz_xor]; split <;> ring

theorem par_xor_right (A B R : Word) : par R (A ^^^ B) = par R A + par R B := by
  unfold par
  rw [← Finset.sum_add_distrib]
  refine Finset.sum_congr rfl fun i _ => ?_
  rw [← Finset.sum_add_distrib]
  refine Finset.sum_congr rfl fun j _ => ?_
  rw [bz_xor]; split <;> ring

theorem par_zero_left (R : Word) : par 0 R = 0 := by
  unfold par; simp only [bz_zero, zero_mul, ite_self, Finset.sum_const_zero]
theorem par_zero_right (R : Word) : par R 0 = 0 := by
  unfold par; simp only [bz_zero, mul_zero, ite_self, Finset.sum_const_zero]

/-- grade modulo two -/
def gr (x : Word) : ZMod 2 := ∑ i ∈ Finset.range 64, bz x i

theorem gr_eq (x : Word) : gr x = (ones x : ZMod 2) := by
  rw [ones_eq_sum]; unfold gr; push_cast; simp only [bz_eq_bn]

theorem gr_xor (x y : Word) : gr (x ^^^ y) = gr x + gr y := by
  unfold gr; rw [← Finset.sum_add_distrib]
  exact Finset.sum_congr rfl fun i _ => bz_xor x y i

/-- swapping the arguments of the parity form -/
theorem par_swap (L R : Word) : par L R + par R L = gr L * gr R + gr (L &&& R) := by
  have h1 : gr L * gr R = ∑ i ∈ Finset.range 64, ∑ j ∈ Finset.range 64, bz L i * bz R j := by
    unfold gr; rw [Finset.sum_mul_sum]
  have h2 : par R L = ∑ i ∈ Finset.range 64, ∑ j ∈ Finset.range 64,
      if i < j then bz L i * bz R j else 0 := by
    unfold par; rw [Finset.sum_comm]
    refine Finset.sum_congr rfl fun i _ => Finset.sum_congr rfl fun j _ => ?_
    rw [mul_comm]
  have h3 : gr (L &&& R) = ∑ i ∈ Finset.range 64, ∑ j ∈ Finset.range 64,
      if j = i then bz L i * bz R j else 0 := by
    unfold gr
    refine Finset.sum_congr rfl fun i hi => ?_
    rw [Finset.sum_ite_eq', if_pos hi, bz_and]
  rw [h1, h2, h3, par, ← Finset.sum_add_distrib, ← Finset.sum_add_distrib]
  refine Finset.sum_congr rfl fun i _ => ?_
  rw [← Finset.sum_add_distrib, ← Finset.sum_add_distrib]
  refine Finset.sum_congr rfl fun j _ => ?_
  rcases lt_trichotomy j i with h | h | h
  · rw [if_pos h, if_neg (by omega), if_neg (by omega)]
  · subst h; simp [zmod2_add_self]
  · rw [if_neg (by omega), if_pos h, if_neg (by omega)]; ring

theorem strictInv_self (L : Word) : 2 * strictInv L L + ones L = ones L * ones L := by
  have h1 : ones L * ones L = ∑ i ∈ Finset.range 64, ∑ j ∈ Finset.range 64, bn L i * bn L j := by
    rw [ones_eq_sum, Finset.sum_mul_sum]
  have h2 : strictInv L L = ∑ i ∈ Finset.range 64, ∑ j ∈ Finset.range 64,
      if i < j then bn L i * bn L j else 0 := by
    unfold strictInv; rw [Finset.sum_comm]
    refine Finset.sum_congr rfl fun i _ => Finset.sum_congr rfl fun j _ => ?_
    rw [mul_comm]
  have h3 : ones L = ∑ i ∈ Finset.range 64, ∑ j ∈ Finset.range 64,
      if j = i then bn L i * bn L j else 0 := by
    rw [ones_eq_sum]
    refine Finset.sum_congr rfl fun i hi => ?_
    rw [Finset.sum_ite_eq', if_pos hi]
    unfold bn; cases L.getLsbD i <;> rfl
  rw [h1, two_mul]
  nth_rewrite 2 [h2]
  nth_rewrite 1 [h3]
  rw [strictInv, ← Finset.sum_add_distrib, ← Finset.sum_add_distrib]
  refine Finset.sum_congr rfl fun i _ => ?_
  rw [← Finset.sum_add_distrib, ← Finset.sum_add_distrib]
  refine Finset.sum_congr rfl fun j _ => ?_
  rcases lt_trichotomy j i with h | h | h
  · rw [if_pos h, if_neg (by omega), if_neg (by omega)]; ring
  · subst h; simp
  · rw [if_neg (by omega), if_pos h, if_neg (by omega)]; ring

theorem strictInv_self_choose (L : Word) : strictInv L L = (ones L).choose 2 := by
  have := strictInv_self L
  rw [Nat.choose_two_right]
  generalize ones L = n at *
  have e : n * (n - 1) = n * n - n := by rw [Nat.mul_sub, Nat.mul_one]
  rw [e]; omega

/-! ### signs -/

/-- the sign of a parity -/
def sg (K : Type*) [Ring K] (z : ZMod 2) : K := (-1) ^ z.val

variable {K : Type*} [CommRing K]

theorem sg_add (a b : ZMod 2) : sg K (a + b) = sg K a * sg K b := by
  have : ∀ a b : ZMod 2, (a = 0 ∧ b = 0 ∧ a + b = 0) ∨ (a = 0 ∧ b = 1 ∧ a + b = 1) ∨
      (a = 1 ∧ b = 0 ∧ a + b = 1) ∨ (a = 1 ∧ b = 1 ∧ a + b = 0) := by decide
  rcases this a b with ⟨h1, h2, h3⟩ | ⟨h1, h2, h3⟩ | ⟨h1, h2, h3⟩ | ⟨h1, h2, h3⟩ <;>
    rw [h3, h1, h2] <;> simp [sg, ZMod.val_one]

@[simp] theorem sg_zero : sg K 0 = 1 := by simp [sg]
@[simp] theorem sg_one : sg K 1 = -1 := by simp [sg, ZMod.val_one]

theorem sg_mul_self (a : ZMod 2) : sg K a * sg K a = 1 := by
  rw [← sg_add, zmod2_add_self, sg_zero]

theorem sg_natCast (n : Nat) : sg K (n : ZMod 2) = (-1) ^ n := by
  induction n with
  | zero => simp
  | succ n ih => push_cast; rw [sg_add, ih, sg_one, pow_succ]

theorem reorderingSign_cast (L R : Word) : ((reorderingSign L R : Int) : K) = sg K (par L R) := by
  rw [reorderingSign_eq, par_eq, sg_natCast]; push_cast; rfl

/-! ### bit-set cardinalities -/

theorem ones_or_add_and (x y : Word) : ones (x ||| y) + ones (x &&& y) = ones x + ones y := by
  simp only [ones_eq_sum, ← Finset.sum_add_distrib]
  refine Finset.sum_congr rfl fun i _ => ?_
  unfold bn; rw [BitVec.getLsbD_or, BitVec.getLsbD_and]
  cases x.getLsbD i <;> cases y.getLsbD i <;> rfl

theorem ones_xor_add_two_and (x y : Word) :
    ones (x ^^^ y) + 2 * ones (x &&& y) = ones x + ones y := by
  simp only [ones_eq_sum, Finset.mul_sum, ← Finset.sum_add_distrib]
  refine Finset.sum_congr rfl fun i _ => ?_
  unfold bn; rw [BitVec.getLsbD_xor, BitVec.getLsbD_and]
  cases x.getLsbD i <;> cases y.getLsbD i <;> rfl

theorem ones_eq_zero {x : Word} : ones x = 0 ↔ x = 0 := by
  constructor
  · intro h
    rw [ones_eq_sum, Finset.sum_eq_zero_iff] at h
    apply BitVec.eq_of_getLsbD_eq
    intro i hi
    have := h i (Finset.mem_range.mpr hi)
    unfold bn at this
    cases hx : x.getLsbD i
    · simp
    · rw [hx] at this; simp at this
  · rintro rfl; decide

theorem ones_le (x : Word) : ones x ≤ 64 := by rw [ones_eq_pc]; exact pc_le 64 _

end GATL
