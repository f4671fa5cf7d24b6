import Mathlib.Algebra.BigOperators.Fin
import Mathlib.Algebra.BigOperators.Intervals
import Mathlib.Data.Nat.Bitwise
import Mathlib.Tactic.Ring
import Mathlib.Algebra.Order.BigOperators.Group.Finset
import Verif.Spec.Blades

/-! Helper lemmas: the SWAR population count, byte by byte. -/

namespace GATL
open Spec

/-- The byte `c` repeated `k` times. -/
def rep (c : Nat) : Nat → Nat
  | 0 => 0
  | k + 1 => c + 256 * rep c k

def fA (k n : Nat) : Nat := (n &&& rep 0x55 k) + ((n >>> 1) &&& rep 0x55 k)
def fB (k n : Nat) : Nat := (n &&& rep 0x33 k) + ((n >>> 2) &&& rep 0x33 k)
def fC (k n : Nat) : Nat := (n &&& rep 0x0F k) + ((n >>> 4) &&& rep 0x0F k)

theorem land_byte (b y c m : Nat) (hb : b < 256) (hc : c < 256) :
    (b + 256 * y) &&& (c + 256 * m) = (b &&& c) + 256 * (y &&& m) := by
  have hbc : b &&& c < 256 := lt_of_le_of_lt Nat.and_le_left hb
  apply Nat.eq_of_testBit_eq
  intro i
  rw [Nat.testBit_and, Nat.add_comm b, Nat.add_comm c, Nat.add_comm (b &&& c)]
  rw [show (256 : Nat) = 2 ^ 8 from rfl] at *
  rw [Nat.testBit_two_pow_mul_add _ hb, Nat.testBit_two_pow_mul_add _ hc,
    Nat.testBit_two_pow_mul_add _ hbc]
  split <;> simp [Nat.testBit_and]

theorem fA_step (k b y : Nat) (hb : b < 256) :
    fA (k + 1) (b + 256 * y) = fA 1 b + 256 * fA k y := by
  unfold fA
  have e : (b + 256 * y) >>> 1 = (b / 2 + 128 * (y % 2)) + 256 * (y >>> 1) := by
    simp only [Nat.shiftRight_eq_div_pow]; omega
  have key : ∀ b < 256, ∀ t < 2, (b / 2 + 128 * t) &&& 0x55 = (b >>> 1) &&& 0x55 := by
    decide +kernel
  rw [e]
  simp only [rep, Nat.mul_zero, Nat.add_zero]
  rw [land_byte _ _ _ _ hb (by omega), land_byte _ _ _ _ (by omega) (by omega),
    key b hb (y % 2) (by omega)]
  ring

theorem fB_step (k b y : Nat) (hb : b < 256) :
    fB (k + 1) (b + 256 * y) = fB 1 b + 256 * fB k y := by
  unfold fB
  have e : (b + 256 * y) >>> 2 = (b / 4 + 64 * (y % 4)) + 256 * (y >>> 2) := by
    simp only [Nat.shiftRight_eq_div_pow]; omega
  have key : ∀ b < 256, ∀ t < 4, (b / 4 + 64 * t) &&& 0x33 = (b >>> 2) &&& 0x33 := by
    decide +kernel
  rw [e]
  simp only [rep, Nat.mul_zero, Nat.add_zero]
  rw [land_byte _ _ _ _ hb (by omega), land_byte _ _ _ _ (by omega) (by omega),
    key b hb (y % 4) (by omega)]
  ring

theorem fC_step (k b y : Nat) (hb : b < 256) :
    fC (k + 1) (b + 256 * y) = fC 1 b + 256 * fC k y := by
  unfold fC
  have e : (b + 256 * y) >>> 4 = (b / 16 + 16 * (y % 16)) + 256 * (y >>> 4) := by
    simp only [Nat.shiftRight_eq_div_pow]; omega
  have key : ∀ b < 256, ∀ t < 16, (b / 16 + 16 * t) &&& 0x0F = (b >>> 4) &&& 0x0F := by
    decide +kernel
  rw [e]
  simp only [rep, Nat.mul_zero, Nat.add_zero]
  rw [land_byte _ _ _ _ hb (by omega), land_byte _ _ _ _ (by omega) (by omega),
    key b hb (y % 16) (by omega)]
  ring

/-- Number of set bits among the lowest `k`. -/
def pc (k n : Nat) : Nat := ∑ i ∈ Finset.range k, (n.testBit i).toNat

theorem pc_step (k b y : Nat) (hb : b < 256) : pc (8 + k) (b + 256 * y) = pc 8 b + pc k y := by
  unfold pc
  rw [Finset.sum_range_add]
  have t : ∀ j, (b + 256 * y).testBit j = if j < 8 then b.testBit j else y.testBit (j - 8) := by
    intro j
    rw [Nat.add_comm, show (256 : Nat) = 2 ^ 8 from rfl]
    exact Nat.testBit_two_pow_mul_add _ hb j
  congr 1
  · refine Finset.sum_congr rfl fun i hi => ?_
    rw [t, if_pos (Finset.mem_range.mp hi)]
  · refine Finset.sum_congr rfl fun i _ => ?_
    rw [t, if_neg (by omega)]; simp

def fABC (k n : Nat) : Nat := fC k (fB k (fA k n))

theorem fABC_step (k b y : Nat) (hb : b < 256) :
    fABC (k + 1) (b + 256 * y) = fABC 1 b + 256 * fABC k y := by
  have hA : ∀ b < 256, fA 1 b < 256 := by decide +kernel
  have hB : ∀ b < 256, fB 1 b < 256 := by decide +kernel
  unfold fABC
  rw [fA_step k b y hb, fB_step k _ _ (hA b hb), fC_step k _ _ (hB _ (hA b hb))]

theorem fABC_byte : ∀ b < 256, fABC 1 b = pc 8 b := by
  unfold pc; simp only [Finset.sum_range_succ, Finset.range_zero, Finset.sum_empty]
  decide +kernel

theorem pc_le (k n : Nat) : pc k n ≤ k := by
  unfold pc
  refine (Finset.sum_le_card_nsmul _ _ 1 ?_).trans (by simp)
  intro i _; cases n.testBit i <;> simp

theorem fABC_zero (k) : fABC k 0 = 0 := by simp [fABC, fA, fB, fC]

theorem top_byte (b0 b1 b2 b3 b4 b5 b6 b7 : Nat) (h0 : b0 ≤ 8) (h1 : b1 ≤ 8) (h2 : b2 ≤ 8)
    (h3 : b3 ≤ 8) (h4 : b4 ≤ 8) (h5 : b5 ≤ 8) (h6 : b6 ≤ 8) (h7 : b7 ≤ 8) :
    (b0 + 256 * (b1 + 256 * (b2 + 256 * (b3 + 256 * (b4 + 256 * (b5 + 256 * (b6 + 256 * b7)))))))
      * 0x0101010101010101 % 2 ^ 64 / 2 ^ 56 = b0 + b1 + b2 + b3 + b4 + b5 + b6 + b7 := by
  have key : ∀ N lo S H : Nat, N = lo + 2 ^ 56 * S + 2 ^ 64 * H → lo < 2 ^ 56 → S < 256 →
      N % 2 ^ 64 / 2 ^ 56 = S := by
    intro N lo S H h1 h2 h3; omega
  apply key _
    (1 * (b0) + 256 * (b0 + b1) + 65536 * (b0 + b1 + b2) 
      + 16777216 * (b0 + b1 + b2 + b3) + 4294967296 * (b0 + b1 + b2 + b3 + b4)
      + 1099511627776 * (b0 + b1 + b2 + b3 + b4 + b5) + 281474976710656 * (b0 + b1 + b2 + b3 + b4 + b5 + b6))
    _
    (1 * (b1 + b2 + b3 + b4 + b5 + b6 + b7) + 256 * (b2 + b3 + b4 + b5 + b6 + b7) + 65536 * (b3 + b4 + b5 + b6 + b7) 
      + 16777216 * (b4 + b5 + b6 + b7) + 4294967296 * (b5 + b6 + b7)
      + 1099511627776 * (b6 + b7) + 281474976710656 * (b7))
  · ring
  · omega
  · omega

theorem fABC_eight (n : Nat) (hn : n < 2 ^ 64) :
    fABC 8 n * 0x0101010101010101 % 2 ^ 64 / 2 ^ 56 = pc 64 n := by
  have d : ∀ m : Nat, m = m % 256 + 256 * (m / 256) := fun m => by omega
  have lt : ∀ m : Nat, m % 256 < 256 := fun m => by omega
  have S : ∀ k m, fABC (k + 1) m = pc 8 (m % 256) + 256 * fABC k (m / 256) := by
    intro k m
    conv_lhs => rw [d m]
    rw [fABC_step _ _ _ (lt m), fABC_byte _ (lt m)]
  have T : ∀ k m, pc (8 + k) m = pc 8 (m % 256) + pc k (m / 256) := by
    intro k m
    conv_lhs => rw [d m]
    rw [pc_step _ _ _ (lt m)]
  have e0 : fABC 0 (n / 256 / 256 / 256 / 256 / 256 / 256 / 256 / 256) = 0 := by
    simp [fABC, fA, fB, fC, rep]
  rw [S 7, S 6, S 5, S 4, S 3, S 2, S 1, S 0, e0]
  rw [show 64 = 8 + 56 from rfl, T, show 56 = 8 + 48 from rfl, T, show 48 = 8 + 40 from rfl, T,
    show 40 = 8 + 32 from rfl, T, show 32 = 8 + 24 from rfl, T, show 24 = 8 + 16 from rfl, T,
    show 16 = 8 + 8 from rfl, T]
  have hp : ∀ m, pc 8 m ≤ 8 := pc_le 8
  have := top_byte _ _ _ _ _ _ _ _ (hp (n % 256)) (hp (n / 256 % 256)) (hp (n / 256 / 256 % 256))
    (hp (n / 256 / 256 / 256 % 256)) (hp (n / 256 / 256 / 256 / 256 % 256))
    (hp (n / 256 / 256 / 256 / 256 / 256 % 256)) (hp (n / 256 / 256 / 256 / 256 / 256 / 256 % 256))
    (hp (n / 256 / 256 / 256 / 256 / 256 / 256 / 256))
  have hl : n / 256 / 256 / 256 / 256 / 256 / 256 / 256 < 256 := by omega
  rw [Nat.mod_eq_of_lt hl]
  simp only [Nat.mul_zero, Nat.add_zero]
  rw [this]; omega

theorem ones_eq_pc (x : Word) : ones x = pc 64 x.toNat := by
  have hA : (onesA x).toNat = fA 8 x.toNat := by
    unfold onesA fA
    rw [BitVec.toNat_add, BitVec.toNat_and, BitVec.toNat_and, BitVec.toNat_ushiftRight]
    have e : (0x5555555555555555#64).toNat = rep 0x55 8 := by decide
    rw [e, Nat.mod_eq_of_lt]
    have h1 : x.toNat &&& rep 0x55 8 ≤ rep 0x55 8 := Nat.and_le_right
    have h2 : (x.toNat >>> 1) &&& rep 0x55 8 ≤ rep 0x55 8 := Nat.and_le_right
    have : rep 0x55 8 = 0x5555555555555555 := by decide
    omega
  have hB : ∀ x, (onesB x).toNat = fB 8 x.toNat := by
    intro x
    unfold onesB fB
    rw [BitVec.toNat_add, BitVec.toNat_and, BitVec.toNat_and, BitVec.toNat_ushiftRight]
    have e : (0x3333333333333333#64).toNat = rep 0x33 8 := by decide
    rw [e, Nat.mod_eq_of_lt]
    have h1 : x.toNat &&& rep 0x33 8 ≤ rep 0x33 8 := Nat.and_le_right
    have h2 : (x.toNat >>> 2) &&& rep 0x33 8 ≤ rep 0x33 8 := Nat.and_le_right
    have : rep 0x33 8 = 0x3333333333333333 := by decide
    omega
  have hC : ∀ x, (onesC x).toNat = fC 8 x.toNat := by
    intro x
    unfold onesC fC
    rw [BitVec.toNat_add, BitVec.toNat_and, BitVec.toNat_and, BitVec.toNat_ushiftRight]
    have e : (0x0F0F0F0F0F0F0F0F#64).toNat = rep 0x0F 8 := by decide
    rw [e, Nat.mod_eq_of_lt]
    have h1 : x.toNat &&& rep 0x0F 8 ≤ rep 0x0F 8 := Nat.and_le_right
    have h2 : (x.toNat >>> 4) &&& rep 0x0F 8 ≤ rep 0x0F 8 := Nat.and_le_right
    have : rep 0x0F 8 = 0x0F0F0F0F0F0F0F0F := by decide
    omega
  unfold ones
  rw [BitVec.toNat_ushiftRight, BitVec.toNat_mul, hC, hB, hA, Nat.shiftRight_eq_div_pow]
  exact fABC_eight _ x.isLt

theorem ones_eq_card (x : Word) : ones x = (vecs x).card := by
  rw [ones_eq_pc, pc, vecs, Finset.card_filter, ← Fin.sum_univ_eq_sum_range
    (fun i => (x.toNat.testBit i).toNat)]
  refine Finset.sum_congr rfl fun i _ => ?_
  rw [← BitVec.testBit_toNat]
  cases x.toNat.testBit i <;> simp

end GATL
