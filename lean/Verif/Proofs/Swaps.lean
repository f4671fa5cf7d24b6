import Verif.Proofs.Ones
import Mathlib.Data.ZMod.Basic
import Mathlib.Algebra.BigOperators.Ring.Finset

/-! Helper lemmas: swap counting and the bilinear parity form. -/

namespace GATL
open Spec

/-- bit `i` as a number -/
def bn (x : Word) (i : Nat) : Nat := (x.getLsbD i).toNat

theorem bn_ge (x : Word) {i : Nat} (h : 64 ≤ i) : bn x i = 0 := by
  simp [bn, BitVec.getLsbD_of_ge x i h]

theorem bn_shift (x : Word) (i : Nat) : bn (x >>> 1) i = bn x (i + 1) := by
  simp [bn, BitVec.getLsbD_ushiftRight, Nat.add_comm]

theorem ones_eq_sum (x : Word) : ones x = ∑ i ∈ Finset.range 64, bn x i := by
  rw [ones_eq_pc, pc]
  refine Finset.sum_congr rfl fun i _ => ?_
  rw [bn, ← BitVec.testBit_toNat]

/-- weak inversions (`j ≤ i`) -/
def weakInv (L R : Word) : Nat :=
  ∑ i ∈ Finset.range 64, ∑ j ∈ Finset.range 64, if j ≤ i then bn L i * bn R j else 0

/-- strict inversions (`j < i`) -/
def strictInv (L R : Word) : Nat :=
  ∑ i ∈ Finset.range 64, ∑ j ∈ Finset.range 64, if j < i then bn L i * bn R j else 0

theorem weakInv_shift (L R : Word) : weakInv (L >>> 1) R = strictInv L R := by
  unfold weakInv strictInv
  simp only [bn_shift]
  have e : ∑ i ∈ Finset.range 65, ∑ j ∈ Finset.range 64, (if j < i then bn L i * bn R j else 0)
      = ∑ i ∈ Finset.range 64, ∑ j ∈ Finset.range 64, (if j < i then bn L i * bn R j else 0) := by
    rw [Finset.sum_range_succ _ 64]
    simp [bn_ge L (le_refl 64)]
  rw [← e, Finset.sum_range_succ' _ 64]
  simp only [Nat.lt_succ_iff, Nat.not_lt_zero, if_false, Finset.sum_const_zero, Nat.add_zero]

theorem weakInv_eq (L R : Word) : weakInv L R = ones (L &&& R) + strictInv L R := by
  rw [ones_eq_sum, weakInv, strictInv, ← Finset.sum_add_distrib]
  refine Finset.sum_congr rfl fun i hi => ?_
  have : bn (L &&& R) i = ∑ j ∈ Finset.range 64, if j = i then bn L i * bn R j else 0 := by
    rw [Finset.sum_ite_eq', if_pos hi]
    unfold bn
    rw [BitVec.getLsbD_and]
    cases L.getLsbD i <;> cases R.getLsbD i <;> rfl
  rw [this, ← Finset.sum_add_distrib]
  refine Finset.sum_congr rfl fun j _ => ?_
  rcases lt_trichotomy j i with h | h | h
  · rw [if_pos h.le, if_neg h.ne, if_pos h]; simp
  · subst h; simp
  · rw [if_neg (by omega), if_neg (by omega), if_neg (by omega)]

theorem weakInv_zero (R : Word) : weakInv 0 R = 0 := by simp [weakInv, bn]

theorem swapsCount_eq (L R : Word) : swapsCount L R = weakInv L R := by
  induction L using swapsCount.induct with
  | case1 => rw [swapsCount, weakInv_zero]; rfl
  | case2 L h ih => rw [swapsCount, dif_neg h, ih, weakInv_shift, weakInv_eq]

theorem reorderingLoop_eq (L R : Word) (c : Nat) : reorderingLoop L R c = c + swapsCount L R := by
  induction L, c using reorderingLoop.induct R with
  | case1 => rw [reorderingLoop, swapsCount]; simp
  | case2 L c h ih => rw [reorderingLoop, dif_neg h, ih, swapsCount.eq_def L, dif_neg h]; omega

theorem reorderingSignRuntime_eq (L R : Word) :
    reorderingSignRuntime L R = reorderingSign L R := by
  unfold reorderingSignRuntime reorderingSign
  rw [reorderingLoop_eq, Nat.zero_add]

theorem strictInv_eq_card (L R : Word) :
    strictInv L R = (inversions (vecs L) (vecs R)).card := by
  rw [inversions, Finset.card_filter, Finset.sum_product]
  unfold strictInv vecs
  rw [← Fin.sum_univ_eq_sum_range
    (fun i => ∑ j ∈ Finset.range 64, if j < i then bn L i * bn R j else 0), Finset.sum_filter]
  refine Finset.sum_congr rfl fun i _ => ?_
  rw [← Fin.sum_univ_eq_sum_range (fun j => if j < i.val then bn L i * bn R j else 0),
    Finset.sum_filter]
  by_cases h : L.getLsbD i = true
  · rw [if_pos h]
    refine Finset.sum_congr rfl fun j _ => ?_
    simp only [bn, h, Bool.toNat_true, one_mul, Fin.lt_def]
    by_cases h2 : R.getLsbD j = true <;> simp_all
  · rw [if_neg h]
    refine Finset.sum_eq_zero fun j _ => ?_
    rw [bn, Bool.eq_false_iff.mpr h]; simp

theorem reorderingSign_eq (L R : Word) : reorderingSign L R = (-1) ^ strictInv L R := by
  unfold reorderingSign
  rw [swapsCount_eq, weakInv_shift]
  rcases Nat.even_or_odd (strictInv L R) with h | h
  · rw [if_pos (Nat.even_iff.mp h), h.neg_one_pow]
  · rw [if_neg (by rw [Nat.odd_iff.mp h]; decide), h.neg_one_pow]

end GATL
