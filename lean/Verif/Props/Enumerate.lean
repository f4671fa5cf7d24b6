import Verif.Proofs.Enumerate
import Verif.Proofs.Integers
import Mathlib.Tactic.IntervalCases

/-! Properties C33, C34, C35 and C36. -/

namespace GATL.Props
open Spec

/-- **C33** The components of a full `k`-vector of an `n`-dimensional space (`k ≤ n ≤ 63`) are the
`C(n,k)` blades of grade `k`, each once, in increasing order of bitset; the compile-time recursion
terminates (from some fuel on, more fuel changes nothing). -/
theorem C33_full_kvector (n k : Nat) (hkn : k ≤ n) (hn : n ≤ 63) :
    ∃ F L, (∀ fuel ≥ F, fullMultivector fuel n k k = some L) ∧ GradeList n k L ∧
      L.length = n.choose k := by
  by_cases hk : k = 0
  · subst hk
    refine ⟨0, [0], fun fuel _ => ?_, gradeList_zero n, by simp⟩
    unfold fullMultivector
    rw [firstCombination_eq n (by omega)]
    simp [multivectorFrom]
  · obtain ⟨L, h1, h2, h3⟩ := kvector_spec n hn k hk hkn (2 ^ n + 1) (by omega)
    refine ⟨2 ^ n + 1, L, fun fuel hf => ?_, gradeList_of h2 h3, gradeList_length hn (gradeList_of h2 h3)⟩
    obtain ⟨L', h1', h2', h3'⟩ := kvector_spec n hn k hk hkn fuel (by omega)
    have : L' = L := by
      refine List.Perm.eq_of_pairwise ?_ h2' h2 ?_
      · intro a b _ _ hab hba; omega
      · refine (List.perm_ext_iff_of_nodup ?_ ?_).mpr fun x => by rw [h3, h3']
        · exact h2'.imp fun hlt heq => by rw [heq] at hlt; exact lt_irrefl _ hlt
        · exact h2.imp fun hlt heq => by rw [heq] at hlt; exact lt_irrefl _ hlt
    unfold fullMultivector
    rw [firstCombination_eq n (by omega)]
    simp only [Option.bind_eq_bind, Option.bind_some, Nat.sub_self]
    obtain ⟨g, rfl⟩ := Nat.exists_eq_succ_of_ne_zero hk
    unfold multivectorFrom
    rw [firstCombination_eq (g + 1) (by omega)]
    simp only [Option.bind_eq_bind, Option.bind_some]
    rw [h1', this]

example : fullMultivector 10 4 2 2 = some [3, 5, 6, 9, 10, 12] := by decide

/-- **C33** The components of a full multivector with grades `first..last` are the blades of these
grades, grade by grade, each grade listed as above. -/
theorem C33_full_multivector (n first last : Nat) (hfl : first ≤ last) (hln : last ≤ n)
    (hn : n ≤ 63) :
    ∃ F, ∃ Ls : Nat → List Word, (∀ k ≤ n, GradeList n k (Ls k)) ∧
      ∀ fuel ≥ F, fullMultivector fuel n first last
        = some ((List.range' first (last - first + 1)).flatMap Ls) := by
  classical
  let Ls : Nat → List Word := fun k => if k = 0 then [0] else
    (kvectorFrom (2 ^ n + 1) (full n) (full k)).getD []
  have hLs : ∀ k, k ≠ 0 → k ≤ n → ∀ fuel, 2 ^ n < fuel →
      kvectorFrom fuel (full n) (full k) = some (Ls k) ∧ GradeList n k (Ls k) := by
    intro k hk hkn fuel hf
    obtain ⟨L, h1, h2, h3⟩ := kvector_spec n hn k hk hkn (2 ^ n + 1) (by omega)
    obtain ⟨L', h1', h2', h3'⟩ := kvector_spec n hn k hk hkn fuel (by omega)
    have : L' = L := by
      refine List.Perm.eq_of_pairwise ?_ h2' h2 ?_
      · intro a b _ _ hab hba; omega
      · refine (List.perm_ext_iff_of_nodup ?_ ?_).mpr fun x => by rw [h3, h3']
        · exact h2'.imp fun hlt heq => by rw [heq] at hlt; exact lt_irrefl _ hlt
        · exact h2.imp fun hlt heq => by rw [heq] at hlt; exact lt_irrefl _ hlt
    have e : Ls k = L := by simp only [Ls]; rw [if_neg hk, h1]; rfl
    rw [e]
    exact ⟨by rw [h1', this], gradeList_of h2 h3⟩
  refine ⟨2 ^ n + 1, Ls, fun k hk => ?_, fun fuel hf => ?_⟩
  · by_cases h0 : k = 0
    · subst h0
      have : Ls 0 = [0] := by simp [Ls]
      rw [this]; exact gradeList_zero n
    · exact (hLs k h0 hk (2 ^ n + 1) (by omega)).2
  · unfold fullMultivector
    rw [firstCombination_eq n (by omega)]
    simp only [Option.bind_eq_bind, Option.bind_some]
    exact multivectorFrom_spec n hn fuel (by omega) Ls (by simp [Ls])
      (fun k hk hkn => (hLs k hk hkn fuel (by omega)).1) (last - first) first (by omega)

example : fullMultivector 10 3 0 3 = some [0, 1, 2, 4, 3, 5, 6, 7] := by decide

/-- **C34** `for_each_basis_vector` on a blade of a space with at most 63 dimensions calls the
callback with the 1-based index of each basis vector of the blade, in increasing order, and stops
as soon as the callback clears `keep_going`; it returns the last value of `keep_going`. -/
theorem C34_for_each_basis_vector {σ : Type} (f : Nat → σ → σ × Bool) (b : Word) (s : σ)
    (hb : ∀ i ∈ vecs b, i.val < 63) :
    forEachBasisVector f b s = some (visit f ((vecs b).sort (· ≤ ·)) s) := by
  refine forEachLoop_spec f 65 b s (fun i hi => hb i (mem_vecs.mpr hi)) ?_
  have : (vecs b).card ≤ 64 := (Finset.card_le_univ _).trans (by simp)
  omega

example : forEachBasisVector (fun i s => (s ++ [i], true)) 0b101101 ([] : List Nat)
    = some ([1, 3, 4, 6], true) := by decide
example : forEachBasisVector (fun i s => (s ++ [i], i < 3)) 0b101101 ([] : List Nat)
    = some ([1, 3], false) := by decide

/-- **C34** The pseudoscalar of an `n`-dimensional space contains exactly its `n` basis vectors. -/
theorem C34_pseudoscalar (n : Nat) (hn : n ≤ 63) :
    ∃ I, pseudoscalarBlade n = some I ∧ ∀ i : Fin 64, i ∈ vecs I ↔ i.val < n := by
  refine ⟨full n, firstCombination_eq n (by omega), fun i => ?_⟩
  rw [mem_vecs, getLsbD_full n i i.2]; simp

/-- **C35** `leftmost_set_bit` is the highest set bit of words with no bit above bit 7 (missing:
higher words, where it is wrong, see `C35_leftmost_wrong`). -/
theorem C35_leftmost_partial (b : Word) (i : Fin 64) (hi : i ∈ vecs b) (h7 : i.val ≤ 7)
    (hmax : ∀ j ∈ vecs b, j ≤ i) : leftmostSetBit b = (1 : Word) <<< i.val := by
  have hlt : b.toNat < 2 ^ (i.val + 1) := inSpace_lt.mp fun j hj => by
    have := hmax j (mem_vecs.mpr hj); have : j.val ≤ i.val := this; omega
  have hge : 2 ^ i.val ≤ b.toNat := by
    rw [mem_vecs] at hi
    exact Nat.ge_two_pow_of_testBit hi
  have key : ∀ v : Fin 256, v.val ≠ 0 → leftmostSetBit (BitVec.ofNat 64 v.val)
      = (1 : Word) <<< Nat.log2 v.val := by decide +kernel
  have h256 : b.toNat < 256 := lt_of_lt_of_le hlt (by
    have : 2 ^ (i.val + 1) ≤ 2 ^ 8 := Nat.pow_le_pow_right (by omega) (by omega)
    omega)
  have hp : 0 < 2 ^ i.val := by positivity
  have hlog : Nat.log2 b.toNat = i.val := by
    rw [Nat.log2_eq_iff (by omega)]; exact ⟨hge, hlt⟩
  have := key ⟨b.toNat, h256⟩ (by show b.toNat ≠ 0; omega)
  rw [BitVec.ofNat_toNat, hlog] at this
  simpa using this

example : leftmostSetBit 0b10110100 = 0b10000000 := by decide

/-- **C35** The property fails: of every single bit from bit 8 up, `leftmost_set_bit` is not that
bit. -/
theorem C35_leftmost_wrong (i : Fin 64) (h : 8 ≤ i.val) :
    leftmostSetBit ((1 : Word) <<< i.val) ≠ (1 : Word) <<< i.val := by
  revert i; decide +kernel

/-- **C36** `isqrt` of a non-negative integer is the floor of the square root, as long as the
square of the next integer fits 63 bits; otherwise it overflows. -/
theorem C36_isqrt (a : Nat) :
    ((Nat.sqrt a + 1) ^ 2 < 2 ^ 63 →
      ∃ F, ∀ fuel ≥ F, isqrt fuel a = some (Nat.sqrt a : Int)) ∧
    (2 ^ 63 ≤ (Nat.sqrt a + 1) ^ 2 → ∀ fuel, isqrt fuel a = none) := by
  constructor
  · intro h
    refine ⟨Nat.sqrt a + 1, fun fuel hf => ?_⟩
    exact isqrtLoop_spec a 1 (le_refl _) (by omega) h fuel (by omega)
  · intro h fuel
    exact isqrtLoop_overflow a 1 (le_refl _) (by norm_num) h fuel

example : (Nat.sqrt 1000000 + 1) ^ 2 < 2 ^ 63 := by
  rw [show (1000000 : Nat) = 1000 * 1000 from rfl, Nat.sqrt_eq]; norm_num
example : isqrt 10 25 = some 5 ∧ isqrt 10 24 = some 4 ∧ isqrt 10 26 = some 5 := by decide

/-- **C36** `isqrt` of a negative integer is `0`. -/
theorem C36_isqrt_neg (a : Int) (h : a < 0) (fuel : Nat) : isqrt (fuel + 1) a = some 0 := by
  unfold isqrt isqrtLoop
  rw [if_neg (by omega)]; rfl

/-- **C36** `gcd` of non-negative integers is the greatest common divisor. -/
theorem C36_gcd (a b : Int) (ha : 0 ≤ a) (hb : 0 ≤ b) : igcd a b = Int.gcd a b := by
  obtain ⟨a, rfl⟩ := Int.eq_ofNat_of_zero_le ha
  obtain ⟨b, rfl⟩ := Int.eq_ofNat_of_zero_le hb
  rw [igcd_nat]; simp

/-- **C36** `ipow` with a non-negative exponent is the power, undefined exactly when the power does
not fit 64 bits. -/
theorem C36_ipow (b : Int) (hb : -(2 ^ 63) ≤ b ∧ b < 2 ^ 63) (e : Nat) :
    ∃ F, ∀ fuel ≥ F, ipow fuel b e = i64 (b ^ e) :=
  ⟨e + 1, fun fuel hf => ipow_nat b hb e fuel (by omega)⟩

example : ipow 10 (-3) 5 = some (-243) ∧ ipow 10 2 62 = some (2 ^ 62) ∧ ipow 100 2 63 = none := by
  decide

/-- **C36** `ipow` with a negative exponent never terminates. -/
theorem C36_ipow_neg (b e : Int) (he : e < 0) (fuel : Nat) : ipow fuel b e = none :=
  ipow_neg fuel b e he

/-- **C36** `iabs` is the absolute value (undefined for the least integer) and `sign` the sign. -/
theorem C36_iabs_sign (x : Int) (hx : -(2 ^ 63) ≤ x ∧ x < 2 ^ 63) :
    (iabs x = if x = -(2 ^ 63) then none else some |x|) ∧ isign x = x.sign := by
  constructor
  · unfold iabs
    by_cases h : x ≥ 0
    · rw [if_pos h, if_neg (by omega), abs_of_nonneg h]
    · rw [if_neg h]
      by_cases h2 : x = -(2 ^ 63)
      · rw [if_pos h2, h2]; decide
      · rw [if_neg h2, i64_some (by omega) (by omega), abs_of_neg (by omega)]
  · unfold isign
    rcases lt_trichotomy x 0 with h | h | h
    · rw [if_neg (by omega), if_pos h, Int.sign_eq_neg_one_of_neg h]
    · subst h; rfl
    · rw [if_pos h, Int.sign_eq_one_of_pos h]

end GATL.Props
