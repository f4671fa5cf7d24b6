import Verif.Proofs.Algebra
import Mathlib.LinearAlgebra.CliffordAlgebra.Basic
import Mathlib.LinearAlgebra.QuadraticForm.Basic

/-! Helper lemmas: multivectors with the geometric product are a Clifford algebra. -/

namespace GATL
open Spec

variable {K : Type*} [CommRing K]

/-- bit `i` -/
abbrev bit (i : Nat) : Word := (1#64) <<< i

theorem getLsbD_bit (i j : Nat) (hi : i < 64) : (bit i).getLsbD j = decide (j = i) := by
  unfold bit
  rw [BitVec.getLsbD_shiftLeft]
  by_cases h : j = i
  · subst h; simp [hi]
  · by_cases hlt : j < i
    · simp [hlt, h]
    · have : j - i ≠ 0 := by omega
      simp [h, hlt, this]

theorem bz_bit (i j : Nat) (hi : i < 64) : bz (bit i) j = if j = i then 1 else 0 := by
  unfold bz; rw [getLsbD_bit i j hi]; simp

theorem par_bit_left (i : Nat) (hi : i < 64) (b : Word) :
    par (bit i) b = ∑ j ∈ Finset.range i, bz b j := by
  unfold par
  rw [Finset.sum_eq_single i]
  · rw [bz_bit i i hi]
    simp only [if_true, one_mul]
    rw [← Finset.sum_filter]
    refine Finset.sum_congr ?_ fun _ _ => rfl
    ext j; simp only [Finset.mem_filter, Finset.mem_range]; omega
  · intro k _ hk
    rw [bz_bit i k hi, if_neg hk]; simp
  · intro h; simp only [Finset.mem_range] at h; omega

theorem par_bit_right_of_lt (i : Nat) (hi : i < 64) (b : Word)
    (hb : ∀ j, i < j → b.getLsbD j = false) : par b (bit i) = 0 := by
  unfold par
  refine Finset.sum_eq_zero fun k _ => Finset.sum_eq_zero fun j _ => ?_
  split
  · rename_i h
    rw [bz_bit i j hi]
    by_cases hj : j = i
    · subst hj; simp [bz, hb k h]
    · simp [hj]
  · rfl

theorem vecs_bit (i : Fin 64) : vecs (bit i) = {i} := by
  ext j
  unfold vecs
  rw [Finset.mem_filter, getLsbD_bit i j i.2, Finset.mem_singleton, Fin.ext_iff]
  simp

theorem diagFactor_and_bit (q : Fin 64 → K) (i : Fin 64) (b : Word) :
    diagFactor q (bit i &&& b) = if b.getLsbD i then q i else 1 := by
  rw [diagFactor_eq, Finset.prod_eq_single i]
  · rw [BitVec.getLsbD_and, getLsbD_bit i i i.2]; simp
  · intro j _ hj
    rw [BitVec.getLsbD_and, getLsbD_bit i j i.2]
    simp [Fin.val_inj, hj]
  · simp

namespace Cl
variable (q : Fin 64 → K)

/-- the basis blade `b` as an element -/
noncomputable def blade (b : Word) : Cl q := (Finsupp.single b (1 : K) : MV K)

theorem blade_mul (l r : Word) :
    blade q l * blade q r = (sg K (par l r) * diagFactor q (l &&& r)) • blade q (l ^^^ r) := by
  refine (bilin_single _ l r 1 1).trans ?_
  rw [orthMul_gp]
  unfold blade
  refine Eq.trans ?_ (Finsupp.smul_single _ _ _).symm
  simp

theorem single_eq (b : Word) (a : K) : (Finsupp.single b a : MV K) = (a • blade q b : Cl q) := by
  unfold blade
  refine Eq.trans ?_ (Finsupp.smul_single a b (1 : K)).symm
  simp

theorem induction {q : Fin 64 → K} {p : Cl q → Prop} (A : Cl q) (h0 : p 0)
    (hadd : ∀ A B, p A → p B → p (A + B)) (hs : ∀ b (a : K), p (a • blade q b)) : p A :=
  mv_induction (p := p) A h0 hadd fun b a => by rw [single_eq q]; exact hs b a

theorem one_eq_blade : (1 : Cl q) = blade q 0 := rfl

theorem bit_mul (i : Fin 64) (b : Word) :
    blade q (bit i) * blade q b
      = (sg K (∑ j ∈ Finset.range i, bz b j) * if b.getLsbD i then q i else 1) •
        blade q (bit i ^^^ b) := by
  rw [blade_mul, par_bit_left i i.2, diagFactor_and_bit]

theorem bit_sq (i : Fin 64) : blade q (bit i) * blade q (bit i) = q i • 1 := by
  rw [bit_mul, getLsbD_bit i i i.2, BitVec.xor_self]
  rw [Finset.sum_eq_zero (fun j hj => by
    rw [bz_bit _ _ i.2, if_neg]; simp only [Finset.mem_range] at hj; omega)]
  simp [one_eq_blade]

theorem bit_anticomm (i j : Fin 64) (h : i ≠ j) :
    blade q (bit i) * blade q (bit j) = - (blade q (bit j) * blade q (bit i)) := by
  have hs := par_swap (bit i) (bit j)
  have hand : (bit i &&& bit j : Word) = 0 := by
    apply BitVec.eq_of_getLsbD_eq
    intro k hk
    rw [BitVec.getLsbD_and, getLsbD_bit _ _ i.2, getLsbD_bit _ _ j.2]
    have : (i : Nat) ≠ j := fun e => h (Fin.ext e)
    by_cases h1 : k = i
    · simp [h1, this]
    · simp [h1]
  have hg : ∀ i : Fin 64, gr (bit i) = 1 := by
    intro i
    unfold gr
    rw [Finset.sum_eq_single (i : Nat)]
    · rw [bz_bit _ _ i.2]; simp
    · intro k _ hk; rw [bz_bit _ _ i.2, if_neg hk]
    · intro h; exact absurd (Finset.mem_range.mpr i.2) h
  have h0 : gr 0 = 0 := by unfold gr; simp only [bz_zero, Finset.sum_const_zero]
  rw [hand, hg, hg, h0, add_zero, one_mul] at hs
  have hp : par (bit i) (bit j) = par (bit j) (bit i) + 1 := by
    rw [← hs, add_left_comm, zmod2_add_self, add_zero]
  rw [blade_mul, blade_mul, BitVec.xor_comm (bit j), BitVec.and_comm (bit j), hand, hp, sg_add,
    sg_one]
  simp only [mul_neg, mul_one, neg_mul, neg_smul]

/-- the vector with coordinates `v` -/
noncomputable def vec (v : Fin 64 → K) : Cl q := ∑ i, v i • blade q (bit i)

theorem vec_sq_aux {ι : Type*} (f : ι → Fin 64) (hf : Function.Injective f) (v : ι → K)
    (s : Finset ι) :
    (∑ i ∈ s, v i • blade q (bit (f i))) * (∑ i ∈ s, v i • blade q (bit (f i)))
      = (∑ i ∈ s, q (f i) * (v i * v i)) • (1 : Cl q) := by
  classical
  induction s using Finset.induction_on with
  | empty => simp
  | insert k s hk ih =>
    rw [Finset.sum_insert hk, Finset.sum_insert hk, add_mul, mul_add, mul_add, ih, add_smul]
    have h1 : (v k • blade q (bit (f k))) * (∑ i ∈ s, v i • blade q (bit (f i)))
        = - ((∑ i ∈ s, v i • blade q (bit (f i))) * (v k • blade q (bit (f k)))) := by
      rw [Finset.mul_sum, Finset.sum_mul, ← Finset.sum_neg_distrib]
      refine Finset.sum_congr rfl fun i hi => ?_
      rw [smul_mul_smul_comm, smul_mul_smul_comm,
        bit_anticomm q (f k) (f i) (by intro e; rw [hf e] at hk; exact hk hi), smul_neg, mul_comm]
    rw [h1, smul_mul_smul_comm, bit_sq, smul_smul, mul_comm (v k * v k)]
    abel

theorem vec_sq (v : Fin 64 → K) :
    vec q v * vec q v = (∑ i, q i * (v i * v i)) • (1 : Cl q) :=
  vec_sq_aux q id Function.injective_id v _

end Cl

/-! ### the Clifford algebra of the first `n` basis vectors -/

section Iso
variable (q : Fin 64 → K) {n : Nat} (hn : n ≤ 64)

/-- index of the `i`-th vector among 64 -/
abbrev ix (hn : n ≤ 64) (i : Fin n) : Fin 64 := ⟨i.1, lt_of_lt_of_le i.2 hn⟩

/-- the quadratic form of the first `n` basis vectors -/
abbrev QF : QuadraticForm K (Fin n → K) :=
  QuadraticMap.weightedSumSquares K (fun i : Fin n => q (ix hn i))

/-- vectors as multivectors -/
noncomputable def vecLin : (Fin n → K) →ₗ[K] Cl q where
  toFun v := ∑ i : Fin n, v i • Cl.blade q (bit i)
  map_add' v w := by simp only [Pi.add_apply, add_smul, Finset.sum_add_distrib]
  map_smul' c v := by
    simp only [Pi.smul_apply, smul_eq_mul, RingHom.id_apply, Finset.smul_sum, smul_smul]

theorem vecLin_apply (v : Fin n → K) : vecLin q v = ∑ i : Fin n, v i • Cl.blade q (bit i) := rfl

theorem vecLin_sq (v : Fin n → K) :
    vecLin q v * vecLin q v = algebraMap K (Cl q) (QF q hn v) := by
  rw [vecLin_apply]
  have e := Cl.vec_sq_aux q (ix hn) (fun a b h => by simpa [Fin.ext_iff] using h) v Finset.univ
  refine e.trans ?_
  rw [Algebra.algebraMap_eq_smul_one, QuadraticMap.weightedSumSquares_apply]
  simp [smul_eq_mul]

/-- from the Clifford algebra to multivectors -/
noncomputable def psi : CliffordAlgebra (QF q hn) →ₐ[K] Cl q :=
  CliffordAlgebra.lift _ ⟨vecLin q, vecLin_sq q hn⟩

theorem psi_ι (v : Fin n → K) :
    psi q hn (CliffordAlgebra.ι _ v) = vecLin q v := by
  unfold psi; rw [CliffordAlgebra.lift_ι_apply]

/-- `i`-th basis vector in the Clifford algebra -/
noncomputable def gen (i : Fin n) : CliffordAlgebra (QF q hn) :=
  CliffordAlgebra.ι _ (Pi.single i 1)

theorem psi_gen (i : Fin n) : psi q hn (gen q hn i) = Cl.blade q (bit i) := by
  unfold gen; rw [psi_ι, vecLin_apply, Finset.sum_eq_single i]
  · simp
  · intro j _ hj; simp [Pi.single_eq_of_ne hj]
  · simp

theorem gen_sq (i : Fin n) : gen q hn i * gen q hn i = q (ix hn i) • 1 := by
  unfold gen
  rw [CliffordAlgebra.ι_sq_scalar, Algebra.algebraMap_eq_smul_one,
    QuadraticMap.weightedSumSquares_apply, Finset.sum_eq_single i]
  · simp
  · intro j _ hj; simp [Pi.single_eq_of_ne hj]
  · simp

theorem gen_anticomm (i j : Fin n) (h : i ≠ j) :
    gen q hn i * gen q hn j = - (gen q hn j * gen q hn i) := by
  unfold gen
  rw [eq_neg_iff_add_eq_zero, CliffordAlgebra.ι_mul_ι_add_swap]
  have : QuadraticMap.polar (QF q hn) (Pi.single i 1) (Pi.single j 1) = 0 := by
    unfold QuadraticMap.polar
    simp only [QuadraticMap.weightedSumSquares_apply, Pi.add_apply, smul_eq_mul]
    rw [← Finset.sum_sub_distrib, ← Finset.sum_sub_distrib]
    refine Finset.sum_eq_zero fun k _ => ?_
    by_cases hk : k = i
    · subst hk; rw [Pi.single_eq_of_ne (M := fun _ => K) h]; ring
    · rw [Pi.single_eq_of_ne (M := fun _ => K) hk]; ring
  rw [this, map_zero]

/-- the product, in increasing order, of the vectors of `b` below `m` -/
noncomputable def word (b : Word) : (m : Nat) → m ≤ n → CliffordAlgebra (QF q hn)
  | 0, _ => 1
  | m + 1, h => word b m (by omega) * if b.getLsbD m then gen q hn ⟨m, by omega⟩ else 1

theorem word_congr (b c : Word) (m : Nat) (h : m ≤ n) (e : ∀ j < m, b.getLsbD j = c.getLsbD j) :
    word q hn b m h = word q hn c m h := by
  induction m with
  | zero => rfl
  | succ m ih => rw [word, word, ih _ (fun j hj => e j (by omega)), e m (by omega)]

theorem gen_mul_word_ge (b : Word) (i : Fin n) (m : Nat) (h : m ≤ n) (hm : m ≤ i) :
    gen q hn i * word q hn b m h
      = sg K (∑ j ∈ Finset.range m, bz b j) • (word q hn b m h * gen q hn i) := by
  induction m with
  | zero => simp [word]
  | succ m ih =>
    rw [word, ← mul_assoc, ih _ (by omega), Finset.sum_range_succ, sg_add, smul_mul_assoc,
      mul_smul]
    congr 1
    by_cases hb : b.getLsbD m
    · simp only [hb, if_true, bz, sg_one, neg_smul, one_smul]
      rw [mul_assoc, gen_anticomm q hn i ⟨m, by omega⟩ (by intro e; rw [e] at hm; simp at hm),
        mul_neg, mul_assoc]
    · simp [hb, bz]

theorem gen_mul_word (b : Word) (i : Fin n) (m : Nat) (h : m ≤ n) (hm : i < m) :
    gen q hn i * word q hn b m h
      = (sg K (∑ j ∈ Finset.range i, bz b j) * if b.getLsbD i then q (ix hn i) else 1) •
        word q hn (bit i ^^^ b) m h := by
  have hi64 : (i : Nat) < 64 := lt_of_lt_of_le i.2 hn
  induction m with
  | zero => omega
  | succ m ih =>
    rcases Nat.lt_or_ge i m with him | him
    · rw [word, ← mul_assoc, ih _ him, word, smul_mul_assoc, BitVec.getLsbD_xor,
        getLsbD_bit _ _ hi64]
      have : ¬ m = i := by omega
      simp [this]
    · obtain rfl : m = i := by omega
      rw [word, ← mul_assoc, gen_mul_word_ge q hn b i _ _ le_rfl, smul_mul_assoc, mul_smul, word,
        BitVec.getLsbD_xor, getLsbD_bit _ _ hi64,
        word_congr q hn (bit i ^^^ b) b _ _ (fun j hj => by
          rw [BitVec.getLsbD_xor, getLsbD_bit _ _ hi64]
          have : ¬ j = i := by omega
          simp [this])]
      congr 1
      by_cases hb : b.getLsbD i
      · simp only [hb, if_true, decide_true, Bool.xor_self]
        rw [mul_assoc, gen_sq, mul_smul_comm]; simp
      · simp [hb]

/-- from multivectors to the Clifford algebra -/
noncomputable def phi : MV K →ₗ[K] CliffordAlgebra (QF q hn) :=
  Finsupp.linearCombination K fun b => word q hn b n le_rfl

theorem phi_blade (b : Word) : phi q hn (Cl.blade q b) = word q hn b n le_rfl := by
  unfold phi Cl.blade
  rw [Finsupp.linearCombination_single, one_smul]

theorem phi_smul (a : K) (A : Cl q) : phi q hn (a • A) = a • phi q hn A :=
  (phi q hn).map_smul a A

theorem phi_add (A B : Cl q) : phi q hn (A + B) = phi q hn A + phi q hn B :=
  (phi q hn).map_add A B

theorem phi_gen_mul (i : Fin n) (A : Cl q) :
    phi q hn (Cl.blade q (bit i) * A) = gen q hn i * phi q hn A := by
  induction A using Cl.induction with
  | h0 =>
    rw [mul_zero]
    change phi q hn (0 : MV K) = gen q hn i * phi q hn (0 : MV K)
    rw [map_zero, mul_zero]
  | hadd A B hA hB => rw [mul_add, phi_add, hA, hB, phi_add, mul_add]
  | hs b a =>
    have e2 := Cl.bit_mul q (ix hn i) b
    rw [mul_smul_comm, phi_smul, phi_smul, phi_blade, mul_smul_comm,
      gen_mul_word q hn b i n le_rfl i.2]
    congr 1
    refine (congrArg (phi q hn) e2).trans ?_
    rw [phi_smul, phi_blade]

theorem ι_eq_sum (v : Fin n → K) :
    CliffordAlgebra.ι (QF q hn) v = ∑ i, v i • gen q hn i := by
  unfold gen
  conv_lhs => rw [← Finset.univ_sum_single v]
  rw [map_sum]
  refine Finset.sum_congr rfl fun i _ => ?_
  rw [← map_smul]; congr 1
  ext j
  by_cases h : j = i
  · subst h; simp
  · simp [Pi.single_eq_of_ne (M := fun _ => K) h]

theorem phi_psi_mul (x : CliffordAlgebra (QF q hn)) :
    ∀ A : Cl q, phi q hn (psi q hn x * A) = x * phi q hn A := by
  induction x using CliffordAlgebra.induction with
  | algebraMap r =>
    intro A
    rw [AlgHom.commutes, ← Algebra.smul_def, phi_smul, ← Algebra.smul_def]
  | ι v =>
    intro A
    have hs : ∀ (s : Finset (Fin n)), phi q hn ((∑ i ∈ s, v i • Cl.blade q (bit i)) * A)
        = (∑ i ∈ s, v i • gen q hn i) * phi q hn A := by
      classical
      intro s
      induction s using Finset.induction_on with
      | empty => simp only [Finset.sum_empty, zero_mul]; exact map_zero (phi q hn)
      | insert k s hk ih =>
        rw [Finset.sum_insert hk, Finset.sum_insert hk, add_mul, phi_add, ih, smul_mul_assoc,
          phi_smul, phi_gen_mul, add_mul, smul_mul_assoc]
    rw [psi_ι, vecLin_apply, hs, ι_eq_sum]
  | mul x y hx hy =>
    intro A
    rw [map_mul, mul_assoc, hx, hy, mul_assoc]
  | add x y hx hy =>
    intro A
    rw [map_add, add_mul, phi_add, hx, hy, add_mul]

theorem word_zero (m : Nat) (h : m ≤ n) : word q hn 0 m h = 1 := by
  induction m with
  | zero => rfl
  | succ m ih => rw [word, ih]; simp

theorem phi_psi (x : CliffordAlgebra (QF q hn)) : phi q hn (psi q hn x) = x := by
  have := phi_psi_mul q hn x 1
  rw [mul_one] at this
  rw [this, Cl.one_eq_blade, phi_blade, word_zero, mul_one]

/-- the vectors of `b` below `m` -/
def lowBits (b : Word) (m : Nat) : Word := b &&& BitVec.ofNat 64 (2 ^ m - 1)

theorem getLsbD_lowBits (b : Word) (m j : Nat) (hj : j < 64) :
    (lowBits b m).getLsbD j = (b.getLsbD j && decide (j < m)) := by
  unfold lowBits
  rw [BitVec.getLsbD_and, BitVec.getLsbD_ofNat, Nat.testBit_two_pow_sub_one]
  simp [hj]

theorem psi_word (b : Word) (m : Nat) (h : m ≤ n) :
    psi q hn (word q hn b m h) = Cl.blade q (lowBits b m) := by
  induction m with
  | zero =>
    rw [word, map_one, Cl.one_eq_blade]; congr 1
    unfold lowBits; simp
  | succ m ih =>
    have hm64 : m < 64 := by omega
    rw [word, map_mul, ih]
    by_cases hb : b.getLsbD m
    · rw [if_pos hb, psi_gen]
      change Cl.blade q (lowBits b m) * Cl.blade q (bit m) = _
      rw [Cl.blade_mul, par_bit_right_of_lt m hm64]
      · have hand : (lowBits b m &&& bit m) = 0 := by
          apply BitVec.eq_of_getLsbD_eq
          intro j hj
          rw [BitVec.getLsbD_and, getLsbD_lowBits _ _ _ hj, getLsbD_bit _ _ hm64]
          by_cases h1 : j = m
          · simp [h1]
          · simp [h1]
        rw [hand, diagFactor_zero, sg_zero, mul_one, one_smul]
        congr 1
        apply BitVec.eq_of_getLsbD_eq
        intro j hj
        rw [BitVec.getLsbD_xor, getLsbD_lowBits _ _ _ hj, getLsbD_bit _ _ hm64,
          getLsbD_lowBits _ _ _ hj]
        by_cases h1 : j = m
        · subst h1; simp [hb]
        · have : j < m + 1 ↔ j < m := by omega
          simp [h1, this]
      · intro j hj
        rcases Nat.lt_or_ge j 64 with h64 | h64
        · rw [getLsbD_lowBits _ _ _ h64]
          have : ¬ j < m := by omega
          simp [this]
        · exact BitVec.getLsbD_of_ge _ _ h64
    · rw [if_neg hb, map_one, mul_one]
      congr 1
      apply BitVec.eq_of_getLsbD_eq
      intro j hj
      rw [getLsbD_lowBits _ _ _ hj, getLsbD_lowBits _ _ _ hj]
      by_cases h1 : j = m
      · subst h1; simp [hb]
      · have : j < m + 1 ↔ j < m := by omega
        simp [this]

end Iso

end GATL
