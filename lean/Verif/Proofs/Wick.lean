import Verif.Proofs.Enumerate
import Verif.Proofs.Versor
import Mathlib.LinearAlgebra.CliffordAlgebra.Contraction
import Mathlib.LinearAlgebra.ExteriorAlgebra.Basic
import Mathlib.LinearAlgebra.Matrix.BilinearForm
import Mathlib.Algebra.BigOperators.Ring.Finset

/-! Helper lemmas: the Clifford product of an arbitrary bilinear form on basis blades, expanded over
the sets of contracted vectors. -/

namespace GATL
open Spec

variable {K : Type*} [CommRing K]

/-- the word with a given set of bits -/
noncomputable def wordOf (S : Finset (Fin 64)) : Word := (exists_word S).choose
theorem vecs_wordOf (S : Finset (Fin 64)) : vecs (wordOf S) = S := (exists_word S).choose_spec
theorem wordOf_vecs (b : Word) : wordOf (vecs b) = b := vecs_inj (vecs_wordOf _)

theorem ones_wordOf (S : Finset (Fin 64)) : ones (wordOf S) = S.card := by
  rw [← gradeOf_eq]; unfold gradeOf; rw [vecs_wordOf]

/-- contraction in the metric whose Gram matrix is the identity -/
noncomputable abbrev lc (A B : MV K) : MV K := orthProd (diagFactor fun _ => (1 : K)) .lcont A B

/-- basis vector -/
noncomputable abbrev ev (i : Fin 64) : MV K := Finsupp.single (bit i) 1

theorem lc_single (l r : Word) (a b : K) :
    lc (Finsupp.single l a) (Finsupp.single r b)
      = Finsupp.single (l ^^^ r) (a * b * if l &&& r = l then sg K (par l r) else 0) := by
  unfold lc
  rw [lcont_single]
  have : diagFactor (fun _ => (1 : K)) l = 1 := by unfold diagFactor; simp
  rw [this, mul_one]

theorem op_graded_comm {r s : Nat} {A B : MV K} (hA : Homogeneous r A) (hB : Homogeneous s B) :
    op A B = (-1 : K) ^ (r * s) • op B A := by
  refine bilin_comm hA hB _ _ _ fun L R hL hR => ?_
  apply single_ext
  · dsimp only
    rw [ext_form, ext_form, BitVec.and_comm R L]
    split
    · rename_i h
      have hp := par_swap L R
      rw [h, gr_eq, gr_eq, gr_eq, hL, hR, ones_zero] at hp
      have : par L R = par R L + ((r * s : Nat) : ZMod 2) := by
        push_cast
        rw [Nat.cast_zero, add_zero] at hp
        rw [← hp, add_left_comm, zmod2_add_self, add_zero]
      rw [this, sg_add, sg_natCast, mul_comm]
    · rw [mul_zero]
  · intro _; rw [extMul_snd, extMul_snd]; exact BitVec.or_comm _ _

theorem op_assoc' (A B C : MV K) : op (op A B) C = op A (op B C) := by
  simp only [op_eq_gp_zero]; exact gp_assoc _ A B C

theorem op_scalar_left (c : K) (B : MV K) : op (scalar c) B = c • B := by
  rw [op_eq_gp_zero]; exact gp_scalar_left _ c B

theorem op_scalar_right (c : K) (B : MV K) : op B (scalar c) = c • B := by
  rw [op_eq_gp_zero]; exact gp_scalar_right _ c B

variable (M : Fin 64 → Fin 64 → K)

/-- the vector of the products of `e_c` with the basis vectors -/
noncomputable def mvec (c : Fin 64) : MV K := ∑ x : Fin 64, M x c • ev x

theorem homog_sum {ι : Type*} (s : Finset ι) {k : Nat} (f : ι → MV K)
    (h : ∀ i ∈ s, Homogeneous k (f i)) : Homogeneous k (∑ i ∈ s, f i) :=
  Finset.sum_induction f (Homogeneous k) (fun _ _ => homog_add) (homog_zero k) h

theorem mvec_homog (c : Fin 64) : Homogeneous 1 (mvec M c) :=
  homog_sum _ _ fun x _ => homog_smul _ (homog_bit x)

/-- contraction by basis vector `c` -/
noncomputable def con (c : Fin 64) (B : MV K) : MV K := lc (mvec M c) B

theorem con_add (c : Fin 64) (A B : MV K) : con M c (A + B) = con M c A + con M c B :=
  prod_add_right _ _ _ _ _
theorem con_smul (c : Fin 64) (a : K) (B : MV K) : con M c (a • B) = a • con M c B :=
  prod_smul_right _ _ _ _ _
theorem con_zero (c : Fin 64) : con M c 0 = 0 := prod_zero_right _ _ _
theorem con_neg (c : Fin 64) (B : MV K) : con M c (-B) = - con M c B := prod_neg_right _ _ _ _

theorem lc_ev_ev (i j : Fin 64) : lc (ev i) (ev j : MV K) = scalar (if i = j then 1 else 0) := by
  unfold ev
  rw [lc_single]
  by_cases h : i = j
  · subst h
    have : par (bit i) (bit i) = 0 := by
      rw [par_bit_left i i.2]
      refine Finset.sum_eq_zero fun k hk => ?_
      have := Finset.mem_range.mp hk
      rw [bz_bit i k i.2, if_neg (by omega)]
    rw [BitVec.and_self, if_pos rfl, if_pos rfl, this, sg_zero, BitVec.xor_self]
    simp [scalar]
  · rw [if_neg, if_neg h]
    · simp [scalar]
    · rw [bit_and_eq, getLsbD_bit j i j.2]
      simpa [Fin.ext_iff] using h

/-- sums pull out of the left operand -/
theorem lc_sum_left {ι : Type*} (s : Finset ι) (f : ι → MV K) (B : MV K) :
    lc (∑ i ∈ s, f i) B = ∑ i ∈ s, lc (f i) B := by
  simp [orthProd]

theorem lc_sum_right {ι : Type*} (s : Finset ι) (f : ι → MV K) (B : MV K) :
    lc B (∑ i ∈ s, f i) = ∑ i ∈ s, lc B (f i) := by
  simp [orthProd]

theorem op_sum_right {ι : Type*} (s : Finset ι) (f : ι → MV K) (B : MV K) :
    op B (∑ i ∈ s, f i) = ∑ i ∈ s, op B (f i) := by
  simp [op]

theorem op_sum_left {ι : Type*} (s : Finset ι) (f : ι → MV K) (B : MV K) :
    op (∑ i ∈ s, f i) B = ∑ i ∈ s, op (f i) B := by
  simp [op]

theorem con_ev (c u : Fin 64) : con M c (ev u) = scalar (M u c) := by
  unfold con mvec
  rw [lc_sum_left]
  rw [Finset.sum_eq_single u]
  · have : lc (M u c • ev u) (ev u) = M u c • lc (ev u) (ev u : MV K) := prod_smul_left _ _ _ _ _
    rw [this, lc_ev_ev, if_pos rfl]
    unfold scalar
    rw [Finsupp.smul_single, smul_eq_mul, mul_one]
  · intro x _ hx
    have : lc (M x c • ev x) (ev u) = M x c • lc (ev x) (ev u : MV K) := prod_smul_left _ _ _ _ _
    rw [this, lc_ev_ev, if_neg hx]
    simp [scalar]
  · simp

/-- contraction is a derivation -/
theorem con_op (c u : Fin 64) (B : MV K) :
    con M c (op (ev u) B) = M u c • B - op (ev u) (con M c B) := by
  unfold con
  rw [lc, lcont_derivation _ (mvec_homog M c) (homog_bit u)]
  have h : orthProd (diagFactor fun _ => (1 : K)) .lcont (mvec M c) (ev u) = scalar (M u c) :=
    con_ev M c u
  rw [h, op_scalar_left, pow_one, neg_one_smul, sub_eq_add_neg]

theorem con_anticomm (c d : Fin 64) (B : MV K) : con M c (con M d B) = - con M d (con M c B) := by
  unfold con lc
  rw [← lcont_op, ← lcont_op, op_vec_comm (mvec_homog M c) (mvec_homog M d), prod_neg_left]

theorem con_self (c : Fin 64) (B : MV K) : con M c (con M c B) = 0 := by
  unfold con lc
  rw [← lcont_op]
  have : op (mvec M c) (mvec M c) = 0 := op_vec_self (mvec_homog M c)
  rw [this, prod_zero_left]

theorem con_scalar (c : Fin 64) (a : K) : con M c (scalar a) = 0 := by
  have : (scalar a : MV K) = a • scalar 1 := by
    unfold scalar; rw [Finsupp.smul_single, smul_eq_mul, mul_one]
  rw [this, con_smul]
  have h : con M c (scalar 1) = 0 := lcont_one _ (mvec_homog M c)
  rw [h, smul_zero]

/-- outer product of the contraction vectors of a list of basis vectors -/
noncomputable def lamL : List (Fin 64) → MV K
  | [] => scalar 1
  | c :: t => op (mvec M c) (lamL t)

/-- the same for a blade, in increasing order -/
noncomputable def lam (C : Word) : MV K := lamL M ((vecs C).sort (· ≤ ·))

theorem lamL_homog (l : List (Fin 64)) : Homogeneous l.length (lamL M l) := by
  induction l with
  | nil => exact homog_single _ ones_zero
  | cons c t ih =>
    have := Iso.op_homog (mvec_homog M c) ih
    rw [List.length_cons, Nat.add_comm]
    exact this

theorem lam_homog (C : Word) : Homogeneous (ones C) (lam M C) := by
  have := lamL_homog M ((vecs C).sort (· ≤ ·))
  rw [Finset.length_sort] at this
  rw [← gradeOf_eq]
  exact this

theorem lam_zero : lam M 0 = scalar 1 := by
  have : vecs (0 : Word) = ∅ := by ext i; rw [mem_vecs]; simp
  unfold lam
  rw [this, Finset.sort_empty]; rfl

theorem lam_low {C : Word} {i : Fin 64} (hi : C.getLsbD i = true)
    (hlow : ∀ j < i.val, C.getLsbD j = false) :
    lam M C = op (mvec M i) (lam M (C ^^^ bit i)) := by
  unfold lam; rw [vecs_low hi hlow]; rfl

/-- The expansion of the product of two blades over the subsets of contracted vectors of the left
one. -/
noncomputable def wick (A : Word) (B : MV K) : MV K :=
  ∑ S ∈ (vecs A).powerset,
    sg K (par (A ^^^ wordOf S) (wordOf S)) •
      op (Finsupp.single (A ^^^ wordOf S) 1) (lc (lam M (wordOf S)) B)

theorem wick_zero_left (B : MV K) : wick M 0 B = B := by
  have hv : vecs (0 : Word) = ∅ := by ext i; rw [mem_vecs]; simp
  have hw : wordOf ∅ = 0 := by rw [← hv, wordOf_vecs]
  unfold wick
  rw [hv, Finset.powerset_empty, Finset.sum_singleton, hw, lam_zero, BitVec.xor_self]
  have h1 : lc (scalar 1) B = B := by
    induction B using mv_induction with
    | h0 => exact prod_zero_right _ _ _
    | hadd A B hA hB => unfold lc at *; rw [prod_add_right, hA, hB]
    | hs b a =>
      unfold scalar
      rw [lc_single]
      have : (0 : Word) ^^^ b = b := BitVec.zero_xor
      have h2 : (0 : Word) &&& b = 0 := BitVec.zero_and
      rw [this, h2, if_pos rfl, par_zero_left, sg_zero]
      simp
  rw [h1]
  have h2 := op_scalar_left (1 : K) B
  unfold scalar at h2
  have h3 : par 0 0 = 0 := par_zero_left 0
  rw [show (0#64 : Word) = 0 from rfl, h2, h3, sg_zero, one_smul, one_smul]

theorem wick_add (A : Word) (B C : MV K) : wick M A (B + C) = wick M A B + wick M A C := by
  unfold wick lc
  simp only [prod_add_right, op_add_right, smul_add, Finset.sum_add_distrib]

theorem wick_smul (A : Word) (a : K) (B : MV K) : wick M A (a • B) = a • wick M A B := by
  unfold wick lc
  simp only [prod_smul_right, op_smul_right, Finset.smul_sum]
  refine Finset.sum_congr rfl fun S _ => ?_
  rw [smul_comm]

/-- splitting off the lowest vector of the left operand -/
theorem wick_low {A : Word} {i : Fin 64} (hi : A.getLsbD i = true)
    (hlow : ∀ j < i.val, A.getLsbD j = false) (B : MV K) :
    wick M A B = op (ev i) (wick M (A ^^^ bit i) B)
      + (-1 : K) ^ ones (A ^^^ bit i) • wick M (A ^^^ bit i) (con M i B) := by
  have hA : vecs A = insert i (vecs (A ^^^ bit i)) := by
    ext j
    rw [Finset.mem_insert, mem_vecs, mem_vecs, bit_xor_low hi j j.2]
    by_cases h : j = i
    · subst h; simp [hi]
    · have : j.val ≠ i.val := fun h' => h (Fin.ext h')
      simp [h, this]
  have hni : i ∉ vecs (A ^^^ bit i) := by
    rw [mem_vecs, bit_xor_low hi i i.2]; simp
  generalize hA' : A ^^^ bit i = A' at *
  have hAx : A = bit i ^^^ A' := by
    rw [← hA', BitVec.xor_comm A, ← BitVec.xor_assoc, BitVec.xor_self, BitVec.zero_xor]
  unfold wick
  rw [hA, Finset.sum_powerset_insert hni, op_sum_right, Finset.smul_sum]
  have hsub : ∀ S ∈ (vecs A').powerset, ∀ j : Nat, j ≤ i.val → (wordOf S).getLsbD j = false := by
    intro S hS j hj
    rw [Finset.mem_powerset] at hS
    by_contra h
    have hj64 : j < 64 := by omega
    have h1 : (⟨j, hj64⟩ : Fin 64) ∈ vecs (wordOf S) := mem_vecs.mpr (by simpa using h)
    rw [vecs_wordOf] at h1
    have h2 := hS h1
    rw [mem_vecs, ← hA', bit_xor_low hi j hj64, Bool.and_eq_true] at h2
    rcases Nat.lt_or_eq_of_le hj with h3 | h3
    · rw [hlow j h3] at h2; exact absurd h2.1 (by simp)
    · simp [h3] at h2
  have hlowA' : ∀ j : Nat, j ≤ i.val → A'.getLsbD j = false := by
    intro j hj
    have hj64 : j < 64 := by omega
    rw [← hA', bit_xor_low hi j hj64]
    rcases Nat.lt_or_eq_of_le hj with h3 | h3
    · rw [hlow j h3]; rfl
    · simp [h3]
  refine congrArg₂ (· + ·) ?_ ?_
  · refine Finset.sum_congr rfl fun S hS => ?_
    have hC := hsub S hS
    generalize wordOf S = C at *
    have e1 : A ^^^ C = bit i ^^^ (A' ^^^ C) := by rw [hAx, BitVec.xor_assoc]
    have hD : ∀ j : Nat, j ≤ i.val → (A' ^^^ C).getLsbD j = false := by
      intro j hj; rw [BitVec.getLsbD_xor, hlowA' j hj, hC j hj]; rfl
    generalize A' ^^^ C = D at *
    rw [e1, par_xor_left, par_bit_low (fun j hj => hC j (by omega)), zero_add, op_smul_right,
      ← op_assoc', op_single', par_bit_low (fun j hj => hD j (by omega)),
      if_pos ((bit_and_zero i D).mpr (hD i le_rfl)), sg_zero]
    simp
  · refine Finset.sum_congr rfl fun S hS => ?_
    have hC := hsub S hS
    have hSsub := Finset.mem_powerset.mp hS
    have hins : wordOf (insert i S) = bit i ^^^ wordOf S := by
      apply vecs_inj
      rw [vecs_wordOf]
      ext j
      have hj := mem_vecs (b := wordOf S) (i := j)
      rw [vecs_wordOf] at hj
      rw [Finset.mem_insert, mem_vecs, BitVec.getLsbD_xor, getLsbD_bit i j i.2, hj]
      by_cases h : j = i
      · subst h; rw [hC j le_rfl]; simp
      · have : ¬ (j.val = i.val) := fun h' => h (Fin.ext h')
        simp [h, this]
    have hcard : ones (A' ^^^ wordOf S) + ones (wordOf S) = ones A' := by
      have h1 := ones_xor_add_two_and A' (wordOf S)
      have h2 : A' &&& wordOf S = wordOf S := by
        apply word_ext
        intro j hj
        rw [BitVec.getLsbD_and]
        cases hb : (wordOf S).getLsbD j
        · simp
        · have h3 : (⟨j, hj⟩ : Fin 64) ∈ S := by rw [← vecs_wordOf S]; exact mem_vecs.mpr hb
          have := mem_vecs.mp (hSsub h3)
          rw [show A'.getLsbD j = true from this]; rfl
      rw [h2] at h1; omega
    rw [hins]
    generalize wordOf S = C at *
    have e1 : A ^^^ (bit i ^^^ C) = A' ^^^ C := by
      rw [hAx, BitVec.xor_comm (bit i) C, ← BitVec.xor_assoc, BitVec.xor_assoc (bit i),
        BitVec.xor_comm (bit i), BitVec.xor_assoc, BitVec.xor_self, BitVec.xor_zero]
    have hD : ∀ j : Nat, j ≤ i.val → (A' ^^^ C).getLsbD j = false := by
      intro j hj; rw [BitVec.getLsbD_xor, hlowA' j hj, hC j hj]; rfl
    have hl : lam M (bit i ^^^ C) = op (mvec M i) (lam M C) := by
      have := lam_low M (C := bit i ^^^ C) (i := i)
        (by rw [BitVec.getLsbD_xor, getLsbD_bit i i i.2, hC i le_rfl]; simp)
        (by intro j hj
            rw [BitVec.getLsbD_xor, getLsbD_bit i j i.2, hC j (by omega)]
            simp; omega)
      rw [this, BitVec.xor_comm (bit i), BitVec.xor_assoc, BitVec.xor_self, BitVec.xor_zero]
    have hswap : lc (lam M (bit i ^^^ C)) B = (-1 : K) ^ ones C • lc (lam M C) (con M i B) := by
      rw [hl, op_graded_comm (mvec_homog M i) (lam_homog M C), one_mul]
      unfold con lc
      rw [prod_smul_left, lcont_op]
    rw [e1, hswap]
    generalize hDD : A' ^^^ C = D at *
    have hpar : par D (bit i) = gr D := by
      have h := par_swap D (bit i)
      rw [par_bit_low (fun j hj => hD j (by omega)), BitVec.and_comm,
        (bit_and_zero i D).mpr (hD i le_rfl), gr_bit, gr_zero] at h
      simpa using h
    rw [par_xor_right, hpar, sg_add, gr_eq, sg_natCast, op_smul_right, smul_smul, smul_smul]
    congr 1
    rw [← hcard, pow_add]
    ring

/-- bilinear extension of `wick` -/
noncomputable def wickL : MV K →ₗ[K] MV K →ₗ[K] MV K :=
  Finsupp.linearCombination K fun A =>
    ({ toFun := wick M A, map_add' := wick_add M A, map_smul' := wick_smul M A } : MV K →ₗ[K] MV K)

theorem wickL_single (A : Word) (a : K) (B : MV K) :
    wickL M (Finsupp.single A a) B = a • wick M A B := by
  unfold wickL
  rw [Finsupp.linearCombination_single]; rfl

theorem wickL_one (A : Word) (B : MV K) : wickL M (Finsupp.single A 1) B = wick M A B := by
  rw [wickL_single, one_smul]

theorem wick_neg (A : Word) (B : MV K) : wick M A (-B) = - wick M A B := by
  rw [← wickL_one, ← wickL_one, map_neg]

/-- product with a basis vector lower than everything in the blade -/
theorem ev_op_low {A : Word} {v : Fin 64} (h : ∀ j : Nat, j ≤ v.val → A.getLsbD j = false) :
    op (ev v) (Finsupp.single A (1 : K)) = Finsupp.single (bit v ^^^ A) 1 := by
  rw [op_single', par_bit_low (fun j hj => h j (by omega)),
    if_pos ((bit_and_zero v A).mpr (h v le_rfl)), sg_zero]
  simp

theorem xor_bit_cancel (v : Fin 64) (A : Word) : (bit v ^^^ A) ^^^ bit v = A := by
  rw [BitVec.xor_comm (bit v), BitVec.xor_assoc, BitVec.xor_self, BitVec.xor_zero]

theorem wick_op_low {A : Word} {v : Fin 64} (h : ∀ j : Nat, j ≤ v.val → A.getLsbD j = false)
    (B : MV K) :
    wickL M (op (ev v) (Finsupp.single A (1 : K))) B
      = op (ev v) (wick M A B) + (-1 : K) ^ ones A • wick M A (con M v B) := by
  rw [ev_op_low h, wickL_one]
  have := wick_low M (A := bit v ^^^ A) (i := v)
    (by rw [BitVec.getLsbD_xor, getLsbD_bit v v v.2, h v le_rfl]; simp)
    (by intro j hj
        rw [BitVec.getLsbD_xor, getLsbD_bit v j v.2, h j (by omega)]
        simp; omega) B
  rw [this, xor_bit_cancel]

/-- a blade without its lowest vector -/
theorem low_rest {A : Word} {u : Fin 64} (hu : A.getLsbD u = true)
    (hlow : ∀ j < u.val, A.getLsbD j = false) (j : Nat) (hj : j ≤ u.val) :
    (A ^^^ bit u).getLsbD j = false := by
  have hj64 : j < 64 := by omega
  rw [bit_xor_low hu j hj64]
  rcases Nat.lt_or_eq_of_le hj with h3 | h3
  · rw [hlow j h3]; rfl
  · simp [h3]

theorem wick_op_single : ∀ m : Nat, ∀ A : Word, ones A = m → ∀ (v : Fin 64) (B : MV K),
    wickL M (op (ev v) (Finsupp.single A (1 : K))) B
      = op (ev v) (wick M A B) + (-1 : K) ^ ones A • wick M A (con M v B) := by
  intro m
  induction m with
  | zero =>
    intro A hA v B
    rw [ones_eq_zero] at hA
    subst hA
    exact wick_op_low M (fun j _ => by simp) B
  | succ m ih =>
    intro A hA v B
    have hne : A ≠ 0 := by rintro rfl; rw [ones_zero] at hA; omega
    obtain ⟨u, hu, hlow⟩ := exists_low hne
    have hrest := low_rest hu hlow
    have hm : ones (A ^^^ bit u) = m := by
      have := ones_bit_xor hu; rw [BitVec.xor_comm] at this; omega
    have hsplit : (Finsupp.single A 1 : MV K) = op (ev u) (Finsupp.single (A ^^^ bit u) 1) := by
      rw [ev_op_low hrest, ← BitVec.xor_assoc, BitVec.xor_comm (bit u), BitVec.xor_assoc, BitVec.xor_self, BitVec.xor_zero]
    have hwick := fun B => wick_low M hu hlow B
    generalize A ^^^ bit u = A' at *
    rw [hwick, hwick, hm, hA]
    rcases lt_trichotomy v u with h | h | h
    · rw [wick_op_low M (fun j hj => hlow j (by have : v.val < u.val := h; omega)), hwick, hwick, hm, hA]
    · subst h
      rw [hsplit, ← op_assoc', op_vec_self (homog_bit v), op_zero_left, map_zero,
        LinearMap.zero_apply, op_add_right, ← op_assoc', op_vec_self (homog_bit v), op_zero_left,
        op_smul_right, con_self, pow_succ]
      have : wick M A' (0 : MV K) = 0 := by
        have := wick_smul M A' (0 : K) 0
        simpa using this
      rw [this]
      simp
    · have hY : ∀ B, wickL M (op (ev u) (op (ev v) (Finsupp.single A' (1 : K)))) B
          = op (ev u) (wickL M (op (ev v) (Finsupp.single A' (1 : K))) B)
            + (-1 : K) ^ (m + 1) • wickL M (op (ev v) (Finsupp.single A' (1 : K))) (con M u B) := by
        intro B
        rw [op_single' (bit v)]
        by_cases hd : bit v &&& A' = 0
        · rw [if_pos hd]
          have hx : ones (bit v ^^^ A') = m + 1 := by
            have := ones_xor_add_two_and (bit v) A'
            rw [hd, ones_zero, ones_bit, hm] at this; omega
          have hlow2 : ∀ j : Nat, j ≤ u.val → (bit v ^^^ A').getLsbD j = false := by
            intro j hj
            have : u.val < v.val := h
            rw [BitVec.getLsbD_xor, hrest j hj, getLsbD_bit v j v.2]
            simp; omega
          have := wick_op_low M hlow2 B
          rw [← wickL_one, ← wickL_one, hx] at this
          generalize (1 * 1 * sg K (par (bit v) A')) = c
          have hc : (Finsupp.single (bit v ^^^ A') c : MV K)
              = c • Finsupp.single (bit v ^^^ A') 1 := by
            rw [Finsupp.smul_single, smul_eq_mul, mul_one]
          rw [hc, op_smul_right, map_smul, LinearMap.smul_apply, this, map_smul,
            LinearMap.smul_apply, LinearMap.smul_apply, op_smul_right, smul_add, smul_comm c]
        · rw [if_neg hd]
          simp [op_zero_right]
      rw [hsplit, ← op_assoc', op_vec_comm (homog_bit v) (homog_bit u)]
      have hneg : op (-op (ev u) (ev v)) (Finsupp.single A' (1 : K))
          = - op (ev u) (op (ev v) (Finsupp.single A' 1)) := by
        rw [← neg_one_smul K, op_smul_left, op_assoc', neg_one_smul]
      rw [hneg, map_neg, LinearMap.neg_apply, hY, ih A' hm, ih A' hm, hm, con_anticomm M v u,
        wick_neg]
      simp only [op_add_right, op_smul_right, smul_add, smul_smul, smul_neg, neg_add]
      have hoo : ∀ X : MV K, op (ev u) (op (ev v) X) = - op (ev v) (op (ev u) X) := by
        intro X
        rw [← op_assoc', ← op_assoc', op_vec_comm (homog_bit u) (homog_bit v), ← neg_one_smul K,
          op_smul_left, neg_one_smul]
      rw [hoo]
      have hs : (-1 : K) ^ (m + 1) = - (-1) ^ m := by rw [pow_succ]; ring
      simp only [hs, neg_mul, neg_smul, neg_neg]
      abel

theorem wick_op_homog {k : Nat} {A : MV K} (hA : Homogeneous k A) (v : Fin 64) (B : MV K) :
    wickL M (op (ev v) A) B
      = op (ev v) (wickL M A B) + (-1 : K) ^ k • wickL M A (con M v B) := by
  refine homog_induction (p := fun A => wickL M (op (ev v) A) B
      = op (ev v) (wickL M A B) + (-1 : K) ^ k • wickL M A (con M v B)) hA ?_ ?_ ?_
  · simp [op_zero_right]
  · intro A A' h h'
    simp only [op_add_right, map_add, LinearMap.add_apply, h, h', smul_add]; abel
  · intro b a hb
    have hc : (Finsupp.single b a : MV K) = a • Finsupp.single b 1 := by
      rw [Finsupp.smul_single, smul_eq_mul, mul_one]
    rw [hc, op_smul_right, map_smul, LinearMap.smul_apply, wick_op_single M _ b rfl, map_smul,
      LinearMap.smul_apply, LinearMap.smul_apply, wickL_one, wickL_one, op_smul_right, smul_add,
      smul_comm a, hb]

theorem con_homog (v : Fin 64) {k : Nat} {A : MV K} (hA : Homogeneous (k + 1) A) :
    Homogeneous k (con M v A) := by
  refine bilin_homog (mvec_homog M v) hA _ fun L R hL hR h => ?_
  rw [lcont_form] at h ⊢
  dsimp only at h ⊢
  have hd : L &&& R = L := by by_contra h'; rw [if_neg h'] at h; exact h rfl
  have := ones_xor_add_two_and L R
  rw [hd] at this
  omega

theorem con_wick_single : ∀ m : Nat, ∀ A : Word, ones A = m → ∀ (v : Fin 64) (B : MV K),
    con M v (wick M A B)
      = wickL M (con M v (Finsupp.single A 1)) B + (-1 : K) ^ ones A • wick M A (con M v B) := by
  intro m
  induction m with
  | zero =>
    intro A hA v B
    rw [ones_eq_zero] at hA
    subst hA
    have : con M v (Finsupp.single 0 1) = 0 := con_scalar M v 1
    rw [this, ones_zero, wick_zero_left, wick_zero_left]
    simp
  | succ m ih =>
    intro A hA v B
    have hne : A ≠ 0 := by rintro rfl; rw [ones_zero] at hA; omega
    obtain ⟨u, hu, hlow⟩ := exists_low hne
    have hrest := low_rest hu hlow
    have hm : ones (A ^^^ bit u) = m := by
      have := ones_bit_xor hu; rw [BitVec.xor_comm] at this; omega
    have hsplit : (Finsupp.single A 1 : MV K) = op (ev u) (Finsupp.single (A ^^^ bit u) 1) := by
      rw [ev_op_low hrest, ← BitVec.xor_assoc, BitVec.xor_comm (bit u), BitVec.xor_assoc,
        BitVec.xor_self, BitVec.xor_zero]
    have hwick := fun B => wick_low M hu hlow B
    generalize A ^^^ bit u = A' at *
    have hop : wickL M (op (ev u) (con M v (Finsupp.single A' 1))) B
        = op (ev u) (wickL M (con M v (Finsupp.single A' 1)) B)
          - (-1 : K) ^ m • wickL M (con M v (Finsupp.single A' 1)) (con M u B) := by
      cases m with
      | zero =>
        rw [ones_eq_zero] at hm
        subst hm
        have : con M v (Finsupp.single 0 1) = 0 := con_scalar M v 1
        rw [this]
        simp [op_zero_right]
      | succ k =>
        rw [wick_op_homog M (con_homog M v (homog_single _ hm)), pow_succ]
        simp [sub_eq_add_neg]
    rw [hwick, hwick, hm, hA, con_add, con_smul, con_op, ih A' hm, ih A' hm, hm, hsplit, con_op,
      map_sub, LinearMap.sub_apply, map_smul, LinearMap.smul_apply, wickL_one, hop,
      con_anticomm M v u, wick_neg]
    have hs : (-1 : K) ^ (m + 1) = - (-1) ^ m := by rw [pow_succ]; ring
    simp only [op_add_right, op_smul_right, smul_add, smul_smul, smul_neg, hs, neg_smul, neg_mul]
    abel

/-- left multiplication by a vector -/
theorem wick_vec (A : MV K) (v : Fin 64) (B : MV K) :
    wickL M (op (ev v) A + con M v A) B = op (ev v) (wickL M A B) + con M v (wickL M A B) := by
  induction A using mv_induction with
  | h0 => simp [op_zero_right, con_zero]
  | hadd A A' h h' =>
    simp only [op_add_right, con_add, map_add, LinearMap.add_apply] at h h' ⊢
    have e : ∀ a b c d : MV K, a + b + (c + d) = (a + c) + (b + d) := by intros; abel
    rw [e, h, h', e]
  | hs b a =>
    have hc : (Finsupp.single b a : MV K) = a • Finsupp.single b 1 := by
      rw [Finsupp.smul_single, smul_eq_mul, mul_one]
    rw [hc, op_smul_right, con_smul, ← smul_add, map_smul, LinearMap.smul_apply, map_smul,
      LinearMap.smul_apply, op_smul_right, con_smul, ← smul_add, map_add, LinearMap.add_apply,
      wick_op_single M _ b rfl, wickL_one, con_wick_single M _ b rfl]
    congr 1
    abel

section iso
variable {n : Nat} (hn : n ≤ 64)

/-- the Gram matrix of the first `n` basis vectors -/
def gram : Matrix (Fin n) (Fin n) K := fun i j => M (ix hn i) (ix hn j)

/-- contraction by the vector with the given coordinates -/
noncomputable def conV (v : Fin n → K) (X : MV K) : MV K := ∑ i, v i • con M (ix hn i) X

theorem vectorOf_eq (v : Fin n → K) : vectorOf v = ∑ i, v i • (ev (ix hn i) : MV K) := rfl

theorem op_vectorOf (v : Fin n → K) (X : MV K) :
    op (vectorOf v) X = ∑ i, v i • op (ev (ix hn i)) X := by
  rw [vectorOf_eq hn, op_sum_left]
  exact Finset.sum_congr rfl fun i _ => op_smul_left _ _ _

theorem wick_vectorOf (v : Fin n → K) (A B : MV K) :
    wickL M (op (vectorOf v) A + conV M hn v A) B
      = op (vectorOf v) (wickL M A B) + conV M hn v (wickL M A B) := by
  unfold conV
  rw [op_vectorOf hn, op_vectorOf hn, ← Finset.sum_add_distrib, ← Finset.sum_add_distrib, map_sum,
    LinearMap.sum_apply]
  refine Finset.sum_congr rfl fun i _ => ?_
  rw [← smul_add, map_smul, LinearMap.smul_apply, wick_vec, smul_add]

/-- the bilinear form `β(v, w) = Σ v_i M(j,i) w_j` -/
noncomputable def beta : LinearMap.BilinForm K (Fin n → K) := Matrix.toBilin' (gram M hn).transpose

theorem conV_op (v w : Fin n → K) (X : MV K) :
    conV M hn v (op (vectorOf w) X)
      = beta M hn v w • X - op (vectorOf w) (conV M hn v X) := by
  unfold conV beta
  rw [op_sum_right, Matrix.toBilin'_apply, Finset.sum_smul, ← Finset.sum_sub_distrib]
  refine Finset.sum_congr rfl fun i _ => ?_
  rw [op_vectorOf hn]
  have : con M (ix hn i) (∑ j, w j • op (ev (ix hn j)) X)
      = ∑ j, con M (ix hn i) (w j • op (ev (ix hn j)) X) := lc_sum_right _ _ _
  rw [this, Finset.smul_sum, Finset.sum_smul, op_smul_right, op_vectorOf hn, Finset.smul_sum,
    ← Finset.sum_sub_distrib]
  refine Finset.sum_congr rfl fun j _ => ?_
  rw [con_smul, con_op, Matrix.transpose_apply]
  show v i • (w j • (gram M hn j i • X - _)) = _
  rw [smul_sub, smul_sub, smul_smul, smul_smul]
  congr 2
  ring

theorem conV_scalar (v : Fin n → K) (a : K) : conV M hn v (scalar a) = 0 := by
  unfold conV
  exact Finset.sum_eq_zero fun i _ => by rw [con_scalar, smul_zero]

theorem conV_add (v : Fin n → K) (X Y : MV K) :
    conV M hn v (X + Y) = conV M hn v X + conV M hn v Y := by
  unfold conV
  rw [← Finset.sum_add_distrib]
  exact Finset.sum_congr rfl fun i _ => by rw [con_add, smul_add]

/-- the exterior algebra, realised as the Clifford algebra of the zero form -/
noncomputable abbrev Ext : QuadraticForm K (Fin n → K) := QF (fun _ => (0 : K)) hn

noncomputable abbrev extE : CliffordAlgebra (Ext (K := K) hn) ≃ₗ[K] space K n := clEquiv (fun _ => 0) hn

theorem extE_one : (extE (K := K) hn 1 : MV K) = scalar 1 := by
  unfold extE; rw [clEquiv_apply, map_one]; rfl

theorem extE_mul (x y : CliffordAlgebra (Ext (K := K) hn)) :
    (extE hn (x * y) : MV K) = op (extE hn x : MV K) (extE hn y) := by
  unfold extE
  rw [clEquiv_apply, map_mul, op_eq_gp_zero]; rfl

theorem extE_ι (v : Fin n → K) : (extE hn (CliffordAlgebra.ι _ v) : MV K) = vectorOf v := by
  unfold extE
  rw [clEquiv_apply, psi_ι, vecLin_eq]

theorem extE_algebraMap (a : K) :
    (extE hn (algebraMap K (CliffordAlgebra (Ext (K := K) hn)) a) : MV K) = scalar a := by
  rw [Algebra.algebraMap_eq_smul_one, map_smul, Submodule.coe_smul, extE_one]
  unfold scalar
  rw [Finsupp.smul_single, smul_eq_mul, mul_one]

theorem extE_contract (v : Fin n → K) (x : CliffordAlgebra (Ext (K := K) hn)) :
    (extE hn (CliffordAlgebra.contractLeft (beta M hn v) x) : MV K) = conV M hn v (extE hn x) := by
  induction x using CliffordAlgebra.left_induction with
  | algebraMap a =>
    rw [CliffordAlgebra.contractLeft_algebraMap, map_zero, extE_algebraMap, conV_scalar]; rfl
  | add x y hx hy =>
    rw [map_add, map_add, map_add, Submodule.coe_add, hx, hy, Submodule.coe_add, conV_add]
  | ι_mul x w hx =>
    rw [CliffordAlgebra.contractLeft_ι_mul, map_sub, Submodule.coe_sub, map_smul, Submodule.coe_smul,
      extE_mul, extE_ι, hx, extE_mul, extE_ι, conV_op]

theorem change_proof :
    (-(beta M hn)).toQuadraticMap = Ext hn - (gram M hn).toQuadraticForm' := by
  ext v
  have h0 : (Ext (K := K) hn) v = 0 := by
    simp [QuadraticMap.weightedSumSquares_apply]
  rw [sub_apply, h0, zero_sub]
  show - beta M hn v v = - _
  congr 1
  unfold beta Matrix.toQuadraticForm'
  rw [LinearMap.BilinMap.toQuadraticMap_apply, Matrix.toLinearMap₂'_apply, Matrix.toBilin'_apply,
    Finset.sum_comm]
  refine Finset.sum_congr rfl fun i _ => Finset.sum_congr rfl fun j _ => ?_
  rw [Matrix.transpose_apply, smul_eq_mul, smul_eq_mul]
  ring

noncomputable def genEquiv :
    CliffordAlgebra (gram M hn).toQuadraticForm' ≃ₗ[K] space K n :=
  (CliffordAlgebra.changeFormEquiv (change_proof M hn)).trans (extE hn)

theorem genEquiv_one : (genEquiv M hn 1 : MV K) = scalar 1 := by
  unfold genEquiv
  rw [LinearEquiv.trans_apply]
  show (extE hn (CliffordAlgebra.changeForm (change_proof M hn) 1) : MV K) = _
  rw [CliffordAlgebra.changeForm_one, extE_one]

theorem genEquiv_ι (v : Fin n → K) :
    (genEquiv M hn (CliffordAlgebra.ι _ v) : MV K) = vectorOf v := by
  unfold genEquiv
  rw [LinearEquiv.trans_apply]
  show (extE hn (CliffordAlgebra.changeForm (change_proof M hn) _) : MV K) = _
  rw [CliffordAlgebra.changeForm_ι, extE_ι]

theorem genEquiv_algebraMap (a : K) :
    (genEquiv M hn (algebraMap K _ a) : MV K) = scalar a := by
  unfold genEquiv
  rw [LinearEquiv.trans_apply]
  show (extE hn (CliffordAlgebra.changeForm (change_proof M hn) _) : MV K) = _
  rw [CliffordAlgebra.changeForm_algebraMap, extE_algebraMap]

theorem genEquiv_ι_mul (v : Fin n → K) (x : CliffordAlgebra (gram M hn).toQuadraticForm') :
    (genEquiv M hn (CliffordAlgebra.ι _ v * x) : MV K)
      = op (vectorOf v) (genEquiv M hn x : MV K) + conV M hn v (genEquiv M hn x) := by
  unfold genEquiv
  rw [LinearEquiv.trans_apply, LinearEquiv.trans_apply]
  show (extE hn (CliffordAlgebra.changeForm (change_proof M hn) _) : MV K)
    = op _ (extE hn (CliffordAlgebra.changeForm (change_proof M hn) x) : MV K) + _
  rw [CliffordAlgebra.changeForm_ι_mul, map_sub, Submodule.coe_sub, extE_mul, extE_ι,
    LinearMap.neg_apply, map_neg, LinearMap.neg_apply, map_neg, Submodule.coe_neg, extE_contract,
    sub_neg_eq_add]
  rfl

theorem genEquiv_mul (x y : CliffordAlgebra (gram M hn).toQuadraticForm') :
    (genEquiv M hn (x * y) : MV K) = wickL M (genEquiv M hn x) (genEquiv M hn y) := by
  induction x using CliffordAlgebra.left_induction with
  | algebraMap a =>
    rw [← Algebra.smul_def, map_smul, Submodule.coe_smul, genEquiv_algebraMap]
    unfold scalar
    rw [wickL_single, wick_zero_left]
  | add x y hx hy =>
    rw [add_mul, map_add, Submodule.coe_add, hx, hy, map_add, Submodule.coe_add, map_add,
      LinearMap.add_apply]
  | ι_mul x w hx =>
    rw [mul_assoc, genEquiv_ι_mul, hx, genEquiv_ι_mul, wick_vectorOf]

end iso

end GATL
