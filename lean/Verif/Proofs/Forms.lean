import Verif.Proofs.Clifford
import Verif.Spec.Multivector

/-! Helper lemmas: closed forms of the products of basis blades. -/

namespace GATL
open Spec

variable {K : Type*} [CommRing K]

theorem gradeOf_eq (b : Word) : gradeOf b = ones b := (ones_eq_card b).symm

theorem single_ext {b c : Word} {x y : K} (h : x = y) (h' : x ≠ 0 → b = c) :
    (Finsupp.single b x : MV K) = Finsupp.single c y := by
  subst h
  by_cases hx : x = 0
  · subst hx; simp
  · rw [h' hx]

theorem word_ext {x y : Word} (h : ∀ i < 64, x.getLsbD i = y.getLsbD i) : x = y :=
  BitVec.eq_of_getLsbD_eq h

theorem ones_mono_eq {x y : Word} (h : x &&& y = x) (he : ones x = ones y) : x = y := by
  have h1 := ones_xor_add_two_and x y
  rw [h, he] at h1
  have : ones (x ^^^ y) = 0 := by omega
  rw [ones_eq_zero] at this
  apply word_ext
  intro i hi
  have := congrArg (fun w => w.getLsbD i) this
  simp only [BitVec.getLsbD_xor] at this
  revert this
  cases x.getLsbD i <;> cases y.getLsbD i <;> simp

theorem and_eq_left_iff (l r : Word) : ones (l &&& r) = ones l ↔ l &&& r = l := by
  constructor
  · intro h
    refine ones_mono_eq ?_ h
    apply word_ext; intro i _
    simp only [BitVec.getLsbD_and]
    cases l.getLsbD i <;> cases r.getLsbD i <;> rfl
  · intro h; rw [h]

theorem and_eq_right_iff (l r : Word) : ones (l &&& r) = ones r ↔ l &&& r = r := by
  rw [BitVec.and_comm]; exact and_eq_left_iff r l

/-! closed forms -/

theorem ext_form (L R : Word) :
    (((extMul L R).1 : Int) : K) = if L &&& R = 0 then sg K (par L R) else 0 := by
  unfold extMul
  have := ones_or_add_and L R
  have h : ones L + ones R = ones (L ||| R) ↔ L &&& R = 0 := by
    rw [← ones_eq_zero]; omega
  by_cases hd : L &&& R = 0
  · rw [if_pos (h.mpr hd), if_pos hd, reorderingSign_cast]
  · rw [if_neg (fun h' => hd (h.mp h')), if_neg hd]; simp

theorem extMul_snd (L R : Word) : (extMul L R).2 = L ||| R := rfl

/-- a form of `extMul` that evaluates by `decide` -/
theorem extMul_eval (L R : Word) : extMul L R =
    (if ones L + ones R = ones (L ||| R) then (-1) ^ (inversions (vecs L) (vecs R)).card else 0,
     L ||| R) := by
  unfold extMul; rw [reorderingSign_eq, strictInv_eq_card]

theorem ones_zero : ones 0 = 0 := by decide

theorem or_eq_xor {L R : Word} (h : L &&& R = 0) : L ||| R = L ^^^ R := by
  apply word_ext; intro i _
  have := congrArg (fun w => w.getLsbD i) h
  simp only [BitVec.getLsbD_and] at this
  rw [BitVec.getLsbD_or, BitVec.getLsbD_xor]
  revert this
  cases L.getLsbD i <;> cases R.getLsbD i <;> simp

theorem lcont_form (f : Word → K) (L R : Word) :
    orthMul f .lcont L R = (if L &&& R = L then sg K (par L R) * f L else 0, L ^^^ R) := by
  unfold orthMul
  have h1 := ones_xor_add_two_and L R
  have h : areValidGrades .lcont (ones L) (ones R) (ones (L ^^^ R)) = true ↔ L &&& R = L := by
    rw [← and_eq_left_iff]
    simp only [areValidGrades, decide_eq_true_eq]
    omega
  by_cases hd : L &&& R = L
  · rw [if_pos (h.mpr hd), if_pos hd, reorderingSign_cast, hd]
  · rw [if_neg (fun h' => hd (h.mp h')), if_neg hd]

theorem rcont_form (f : Word → K) (L R : Word) :
    orthMul f .rcont L R = (if L &&& R = R then sg K (par L R) * f R else 0, L ^^^ R) := by
  unfold orthMul
  have h1 := ones_xor_add_two_and L R
  have h : areValidGrades .rcont (ones L) (ones R) (ones (L ^^^ R)) = true ↔ L &&& R = R := by
    rw [← and_eq_right_iff]
    simp only [areValidGrades, decide_eq_true_eq]
    omega
  by_cases hd : L &&& R = R
  · rw [if_pos (h.mpr hd), if_pos hd, reorderingSign_cast, hd]
  · rw [if_neg (fun h' => hd (h.mp h')), if_neg hd]

theorem xor_eq_zero {L R : Word} : L ^^^ R = 0 ↔ L = R := by
  constructor
  · intro h
    apply word_ext; intro i _
    have := congrArg (fun w => w.getLsbD i) h
    simp only [BitVec.getLsbD_xor] at this
    revert this
    cases L.getLsbD i <;> cases R.getLsbD i <;> simp
  · rintro rfl; exact BitVec.xor_self

theorem sp_form (f : Word → K) (L R : Word) :
    orthMul f .sp L R = (if L = R then sg K (par L L) * f L else 0, L ^^^ R) := by
  unfold orthMul
  have h : areValidGrades .sp (ones L) (ones R) (ones (L ^^^ R)) = true ↔ L = R := by
    simp only [areValidGrades, decide_eq_true_eq]
    rw [Int.natCast_eq_zero, ones_eq_zero, xor_eq_zero]
  by_cases hd : L = R
  · rw [if_pos (h.mpr hd), if_pos hd, reorderingSign_cast, hd, BitVec.and_self]
  · rw [if_neg (fun h' => hd (h.mp h')), if_neg hd]

theorem dot_form (f : Word → K) (L R : Word) :
    orthMul f .dot L R
      = (if L &&& R = L ∨ L &&& R = R then sg K (par L R) * f (L &&& R) else 0, L ^^^ R) := by
  unfold orthMul
  have h1 := ones_xor_add_two_and L R
  have hl : ones (L &&& R) ≤ ones L ∧ ones (L &&& R) ≤ ones R := by
    have := ones_or_add_and L R
    have h2 := ones_or_add_and (L &&& R) (L ^^^ R)
    have h3 : (L &&& R) ||| (L ^^^ R) = L ||| R := by
      apply word_ext; intro i _
      simp only [BitVec.getLsbD_and, BitVec.getLsbD_or, BitVec.getLsbD_xor]
      cases L.getLsbD i <;> cases R.getLsbD i <;> rfl
    have h4 := ones_xor_add_two_and (L &&& R) L
    have h5 : (L &&& R) &&& L = L &&& R := by
      apply word_ext; intro i _
      simp only [BitVec.getLsbD_and]
      cases L.getLsbD i <;> cases R.getLsbD i <;> rfl
    have h6 := ones_xor_add_two_and (L &&& R) R
    have h7 : (L &&& R) &&& R = L &&& R := by
      apply word_ext; intro i _
      simp only [BitVec.getLsbD_and]
      cases L.getLsbD i <;> cases R.getLsbD i <;> rfl
    rw [h5] at h4; rw [h7] at h6; omega
  have h : areValidGrades .dot (ones L) (ones R) (ones (L ^^^ R)) = true
      ↔ (L &&& R = L ∨ L &&& R = R) := by
    rw [← and_eq_left_iff, ← and_eq_right_iff]
    simp only [areValidGrades]
    split <;> rw [decide_eq_true_eq] <;> omega
  by_cases hd : L &&& R = L ∨ L &&& R = R
  · rw [if_pos (h.mpr hd), if_pos hd, reorderingSign_cast]
  · rw [if_neg (fun h' => hd (h.mp h')), if_neg hd]

theorem hip_form (f : Word → K) (L R : Word) :
    orthMul f .hip L R = (if L = 0 ∨ R = 0 then 0 else (orthMul f .dot L R).1, L ^^^ R) := by
  have key : areValidGrades .hip (ones L) (ones R) (ones (L ^^^ R))
      = (!(decide (L = 0 ∨ R = 0)) && areValidGrades .dot (ones L) (ones R) (ones (L ^^^ R))) := by
    have h' : ((ones L : Int) = 0 ∨ (ones R : Int) = 0) ↔ (L = 0 ∨ R = 0) := by
      rw [Int.natCast_eq_zero, Int.natCast_eq_zero, ones_eq_zero, ones_eq_zero]
    simp only [areValidGrades, ← Bool.decide_or, h']
    generalize (ones L : Int) = l
    generalize (ones R : Int) = r
    generalize (ones (L ^^^ R) : Int) = t
    by_cases h : L = 0 ∨ R = 0
    · simp only [h, decide_true, if_true, Bool.not_true, Bool.false_and]
    · simp only [h, decide_false, Bool.false_eq_true, if_false, Bool.not_false, Bool.true_and]
  unfold orthMul
  rw [key]
  by_cases h : L = 0 ∨ R = 0
  · rw [if_pos h, decide_eq_true h, Bool.not_true, Bool.false_and, if_neg Bool.false_ne_true]
  · rw [if_neg h, decide_eq_false h, Bool.not_false, Bool.true_and]

theorem diagFactor_zero_metric (b : Word) :
    diagFactor (fun _ => (0 : K)) b = if b = 0 then 1 else 0 := by
  by_cases h : b = 0
  · rw [if_pos h, h, diagFactor_zero]
  · rw [if_neg h]
    unfold diagFactor
    have : (vecs b).Nonempty := by
      rw [← Finset.card_pos, ← ones_eq_card, Nat.pos_iff_ne_zero, Ne, ones_eq_zero]; exact h
    obtain ⟨i, hi⟩ := this
    exact Finset.prod_eq_zero hi rfl

/-- `op` is the geometric product of the zero metric -/
theorem op_eq_gp_zero (A B : MV K) : op A B = orthProd (diagFactor fun _ => 0) .gp A B := by
  unfold op orthProd
  rw [bilin_congr]
  intro l r
  rw [orthMul_gp]
  apply single_ext
  · rw [ext_form, diagFactor_zero_metric]; split <;> simp
  · intro h
    rw [ext_form] at h
    simp only [extMul]
    exact or_eq_xor (by by_contra h'; rw [if_neg h'] at h; exact h rfl)

/-! ### the signed metric -/

theorem getLsbD_mask (k s i : Nat) (hk : k ≤ 64) (hi : i < 64) :
    (safeRshift (~~~0#64) (64 - k) <<< s).getLsbD i = decide (s ≤ i ∧ i < s + k) := by
  rcases Nat.eq_zero_or_pos k with rfl | hk0
  · have : safeRshift (~~~0#64) (64 - 0) = 0 := by decide
    rw [this]
    have : ¬ (s ≤ i ∧ i < s + 0) := by omega
    rw [decide_eq_false this]
    simp
  · unfold safeRshift
    rw [if_pos (by omega), BitVec.getLsbD_shiftLeft, BitVec.getLsbD_ushiftRight,
      BitVec.getLsbD_not, BitVec.getLsbD_zero]
    by_cases h : s ≤ i
    · by_cases h2 : i < s + k
      · have : 64 - k + (i - s) < 64 := by omega
        simp [hi, h, h2, this]
      · have : ¬ 64 - k + (i - s) < 64 := by omega
        simp [hi, h, h2, this]
    · simp [h]

theorem getLsbD_negativeMask (P Q R i : Nat) (h : P + Q + R ≤ 63) (hi : i < 64) :
    (negativeMask P Q R).getLsbD i = decide (P ≤ i ∧ i < P + Q) := by
  unfold negativeMask
  split
  · exact getLsbD_mask Q P i (by omega) hi
  · have : ¬ (P ≤ i ∧ i < P + Q) := by omega
    simp [this]

theorem getLsbD_zeroMask (P Q R i : Nat) (h : P + Q + R ≤ 63) (hi : i < 64) :
    (zeroMask P Q R).getLsbD i = decide (P + Q ≤ i ∧ i < P + Q + R) := by
  unfold zeroMask
  split
  · exact getLsbD_mask R (P + Q) i (by omega) hi
  · have : ¬ (P + Q ≤ i ∧ i < P + Q + R) := by omega
    simp [this]

theorem signedFactor_eq (P Q R : Nat) (h : P + Q + R ≤ 63) (b : Word) :
    signedFactor P Q R b = diagFactor (signature P Q R) b := by
  unfold signedFactor
  by_cases hz : b &&& zeroMask P Q R = 0
  · rw [if_pos hz]
    have h1 : diagFactor (signature P Q R) b
        = ∏ i ∈ vecs b, if i ∈ vecs (negativeMask P Q R) then (-1 : Int) else 1 := by
      unfold diagFactor
      refine Finset.prod_congr rfl fun i hi => ?_
      have hz' := congrArg (fun w => w.getLsbD i) hz
      simp only [BitVec.getLsbD_and, getLsbD_zeroMask P Q R i h i.2] at hz'
      have hb : b.getLsbD i = true := by simpa [vecs] using hi
      rw [hb] at hz'
      have hz2 : ¬ (P + Q ≤ i.val ∧ i.val < P + Q + R) := by simpa using hz'
      have hn : i ∈ vecs (negativeMask P Q R) ↔ (P ≤ i.val ∧ i.val < P + Q) := by
        unfold vecs
        rw [Finset.mem_filter, getLsbD_negativeMask P Q R i h i.2]; simp
      simp only [hn, signature]
      split
      · rw [if_neg (by omega)]
      · split
        · rw [if_pos (by omega)]
        · rw [if_neg (by omega), if_neg (by omega)]
    rw [h1, Finset.prod_ite]
    simp only [Finset.prod_const, one_pow, mul_one]
    have h2 : (vecs b).filter (fun i => i ∈ vecs (negativeMask P Q R))
        = vecs (b &&& negativeMask P Q R) := by
      ext i; unfold vecs; simp
    rw [h2, ← ones_eq_card]
    rw [Nat.and_one_is_mod]
    rcases Nat.even_or_odd (ones (b &&& negativeMask P Q R)) with h' | h'
    · rw [if_pos (Nat.even_iff.mp h'), h'.neg_one_pow]
    · rw [if_neg (by rw [Nat.odd_iff.mp h']; decide), h'.neg_one_pow]
  · rw [if_neg hz]
    have : ∃ i : Fin 64, b.getLsbD i = true ∧ (zeroMask P Q R).getLsbD i = true := by
      by_contra hne
      apply hz
      apply word_ext
      intro i hi
      have := not_exists.mp hne ⟨i, hi⟩
      simp only [BitVec.getLsbD_and] at this ⊢
      revert this
      cases b.getLsbD i <;> cases (zeroMask P Q R).getLsbD i <;> simp
    obtain ⟨i, hb, hzi⟩ := this
    rw [getLsbD_zeroMask P Q R i h i.2, decide_eq_true_eq] at hzi
    unfold diagFactor
    rw [Finset.prod_eq_zero (i := i) (by simpa [vecs] using hb)]
    unfold signature
    rw [if_neg (by omega), if_neg (by omega), if_pos (by omega)]

theorem diagFactor_cast (q : Fin 64 → Int) (b : Word) :
    ((diagFactor q b : Int) : K) = diagFactor (fun i => (q i : K)) b := by
  unfold diagFactor; push_cast; rfl

theorem signedFactor_cast (P Q R : Nat) (h : P + Q + R ≤ 63) :
    (fun b => ((signedFactor P Q R b : Int) : K))
      = diagFactor (fun i => ((signature P Q R i : Int) : K)) := by
  funext b; rw [signedFactor_eq P Q R h, diagFactor_cast]

/-! ### the isomorphism with the Clifford algebra of the first `n` basis vectors -/

theorem mem_space {n : Nat} {A : MV K} :
    A ∈ space K n ↔ ∀ b, A b ≠ 0 → ∀ i : Fin 64, b.getLsbD i = true → i.val < n := by
  unfold space
  rw [Finsupp.mem_supported, Set.subset_def]
  simp only [Finset.mem_coe, Finsupp.mem_support_iff, Set.mem_ofPred_eq, vecs, Finset.mem_filter,
    Finset.mem_univ, true_and]

theorem single_mem_space {n : Nat} {b : Word} (a : K)
    (h : ∀ i : Fin 64, b.getLsbD i = true → i.val < n) : (Finsupp.single b a : MV K) ∈ space K n := by
  classical
  rw [mem_space]
  intro c hc i hi
  rw [Finsupp.single_apply] at hc
  split at hc
  · rename_i h'; subst h'; exact h i hi
  · exact absurd rfl hc

theorem space_eq_sum {n : Nat} {A : MV K} {p : MV K → Prop} (hA : A ∈ space K n) (h0 : p 0)
    (hadd : ∀ A B, p A → p B → p (A + B))
    (hs : ∀ b a, (∀ i : Fin 64, b.getLsbD i = true → i.val < n) → p (Finsupp.single b a)) : p A := by
  rw [← Finsupp.sum_single A]
  unfold Finsupp.sum
  rw [mem_space] at hA
  refine Finset.sum_induction _ p hadd h0 fun b hb => hs b _ (hA b ?_)
  exact Finsupp.mem_support_iff.mp hb

theorem bilin_mem_space {n : Nat} (mul : BladeMul K)
    (h : ∀ l r, (∀ i : Fin 64, l.getLsbD i = true → i.val < n) →
      (∀ i : Fin 64, r.getLsbD i = true → i.val < n) →
      ∀ i : Fin 64, (mul l r).2.getLsbD i = true → i.val < n) {A B : MV K}
    (hA : A ∈ space K n) (hB : B ∈ space K n) : bilin mul A B ∈ space K n := by
  refine space_eq_sum (p := fun A => bilin mul A B ∈ space K n) hA ?_ ?_ ?_
  · simp
  · intro A A' h h'; rw [map_add]; exact Submodule.add_mem _ h h'
  · intro l a hl
    refine space_eq_sum (p := fun B => bilin mul (Finsupp.single l a) B ∈ space K n) hB ?_ ?_ ?_
    · simp
    · intro A A' h h'; rw [map_add]; exact Submodule.add_mem _ h h'
    · intro r b hr
      rw [bilin_single]
      exact single_mem_space _ (h l r hl hr)

theorem gp_mem_space {n : Nat} (f : Word → K) {A B : MV K}
    (hA : A ∈ space K n) (hB : B ∈ space K n) : orthProd f .gp A B ∈ space K n := by
  refine bilin_mem_space _ ?_ hA hB
  intro l r hl hr i hi
  rw [orthMul_gp, BitVec.getLsbD_xor] at hi
  cases h1 : l.getLsbD i
  · cases h2 : r.getLsbD i
    · rw [h1, h2] at hi; exact absurd hi (by simp)
    · exact hr i h2
  · exact hl i h1

section Iso
variable (q : Fin 64 → K) {n : Nat} (hn : n ≤ 64)

theorem vecLin_eq (v : Fin n → K) : (vecLin q v : MV K) = vectorOf v := by
  rw [vecLin_apply]; rfl

theorem psi_mem (x : CliffordAlgebra (QF q hn)) : (psi q hn x : MV K) ∈ space K n := by
  induction x using CliffordAlgebra.induction with
  | algebraMap r =>
    rw [AlgHom.commutes, Algebra.algebraMap_eq_smul_one]
    exact Submodule.smul_mem (space K n) r (single_mem_space (K := K) 1 (by intro i hi; simp at hi))
  | ι v =>
    rw [psi_ι]
    refine Submodule.sum_mem (space K n) fun i _ => Submodule.smul_mem (space K n) _ ?_
    refine single_mem_space (K := K) 1 fun j hj => ?_
    rw [getLsbD_bit _ _ (by omega), decide_eq_true_eq] at hj
    omega
  | mul x y hx hy => rw [map_mul]; exact gp_mem_space _ hx hy
  | add x y hx hy => rw [map_add]; exact Submodule.add_mem (space K n) hx hy

theorem psi_phi (A : MV K) (hA : A ∈ space K n) : psi q hn (phi q hn A) = A := by
  refine space_eq_sum (p := fun A => (psi q hn (phi q hn A) : MV K) = A) hA ?_ ?_ ?_
  · rw [map_zero]; exact map_zero (psi q hn)
  · intro A B hA hB
    rw [map_add]
    refine (map_add (psi q hn) _ _).trans ?_
    exact congrArg₂ (· + ·) hA hB
  · intro b a hb
    have e : phi q hn (Finsupp.single b a) = a • word q hn b n le_rfl := by
      unfold phi; rw [Finsupp.linearCombination_single]
    rw [e, map_smul, psi_word, Cl.single_eq q]
    have : lowBits b n = b := by
      apply word_ext; intro i hi
      rw [getLsbD_lowBits _ _ _ hi]
      cases hbi : b.getLsbD i
      · simp
      · simpa using hb ⟨i, hi⟩ hbi
    rw [this]

/-- The isomorphism of the Clifford algebra with the multivectors of the space. -/
noncomputable def clEquiv : CliffordAlgebra (QF q hn) ≃ₗ[K] space K n :=
  LinearEquiv.ofLinearMap
    (LinearMap.codRestrict (space K n) ({ toFun := fun x => (psi q hn x : MV K)
                                          map_add' := fun x y => map_add (psi q hn) x y
                                          map_smul' := fun a x => map_smul (psi q hn) a x } :
        CliffordAlgebra (QF q hn) →ₗ[K] MV K) (psi_mem q hn))
    ((phi q hn).comp (space K n).subtype)
    (by
      ext1 A
      apply Subtype.ext
      exact psi_phi q hn A.1 A.2)
    (by
      apply LinearMap.ext
      intro x
      exact phi_psi q hn x)

theorem clEquiv_apply (x : CliffordAlgebra (QF q hn)) : (clEquiv q hn x : MV K) = psi q hn x := rfl

end Iso

end GATL
