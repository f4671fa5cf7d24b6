import Verif.Proofs.GeneralSum

/-! Helper lemmas: the products of multivectors in a general metric. -/

namespace GATL
open Spec

variable {K : Type*} [CommRing K]

theorem space_inSpace {n : Nat} {A : MV K} (hA : A ∈ space K n) {a : Word} (ha : A a ≠ 0) :
    InSpace n a := by
  have := hA (Finsupp.mem_support_iff.mpr ha)
  intro i hi
  exact this i (mem_vecs.mpr hi)

theorem genProd_single (fuel : Nat) (entry : Nat → Nat → K) (n : Nat) (p : GradedProduct)
    (A B : Word) (a b : K) :
    genProd fuel entry n p (Finsupp.single A a) (Finsupp.single B b)
      = (a * b) • ofComponents ((genMul fuel entry n p A B).getD []) := by
  unfold genProd
  rw [Finsupp.linearCombination_single, LinearMap.smul_apply, Finsupp.linearCombination_single,
    smul_smul]

/-- two bilinear products that agree on the occurring blades agree -/
theorem bilinear_congr (F G : MV K →ₗ[K] MV K →ₗ[K] MV K) (A B : MV K)
    (h : ∀ a b, A a ≠ 0 → B b ≠ 0 →
      F (Finsupp.single a 1) (Finsupp.single b 1) = G (Finsupp.single a 1) (Finsupp.single b 1)) :
    F A B = G A B := by
  have expand : ∀ H : MV K →ₗ[K] MV K →ₗ[K] MV K, H A B
      = ∑ a ∈ A.support, ∑ b ∈ B.support,
          (A a * B b) • H (Finsupp.single a 1) (Finsupp.single b 1) := by
    intro H
    have hAs : H A B = H (∑ a ∈ A.support, Finsupp.single a (A a)) B :=
      congrArg (fun X => H X B) (Finsupp.sum_single A).symm
    rw [hAs, map_sum, LinearMap.sum_apply]
    refine Finset.sum_congr rfl fun a _ => ?_
    have hBs : H (Finsupp.single a (A a)) B
        = H (Finsupp.single a (A a)) (∑ b ∈ B.support, Finsupp.single b (B b)) :=
      congrArg (fun X => H (Finsupp.single a (A a)) X) (Finsupp.sum_single B).symm
    rw [hBs, map_sum]
    refine Finset.sum_congr rfl fun b _ => ?_
    have e1 : (Finsupp.single a (A a) : MV K) = A a • Finsupp.single a 1 := by
      rw [Finsupp.smul_single, smul_eq_mul, mul_one]
    have e2 : (Finsupp.single b (B b) : MV K) = B b • Finsupp.single b 1 := by
      rw [Finsupp.smul_single, smul_eq_mul, mul_one]
    rw [e1, e2, map_smul, map_smul, LinearMap.smul_apply, smul_smul, mul_comm]
  rw [expand F, expand G]
  refine Finset.sum_congr rfl fun a ha => Finset.sum_congr rfl fun b hb => ?_
  rw [h a b (Finsupp.mem_support_iff.mp ha) (Finsupp.mem_support_iff.mp hb)]

theorem keep_gp (r s : Nat) (Y : MV K) : keep .gp r s Y = Y := by
  unfold keep
  ext b
  rw [Finsupp.filter_apply_pos]
  rfl

/-- keep as a linear map -/
noncomputable def keepL (p : GradedProduct) (r s : Nat) : MV K →ₗ[K] MV K :=
  { toFun := keep p r s, map_add' := keep_add p r s, map_smul' := keep_smul p r s }

theorem genProd_gp (entry : Nat → Nat → K) {n : Nat} (hn : n ≤ 62) {A B : MV K}
    (hA : A ∈ space K n) (hB : B ∈ space K n)
    (h : ∀ a b, A a ≠ 0 → B b ≠ 0 → SmallGrades (ones a) (ones b)) (fuel : Nat)
    (hf : 2 ^ n < fuel) :
    genProd fuel entry n .gp A B = wickL (ent entry) A B := by
  refine bilinear_congr _ _ A B fun a b ha hb => ?_
  obtain ⟨L, hL, hv⟩ := genMul_spec entry hn .gp (space_inSpace hA ha) (space_inSpace hB hb)
    (h a b ha hb) fuel hf
  rw [genProd_single, hL, Option.getD_some, hv, keep_gp, mul_one, one_smul, wickL_one]

theorem genProd_homog (entry : Nat → Nat → K) {n : Nat} (hn : n ≤ 62) (p : GradedProduct)
    {r s : Nat} {A B : MV K} (hA : A ∈ space K n) (hB : B ∈ space K n) (hr : Homogeneous r A)
    (hs : Homogeneous s B) (h : SmallGrades r s) (fuel : Nat) (hf : 2 ^ n < fuel) :
    genProd fuel entry n p A B = keep p r s (wickL (ent entry) A B) := by
  have key := bilinear_congr (genProd fuel entry n p)
    ((wickL (ent entry)).compr₂ (keepL p r s)) A B fun a b ha hb => ?_
  · rw [key]; rfl
  · have e1 : ones a = r := by rw [← gradeOf_eq]; exact hr a ha
    have e2 : ones b = s := by rw [← gradeOf_eq]; exact hs b hb
    obtain ⟨L, hL, hv⟩ := genMul_spec entry hn p (space_inSpace hA ha) (space_inSpace hB hb)
      (by rw [e1, e2]; exact h) fuel hf
    rw [genProd_single, hL, Option.getD_some, hv, mul_one, one_smul, e1, e2,
      LinearMap.compr₂_apply, wickL_one]
    rfl

theorem keep_gradePart (p : GradedProduct) (r s : Nat) (k : Int)
    (h : ∀ t : Nat, areValidGrades p r s t = true ↔ (t : Int) = k) (Y : MV K) :
    keep p r s Y = gradePart k Y := by
  unfold keep gradePart
  congr 1
  funext b
  rw [h, gradeOf_eq]

theorem keep_none (p : GradedProduct) (r s : Nat)
    (h : ∀ t : Nat, areValidGrades p r s t = false) (Y : MV K) : keep p r s Y = 0 := by
  unfold keep
  ext b
  rw [Finsupp.filter_apply_neg]
  · rfl
  · rw [h]; simp

theorem wterm_homog (M : Fin 64 → Fin 64 → K) {A C B X : Word} {k : Nat} (hC : ones C = k)
    (hX : ones X = k) (hXB : X &&& B = X) :
    Homogeneous (ones A + ones B - 2 * k) (wterm M A C B X) := by
  unfold wterm
  split
  · rename_i h
    have h1 := ones_xor_sub h
    have h2 := ones_xor_sub hXB
    have := Iso.op_homog (homog_single (K := K) (b := A ^^^ C) 1 rfl)
      (homog_single (b := B ^^^ X) (lam M C X * sg K (par X B)) rfl)
    rw [show ones A + ones B - 2 * k = ones (A ^^^ C) + ones (B ^^^ X) by omega]
    exact homog_smul _ this
  · exact homog_zero _

theorem wickK_homog (M : Fin 64 → Fin 64 → K) (k : Nat) (A B : Word) :
    Homogeneous (ones A + ones B - 2 * k) (wickK M k A B) := by
  unfold wickK
  refine homog_sum _ _ fun S hS => homog_sum _ _ fun T hT => ?_
  rw [Finset.mem_powersetCard] at hS hT
  refine wterm_homog M (by rw [ones_wordOf, hS.2]) (by rw [ones_wordOf, hT.2]) ?_
  rw [sub_iff, vecs_wordOf]; exact hT.1

theorem wickK_zero (M : Fin 64 → Fin 64 → K) (A B : Word) :
    wickK M 0 A B = op (Finsupp.single A 1) (Finsupp.single B 1) := by
  have hv : vecs (0 : Word) = ∅ := by ext i; rw [mem_vecs]; simp
  have hw0 : wordOf ∅ = 0 := by rw [← hv, wordOf_vecs]
  unfold wickK wterm
  rw [Finset.powersetCard_zero, Finset.powersetCard_zero, Finset.sum_singleton,
    Finset.sum_singleton, hw0, if_pos (by simp), lam_zero, par_zero_right, par_zero_left, sg_zero,
    one_smul]
  have hx : ∀ w : Word, w ^^^ (0 : Word) = w := fun w => BitVec.xor_zero
  rw [hx, hx]
  unfold scalar
  rw [Finsupp.single_eq_same, mul_one]

theorem gradePart_sum (k : Int) {ι : Type*} (t : Finset ι) (f : ι → MV K) :
    gradePart k (∑ i ∈ t, f i) = ∑ i ∈ t, gradePart k (f i) :=
  map_sum (⟨⟨gradePart k, gradePart_zero k⟩, gradePart_add k⟩ : MV K →+ MV K) f _

/-- the highest grade of the product is the outer product -/
theorem op_wick (M : Fin 64 → Fin 64 → K) {r s : Nat} {A B : MV K} (hr : Homogeneous r A)
    (hs : Homogeneous s B) : op A B = gradePart ((r + s : Nat) : Int) (wickL M A B) := by
  let F : MV K →ₗ[K] MV K →ₗ[K] MV K :=
    bilin (fun L R => (((extMul L R).1 : K), (extMul L R).2))
  let gp : MV K →ₗ[K] MV K :=
    { toFun := gradePart ((r + s : Nat) : Int), map_add' := gradePart_add _,
      map_smul' := gradePart_smul _ }
  have key := bilinear_congr F ((wickL M).compr₂ gp) A B fun a b ha hb => ?_
  · exact key
  · have e1 : ones a = r := by rw [← gradeOf_eq]; exact hr a ha
    have e2 : ones b = s := by rw [← gradeOf_eq]; exact hs b hb
    show op (Finsupp.single a 1) (Finsupp.single b 1)
      = gradePart ((r + s : Nat) : Int) (wickL M (Finsupp.single a 1) (Finsupp.single b 1))
    rw [wickL_one, wick_eq_sum M a b _ le_rfl, gradePart_sum, Finset.sum_eq_single 0]
    · rw [Iso.gradePart_of_homog (wickK_homog M 0 a b), wickK_zero, e1, e2, if_pos]
      push_cast; omega
    · intro k hk hk0
      rw [Finset.mem_range] at hk
      rw [Iso.gradePart_of_homog (wickK_homog M k a b), if_neg]
      push_cast; omega
    · intro h; exact absurd (Finset.mem_range.mpr (by omega)) h

theorem wick_ev (M : Fin 64 → Fin 64 → K) (i : Fin 64) (B : MV K) :
    wickL M (ev i) B = op (ev i) B + con M i B := by
  have := wick_vec M (scalar 1) i B
  rw [con_scalar, add_zero, op_scalar_right, one_smul] at this
  rw [this]
  unfold scalar
  rw [wickL_one, wick_zero_left]

variable {n : Nat}

theorem wick_vectorOf_left (M : Fin 64 → Fin 64 → K) (hn : n ≤ 64) (v : Fin n → K) (B : MV K) :
    wickL M (vectorOf v) B = op (vectorOf v) B + conV M hn v B := by
  have := wick_vectorOf M hn v (scalar 1) B
  rw [conV_scalar, add_zero, op_scalar_right, one_smul] at this
  rw [this]
  unfold scalar
  rw [wickL_one, wick_zero_left]

theorem conV_homog (M : Fin 64 → Fin 64 → K) (hn : n ≤ 64) (v : Fin n → K) {k : Nat} {A : MV K}
    (hA : Homogeneous (k + 1) A) : Homogeneous k (conV M hn v A) :=
  homog_sum _ _ fun i _ => homog_smul _ (con_homog M _ hA)

theorem vectorOf_homog (v : Fin n → K) (hn : n ≤ 64) : Homogeneous 1 (vectorOf v) :=
  homog_sum _ _ fun i _ => homog_smul _ (homog_single _ (ones_bit ⟨i.val, by omega⟩))

theorem vectorOf_space (v : Fin n → K) (hn : n ≤ 64) : vectorOf v ∈ space K n := by
  refine Submodule.sum_mem _ fun i _ => Submodule.smul_mem _ _ ?_
  unfold e space
  rw [Finsupp.mem_supported]
  refine (Finset.coe_subset.mpr Finsupp.support_single_subset).trans ?_
  intro b hb
  have hb : b = (1 : Word) <<< i.val := by simpa using hb
  intro j hj
  rw [hb, mem_vecs] at hj
  have h1 : ((1 : Word) <<< i.val).getLsbD j.val = decide (j.val = i.val) :=
    getLsbD_bit i.val j.val (by omega)
  rw [h1] at hj
  have := of_decide_eq_true hj
  omega

/-- the contraction by a vector -/
theorem lcont_vectorOf (entry : Nat → Nat → K) (hn : n ≤ 62) (v : Fin n → K) {s : Nat} {B : MV K}
    (hB : B ∈ space K n) (hs : Homogeneous s B) (h8 : s ≤ 8) (fuel : Nat) (hf : 2 ^ n < fuel) :
    genProd fuel entry n .lcont (vectorOf v) B = conV (ent entry) (by omega) v B := by
  have hv := vectorOf_homog v (by omega : n ≤ 64)
  rw [genProd_homog entry hn .lcont (vectorOf_space v (by omega)) hB hv hs
    ⟨by omega, h8⟩ fuel hf, wick_vectorOf_left _ (by omega : n ≤ 64),
    keep_gradePart .lcont 1 s ((s : Int) - 1) (fun t => by
      simp only [areValidGrades, decide_eq_true_eq]; push_cast; omega), gradePart_add,
    Iso.gradePart_of_homog (Iso.op_homog hv hs), if_neg (by push_cast; omega), zero_add]
  cases s with
  | zero =>
    have : conV (ent entry) (by omega : n ≤ 64) v B = 0 := by
      have hB0 : B = scalar (B 0) := by
        classical
        ext b
        unfold scalar
        rw [Finsupp.single_apply]
        split
        · rename_i h; rw [← h]
        · rename_i h
          by_contra hb
          have := hs b hb
          rw [gradeOf_eq, ones_eq_zero] at this
          exact h this.symm
      rw [hB0, conV_scalar]
    rw [this, gradePart_zero]
  | succ k =>
    rw [Iso.gradePart_of_homog (conV_homog _ _ v hs), if_pos (by push_cast; omega)]

end GATL
