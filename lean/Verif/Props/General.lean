import Verif.Proofs.GeneralWrong
import Verif.Proofs.Involutions

/-!
Property C18: the products in a space with an arbitrary metric matrix.

`entry r c` is the metric coefficient of basis vectors `e(r)` and `e(c)` (1-based).  The property
claims the Clifford algebra of the metric for every dimension; the code only achieves it while the
grades stay small, because `leftmost_set_bit` is wrong above bit 7 (see C35).  The positive theorems
are therefore `_partial`: they need, for blades of grades `r` and `s`, `min r s ≤ 7` and `s ≤ 8`
(which holds for everything in spaces of up to seven dimensions).  The negative theorems at the end
show that the products are wrong beyond that.
-/

namespace GATL.Props
open Spec

variable {K : Type*} [CommRing K]

/-- The matrix of the metric, as the user writes it. -/
def metricMatrix (entry : Nat → Nat → K) (n : Nat) : Matrix (Fin n) (Fin n) K :=
  Matrix.of fun i j => entry (i.val + 1) (j.val + 1)

/-- **C18** The compile-time recursions of every product of two basis blades terminate. -/
theorem C18_terminates_partial (entry : Nat → Nat → K) {n : Nat} (hn : n ≤ 62) (p : GradedProduct)
    (A B : Word) (hA : ∀ i ∈ vecs A, i.val < n) (hB : ∀ i ∈ vecs B, i.val < n)
    (h1 : min (gradeOf A) (gradeOf B) ≤ 7) (h2 : gradeOf B ≤ 8) :
    ∃ L, ∀ fuel, 2 ^ n < fuel → ∃ L', genMul fuel entry n p A B = some L' ∧ ofComponents L' = L := by
  have hA' : InSpace n A := fun i hi => hA i (mem_vecs.mpr hi)
  have hB' : InSpace n B := fun i hi => hB i (mem_vecs.mpr hi)
  rw [gradeOf_eq, gradeOf_eq] at h1
  rw [gradeOf_eq] at h2
  exact ⟨_, fun fuel hf => genMul_spec entry hn p hA' hB' ⟨h1, h2⟩ fuel hf⟩

/-- **C18** The multivectors of an `n`-dimensional space with a general metric and `gp` are the
Clifford algebra of the metric's quadratic form: there is a linear bijection with Mathlib's
`CliffordAlgebra` that maps one to one, vectors to vectors, and products of elements whose grades
satisfy the restriction to `gp`. -/
theorem C18_clifford_partial (entry : Nat → Nat → K) {n : Nat} (hn : n ≤ 62) :
    ∃ Φ : CliffordAlgebra (metricMatrix entry n).toQuadraticForm' ≃ₗ[K] space K n,
      (Φ 1 : MV K) = scalar 1 ∧
      (∀ v, (Φ (CliffordAlgebra.ι _ v) : MV K) = vectorOf v) ∧
      ∀ fuel, 2 ^ n < fuel → ∀ (r s : Nat) x y, Homogeneous r (Φ x : MV K) →
        Homogeneous s (Φ y : MV K) → min r s ≤ 7 → s ≤ 8 →
        (Φ (x * y) : MV K) = genProd fuel entry n .gp (Φ x) (Φ y) := by
  refine ⟨genEquiv (ent entry) (by omega), genEquiv_one _ _, genEquiv_ι _ _, ?_⟩
  intro fuel hf r s x y hr hs h1 h2
  have := genEquiv_mul (ent entry) (by omega : n ≤ 64) x y
  refine this.trans (genProd_gp entry hn (Subtype.property _) (Subtype.property _) ?_ fuel hf).symm
  intro a b ha hb
  rw [← gradeOf_eq a, ← gradeOf_eq b, hr a ha, hs b hb]
  exact ⟨h1, h2⟩

/-- **C18** In spaces of up to seven dimensions the bijection maps all products to `gp`. -/
theorem C18_clifford_small_partial (entry : Nat → Nat → K) {n : Nat} (hn : n ≤ 7) :
    ∃ Φ : CliffordAlgebra (metricMatrix entry n).toQuadraticForm' ≃ₗ[K] space K n,
      (Φ 1 : MV K) = scalar 1 ∧
      (∀ v, (Φ (CliffordAlgebra.ι _ v) : MV K) = vectorOf v) ∧
      ∀ fuel, 2 ^ n < fuel → ∀ x y,
        (Φ (x * y) : MV K) = genProd fuel entry n .gp (Φ x) (Φ y) := by
  refine ⟨genEquiv (ent entry) (by omega), genEquiv_one _ _, genEquiv_ι _ _, ?_⟩
  intro fuel hf x y
  have := genEquiv_mul (ent entry) (by omega : n ≤ 64) x y
  refine this.trans (genProd_gp entry (by omega) (Subtype.property _) (Subtype.property _) ?_ fuel
    hf).symm
  intro a b ha hb
  have h1 := inSpace_ones (by omega) (space_inSpace (Subtype.property _) ha)
  have h2 := inSpace_ones (by omega) (space_inSpace (Subtype.property _) hb)
  exact ⟨by omega, by omega⟩

/-- **C18** For homogeneous operands the other products are the advertised grade parts of `gp`. -/
theorem C18_grade_parts_partial (entry : Nat → Nat → K) {n : Nat} (hn : n ≤ 62) {r s : Nat}
    {A B : MV K} (hA : A ∈ space K n) (hB : B ∈ space K n) (hr : Homogeneous r A)
    (hs : Homogeneous s B) (h1 : min r s ≤ 7) (h2 : s ≤ 8) (fuel : Nat) (hf : 2 ^ n < fuel) :
    let gp := genProd fuel entry n .gp A B
    genProd fuel entry n .lcont A B = gradePart ((s : Int) - r) gp ∧
    genProd fuel entry n .rcont A B = gradePart ((r : Int) - s) gp ∧
    genProd fuel entry n .dot A B = gradePart |(r : Int) - s| gp ∧
    genProd fuel entry n .hip A B = (if r = 0 ∨ s = 0 then 0 else gradePart |(r : Int) - s| gp) ∧
    genProd fuel entry n .sp A B = gradePart 0 gp ∧
    op A B = gradePart ((r : Int) + s) gp := by
  intro gp
  have hgp : gp = wickL (ent entry) A B := by
    refine (genProd_homog entry hn .gp hA hB hr hs ⟨h1, h2⟩ fuel hf).trans (keep_gp _ _ _)
  have hd : ∀ t : Nat, areValidGrades .dot r s t = true ↔ (t : Int) = |(r : Int) - s| := by
    intro t
    simp only [areValidGrades]
    split <;> rw [decide_eq_true_eq]
    · rw [abs_of_nonpos (by omega)]; omega
    · rw [abs_of_nonneg (by omega)]; omega
  have key := fun p => genProd_homog entry hn p hA hB hr hs ⟨h1, h2⟩ fuel hf
  rw [hgp]
  refine ⟨?_, ?_, ?_, ?_, ?_, ?_⟩
  · rw [key]; refine keep_gradePart _ r s _ (fun t => ?_) _
    simp only [areValidGrades, decide_eq_true_eq]; omega
  · rw [key]; refine keep_gradePart _ r s _ (fun t => ?_) _
    simp only [areValidGrades, decide_eq_true_eq]; omega
  · rw [key]; exact keep_gradePart _ r s _ hd _
  · rw [key]
    split
    · rename_i h0
      refine keep_none _ r s (fun t => ?_) _
      have : (decide ((r : Int) = 0) || decide ((s : Int) = 0)) = true := by
        rcases h0 with h0 | h0 <;> simp [h0]
      simp only [areValidGrades, this, if_true]
    · rename_i h0
      refine keep_gradePart _ r s _ (fun t => ?_) _
      rw [← hd t]
      have : (decide ((r : Int) = 0) || decide ((s : Int) = 0)) = false := by
        rw [not_or] at h0
        simp [h0.1, h0.2]
      simp only [areValidGrades, this]; rfl
  · rw [key]; refine keep_gradePart _ r s _ (fun t => ?_) _
    simp only [areValidGrades, decide_eq_true_eq]
  · have := op_wick (ent entry) hr hs
    push_cast at this
    exact this

/-- **C18** The product with a vector splits into contraction and outer product; the contraction by
a vector is determined by the metric: it vanishes on scalars and it is an antiderivation that maps
a pair of vectors to their metric product. -/
theorem C18_vector_partial (entry : Nat → Nat → K) {n : Nat} (hn : n ≤ 62) (v w : Fin n → K)
    {s : Nat} {B : MV K} (hB : B ∈ space K n) (hs : Homogeneous s B) (h7 : s ≤ 7) (a : K)
    (fuel : Nat) (hf : 2 ^ n < fuel) :
    genProd fuel entry n .gp (vectorOf v) B
      = op (vectorOf v) B + genProd fuel entry n .lcont (vectorOf v) B ∧
    genProd fuel entry n .lcont (vectorOf v) (scalar a) = 0 ∧
    genProd fuel entry n .lcont (vectorOf v) (vectorOf w)
      = scalar (∑ i, ∑ j, w i * metricMatrix entry n i j * v j) ∧
    genProd fuel entry n .lcont (vectorOf v) (op (vectorOf w) B)
      = (∑ i, ∑ j, w i * metricMatrix entry n i j * v j) • B
        - op (vectorOf w) (genProd fuel entry n .lcont (vectorOf v) B) := by
  have h64 : n ≤ 64 := by omega
  have hv := vectorOf_homog v h64
  have hw := vectorOf_homog w h64
  have hvs := vectorOf_space v h64
  have hws := vectorOf_space w h64
  have hlc := fun {s : Nat} {B : MV K} (hB : B ∈ space K n) (hs : Homogeneous s B) (h8 : s ≤ 8) =>
    lcont_vectorOf entry hn v hB hs h8 fuel hf
  have hbeta : beta (ent entry) h64 v w = ∑ i, ∑ j, w i * metricMatrix entry n i j * v j := by
    unfold beta
    rw [Matrix.toBilin'_apply, Finset.sum_comm]
    refine Finset.sum_congr rfl fun i _ => Finset.sum_congr rfl fun j _ => ?_
    rw [Matrix.transpose_apply]
    show v j * entry (i.val + 1) (j.val + 1) * w i = w i * entry (i.val + 1) (j.val + 1) * v j
    ring
  have hsc : ∀ a : K, scalar a ∈ space K n := by
    intro a
    unfold scalar space
    rw [Finsupp.mem_supported]
    refine (Finset.coe_subset.mpr Finsupp.support_single_subset).trans ?_
    intro b hb
    have hb : b = 0 := by simpa using hb
    intro i hi
    rw [hb, mem_vecs] at hi; simp at hi
  have hscal : ∀ a : K, Homogeneous 0 (scalar a : MV K) := fun a => homog_single _ ones_zero
  have hopw : op (vectorOf w) B ∈ space K n := by
    rw [op_eq_gp_zero]
    exact gp_mem_space _ hws hB
  refine ⟨?_, ?_, ?_, ?_⟩
  · rw [genProd_homog entry hn .gp hvs hB hv hs ⟨by omega, by omega⟩ fuel hf, keep_gp,
      hlc hB hs (by omega), wick_vectorOf_left]
  · rw [hlc (hsc a) (hscal a) (by omega), conV_scalar]
  · rw [hlc hws hw (by omega), ← hbeta]
    have := conV_op (ent entry) h64 v w (scalar 1)
    rw [conV_scalar, op_scalar_right, one_smul] at this
    rw [this]
    have hz : op (vectorOf w) (0 : MV K) = 0 := op_zero_right _
    rw [hz, sub_zero]
    unfold scalar
    rw [Finsupp.smul_single, smul_eq_mul, mul_one]
  · have hop : Homogeneous (1 + s) (op (vectorOf w) B) := Iso.op_homog hw hs
    rw [hlc hopw hop (by omega), hlc hB hs (by omega), conV_op, hbeta]

/-- a non-orthogonal metric and operands that meet the hypotheses -/
example : (blade ℤ 0b1011) ∈ space ℤ 5 ∧ Homogeneous 3 (blade ℤ 0b1011) ∧ min 3 3 ≤ 7 := by
  refine ⟨?_, homog_single _ (by decide), by decide⟩
  unfold blade space
  rw [Finsupp.mem_supported]
  refine (Finset.coe_subset.mpr Finsupp.support_single_subset).trans ?_
  intro b hb
  have hb : b = 0b1011 := by simpa using hb
  subst hb
  decide

/-- the conformal null vectors: `e(4)` and `e(5)` contract to `-1` -/
example (fuel : Nat) (hf : 2 ^ 5 < fuel) :
    genProd fuel (fun r c => if r = c ∧ r ≤ 3 then 1 else if r + c = 9 ∧ 4 ≤ r ∧ 4 ≤ c then -1 else 0)
      5 .lcont (vectorOf (![0, 0, 0, 1, 0] : Fin 5 → ℤ)) (vectorOf ![0, 0, 0, 0, 1]) = scalar (-1) := by
  rw [(C18_vector_partial _ (by omega) _ _ (Submodule.zero_mem _) (homog_zero 0) (by omega) 0 fuel
    hf).2.2.1]
  congr 1

/-- The metric whose matrix is the identity. -/
def identityEntry (r c : Nat) : K := if r = c then 1 else 0

/-- **C18 (defect)** The scalar product of two blades of grade eight is zero in every general
metric: `sp(e1∧…∧e8, e1∧…∧e8)` should be the Gram determinant up to sign. -/
theorem C18_grade8_wrong (entry : Nat → Nat → K) {n : Nat} (hn : n ≤ 62) (A B : Word)
    (hA : ∀ i ∈ vecs A, i.val < n) (hB : ∀ i ∈ vecs B, i.val < n) (h1 : gradeOf A = 8)
    (h2 : gradeOf B = 8) (fuel : Nat) (hf : 2 ^ n < fuel) :
    genProd fuel entry n .sp (blade K A) (blade K B) = 0 := by
  rw [gradeOf_eq] at h1 h2
  obtain ⟨L, hL, hv⟩ := genMul_sp_eight entry hn (fun i hi => hA i (mem_vecs.mpr hi))
    (fun i hi => hB i (mem_vecs.mpr hi)) h1 h2 fuel hf
  unfold blade
  rw [genProd_single, hL, Option.getD_some, hv, smul_zero]

/-- **C18 (defect)** Contracting a vector into a blade of grade nine or more only looks at the first
vector of the blade. -/
theorem C18_grade9_wrong (entry : Nat → Nat → K) {n : Nat} (hn : n ≤ 62) (B : Word) (c : Fin 64)
    (hc : c.val < n) (hB : ∀ i ∈ vecs B, i.val < n) (h9 : 9 ≤ gradeOf B) (i : Fin 64)
    (hi : i ∈ vecs B) (hmin : ∀ j ∈ vecs B, i ≤ j) (fuel : Nat) (hf : 2 ^ n < fuel) :
    genProd fuel entry n .lcont (e K c) (blade K B)
      = entry (i.val + 1) (c.val + 1) • blade K (B ^^^ ((1 : Word) <<< i.val)) := by
  rw [gradeOf_eq] at h9
  obtain ⟨L, hL, hv⟩ := genMul_lcont_nine entry hn hc (fun i hi => hB i (mem_vecs.mpr hi)) h9
    (mem_vecs.mp hi) (fun j hj => by
      by_contra hcon
      have hb : B.getLsbD j = true := by simpa using hcon
      have := hmin ⟨j, getLsbD_lt hb⟩ (mem_vecs.mpr hb)
      rw [Fin.le_def] at this
      simp only at this
      omega) fuel hf
  unfold blade e
  rw [genProd_single]
  have hL' : genMul fuel entry n .lcont ((1 : Word) <<< c.val) B = some L := hL
  rw [hL', Option.getD_some, hv, mul_one, one_smul, Finsupp.smul_single, smul_eq_mul, mul_one]
  rfl

/-- **C18 (defect)** So two spaces of the same metric disagree: with the identity matrix,
`lcont(e2, e1∧…∧e9)` is zero, in the Euclidean space it is `-e1∧e3∧…∧e9`. -/
theorem C18_disagrees_with_euclidean (fuel : Nat) (hf : 2 ^ 9 < fuel) :
    genProd fuel (identityEntry (K := ℤ)) 9 .lcont (e ℤ 1) (blade ℤ 0x1FF) = 0 ∧
    signedProd 9 0 0 .lcont (e ℤ 1) (blade ℤ 0x1FF) = - blade ℤ 0x1FD ∧
    genProd fuel (identityEntry (K := ℤ)) 9 .sp (blade ℤ 0xFF) (blade ℤ 0xFF) = 0 ∧
    signedProd 9 0 0 .sp (blade ℤ 0xFF) (blade ℤ 0xFF) = scalar 1 := by
  refine ⟨?_, ?_, ?_, ?_⟩
  · have := C18_grade9_wrong (identityEntry (K := ℤ)) (n := 9) (by omega) 0x1FF 1 (by decide)
      (by decide) (by decide) 0 (by decide) (by decide) fuel hf
    refine this.trans ?_
    simp [identityEntry]
  · unfold signedProd
    rw [signedFactor_cast 9 0 0 (by omega)]
    unfold e blade
    rw [lcont_single, par_eq, strictInv_eq_card, sg_natCast]
    have h1 : ((1 : Word) <<< 1) ^^^ 0x1FF = 0x1FD := by decide
    have h2 : (inversions (vecs ((1 : Word) <<< 1)) (vecs 0x1FF)).card = 1 := by decide
    have h3 : ((1 : Word) <<< 1) &&& (0x1FF : Word) = (1 : Word) <<< 1 := by decide
    have h4 : vecs ((1 : Word) <<< 1) = {1} := by decide
    rw [h1, h2, if_pos h3]
    unfold diagFactor
    rw [h4, Finset.prod_singleton]
    rw [← Finsupp.single_neg]
    congr 1
  · exact C18_grade8_wrong _ (by omega) _ _ (by decide) (by decide) (by decide) (by decide) fuel hf
  · unfold signedProd
    rw [signedFactor_cast 9 0 0 (by omega)]
    unfold blade orthProd
    rw [bilin_single]
    unfold orthMul
    dsimp only
    rw [reorderingSign_eq, strictInv_eq_card]
    have h2 : (inversions (vecs 0xFF) (vecs 0xFF)).card = 28 := by decide
    have h3 : (0xFF : Word) ^^^ 0xFF = 0 := by decide
    have h4 : vecs ((0xFF : Word) &&& 0xFF) = {0, 1, 2, 3, 4, 5, 6, 7} := by decide
    have h5 : areValidGrades .sp (ones 0xFF) (ones 0xFF) (ones (0 : Word)) = true := by decide
    rw [h2, h3, if_pos h5]
    unfold diagFactor
    rw [h4]
    unfold scalar
    congr 1

end GATL.Props
