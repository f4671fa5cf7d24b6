import Mathlib.Data.Finsupp.SMul
import Verif.Proofs.GeneralProd
import Verif.Proofs.Blades

/-!
# Outermorphisms

The extension of a linear map of vectors to multivectors, and isometries from a space with any metric to a space with an
orthogonal metric.
-/

namespace GATL

open Spec

section
variable {K : Type*} [CommRing K] {n : Nat} (hn : n ≤ 64)

include hn in
/-- Multivectors of a space are generated from scalars by sums and outer products with vectors. -/
theorem outer_induction {p : MV K → Prop} {A : MV K} (hA : A ∈ space K n) (hs : ∀ a, p (scalar a))
    (hadd : ∀ A B, A ∈ space K n → B ∈ space K n → p A → p B → p (A + B))
    (hop : ∀ (v : Fin n → K) A, A ∈ space K n → p A → p (op (vectorOf v) A)) : p A := by
  have key : ∀ x : CliffordAlgebra (Ext (K := K) hn), p (extE hn x : MV K) := by
    intro x
    induction x using CliffordAlgebra.left_induction with
    | algebraMap a => rw [extE_algebraMap]; exact hs a
    | add x y hx hy => rw [map_add]; exact hadd _ _ (Subtype.property _) (Subtype.property _) hx hy
    | ι_mul x v hx => rw [extE_mul, extE_ι]; exact hop v _ (Subtype.property _) hx
  have := key ((extE hn).symm ⟨A, hA⟩)
  rwa [LinearEquiv.apply_symm_apply] at this

include hn in
theorem op_space {A B : MV K} (hA : A ∈ space K n) (hB : B ∈ space K n) : op A B ∈ space K n := by
  rw [op_eq_gp_zero]; exact gp_mem_space _ hA hB

theorem scalar_space (a : K) : scalar a ∈ space K n :=
  single_mem_space (K := K) a (by intro i hi; simp at hi)

variable (P : (Fin n → K) →ₗ[K] (Fin n → K))

theorem ext_zero (v : Fin n → K) : (Ext (K := K) hn) v = 0 := by
  simp [QuadraticMap.weightedSumSquares_apply]

/-- The isometry of the zero form. -/
noncomputable def extIso : (Ext (K := K) hn) →qᵢ (Ext (K := K) hn) :=
  { P with map_app' := fun v => (ext_zero hn (P v)).trans (ext_zero hn v).symm }

/-- Drop the components outside the space. -/
noncomputable def restrictSpace (K : Type*) [CommRing K] (n : Nat) : MV K →ₗ[K] space K n :=
  Finsupp.restrictDom K K {b : Word | ∀ i ∈ vecs b, i.val < n}

theorem restrictSpace_eq {A : MV K} (hA : A ∈ space K n) : restrictSpace K n A = ⟨A, hA⟩ := by
  apply Subtype.ext
  unfold restrictSpace
  refine (Finsupp.restrictDom_apply _ _).trans ?_
  refine (Finsupp.filter_eq_self_iff _ _).2 fun b hb => ?_
  exact (Finsupp.mem_supported _ _).1 hA (by simpa using hb)

/-- The outermorphism of `P`; the components outside the space are dropped. -/
noncomputable def outerMap : MV K →ₗ[K] MV K :=
  (space K n).subtype ∘ₗ (extE hn).toLinearMap ∘ₗ (CliffordAlgebra.map (extIso hn P)).toLinearMap ∘ₗ
    (extE hn).symm.toLinearMap ∘ₗ restrictSpace K n

theorem outerMap_space (A : MV K) : outerMap hn P A ∈ space K n := Subtype.property _

theorem outerMap_ext (x : CliffordAlgebra (Ext (K := K) hn)) :
    outerMap hn P (extE hn x) = (extE hn (CliffordAlgebra.map (extIso hn P) x) : MV K) := by
  unfold outerMap
  simp only [LinearMap.comp_apply, Submodule.subtype_apply, LinearEquiv.coe_coe, AlgHom.toLinearMap_apply]
  rw [restrictSpace_eq (Subtype.property _), LinearEquiv.symm_apply_apply]

theorem outerMap_scalar (a : K) : outerMap hn P (scalar a) = scalar a := by
  rw [← extE_algebraMap hn a, outerMap_ext, AlgHom.commutes]

theorem outerMap_vector (v : Fin n → K) : outerMap hn P (vectorOf v) = vectorOf (P v) := by
  rw [← extE_ι hn v, outerMap_ext, CliffordAlgebra.map_apply_ι, extE_ι]
  rfl

theorem outerMap_op {A B : MV K} (hA : A ∈ space K n) (hB : B ∈ space K n) :
    outerMap hn P (op A B) = op (outerMap hn P A) (outerMap hn P B) := by
  obtain ⟨x, hx⟩ := (extE hn).surjective ⟨A, hA⟩
  obtain ⟨y, hy⟩ := (extE hn).surjective ⟨B, hB⟩
  have hx : (extE hn x : MV K) = A := congrArg Subtype.val hx
  have hy : (extE hn y : MV K) = B := congrArg Subtype.val hy
  rw [← hx, ← hy, ← extE_mul, outerMap_ext, map_mul, extE_mul, outerMap_ext, outerMap_ext]

theorem outerMap_comp (P' : (Fin n → K) →ₗ[K] (Fin n → K)) {A : MV K} (hA : A ∈ space K n) :
    outerMap hn P (outerMap hn P' A) = outerMap hn (P ∘ₗ P') A := by
  refine outer_induction hn (p := fun A => outerMap hn P (outerMap hn P' A) = outerMap hn (P ∘ₗ P') A) hA ?_ ?_ ?_
  · intro a; simp only [outerMap_scalar]
  · intro A B _ _ h1 h2; simp only [map_add, h1, h2]
  · intro v A hA h
    rw [outerMap_op hn _ (vectorOf_space v hn) hA, outerMap_op hn _ (vectorOf_space v hn) hA,
      outerMap_op hn _ (outerMap_space hn _ _) (outerMap_space hn _ _), h, outerMap_vector, outerMap_vector,
      outerMap_vector]
    rfl

theorem outerMap_id {A : MV K} (hA : A ∈ space K n) : outerMap hn LinearMap.id A = A := by
  refine outer_induction hn (p := fun A => outerMap hn LinearMap.id A = A) hA ?_ ?_ ?_
  · intro a; simp only [outerMap_scalar]
  · intro A B _ _ h1 h2; simp only [map_add, h1, h2]
  · intro v A hA h
    rw [outerMap_op hn _ (vectorOf_space v hn) hA, h, outerMap_vector]
    rfl

theorem blade_in_split {b : Word} (hb : b ≠ 0) (h : InSpace n b) :
    ∃ v : Fin n → K, ∃ b' : Word, InSpace n b' ∧ ones b' + 1 = ones b ∧
      op (vectorOf v) (Finsupp.single b' (1 : K)) = Finsupp.single b 1 := by
  obtain ⟨i, hi, hlow⟩ := exists_low hb
  have hlow' : ∀ j < i.val, (bit i ^^^ b).getLsbD j = false := by
    intro j hj
    rw [BitVec.getLsbD_xor, hlow j hj, getLsbD_bit i j i.2]
    simp; omega
  have hin : i.val < n := h i hi
  refine ⟨Pi.single ⟨i.val, hin⟩ 1, bit i ^^^ b, ?_, ones_bit_xor hi, ?_⟩
  · intro j hj
    rw [BitVec.getLsbD_xor, getLsbD_bit i j i.2] at hj
    by_cases e : j.val = i.val
    · omega
    · exact h j (by simpa [e] using hj)
  · have hv : vectorOf (Pi.single ⟨i.val, hin⟩ (1 : K) : Fin n → K) = Finsupp.single (bit i) 1 := by
      unfold vectorOf
      rw [Finset.sum_eq_single ⟨i.val, hin⟩]
      · simp only [Pi.single_eq_same, one_smul]; rfl
      · intro j _ hj; rw [Pi.single_eq_of_ne hj, zero_smul]
      · intro h; exact absurd (Finset.mem_univ _) h
    rw [hv, op_single', par_bit_low hlow', if_pos (bit_and_xor hi), xor_xor_cancel]
    simp

theorem outerMap_blade : ∀ m : Nat, ∀ b : Word, InSpace n b → ones b = m →
    Homogeneous m (outerMap hn P (Finsupp.single b 1)) := by
  intro m
  induction m with
  | zero =>
    intro b _ hb
    rw [ones_eq_zero] at hb; subst hb
    have : outerMap hn P (Finsupp.single 0 1) = Finsupp.single 0 1 := outerMap_scalar hn P 1
    rw [this]
    exact homog_single _ ones_zero
  | succ m ih =>
    intro b hs hb
    have hne : b ≠ 0 := by rintro rfl; rw [ones_zero] at hb; omega
    obtain ⟨v, b', hs', hb', hop⟩ := blade_in_split hne hs (K := K)
    rw [← hop, outerMap_op hn P (vectorOf_space v hn) (single_mem_space _ hs'), outerMap_vector, Nat.add_comm]
    exact Iso.op_homog (vectorOf_homog _ hn) (ih b' hs' (by omega))

theorem outerMap_single {b : Word} (hb : InSpace n b) (a : K) :
    Homogeneous (ones b) (outerMap hn P (Finsupp.single b a)) := by
  have : (Finsupp.single b a : MV K) = a • Finsupp.single b 1 := by
    rw [Finsupp.smul_single, smul_eq_mul, mul_one]
  rw [this, map_smul]
  exact homog_smul a (outerMap_blade hn P _ b hb rfl)

theorem outerMap_gradePart (k : Int) {A : MV K} (hA : A ∈ space K n) :
    outerMap hn P (gradePart k A) = gradePart k (outerMap hn P A) := by
  refine space_eq_sum (p := fun A => outerMap hn P (gradePart k A) = gradePart k (outerMap hn P A)) hA ?_ ?_ ?_
  · simp only [gradePart_zero, map_zero]
  · intro A B h h'; simp only [gradePart_add, map_add, h, h']
  · intro b a hb
    rw [Iso.gradePart_of_homog (homog_single _ rfl), Iso.gradePart_of_homog (outerMap_single hn P hb a)]
    split
    · rfl
    · exact map_zero _

/-- Functions that multiply the parts of grade `k` by `s k`. -/
theorem outerMap_grades {F : MV K → MV K} {s : Nat → K} (h0 : F 0 = 0) (hadd : ∀ A B, F (A + B) = F A + F B)
    (hh : ∀ k A, Homogeneous k A → F A = s k • A) {A : MV K} (hA : A ∈ space K n) :
    outerMap hn P (F A) = F (outerMap hn P A) := by
  refine space_eq_sum (p := fun A => outerMap hn P (F A) = F (outerMap hn P A)) hA ?_ ?_ ?_
  · simp only [h0, map_zero]
  · intro A B h h'; simp only [hadd, map_add, h, h']
  · intro b a hb
    rw [hh _ _ (homog_single _ rfl), hh _ _ (outerMap_single hn P hb a), map_smul]

/-! ### Isometries -/

variable {M : Fin 64 → Fin 64 → K} {q : Fin 64 → K}

/-- `P` maps the metric `M` to the orthogonal metric `q`. -/
def Isometry (hn : n ≤ 64) (M : Fin 64 → Fin 64 → K) (q : Fin 64 → K) (P : (Fin n → K) →ₗ[K] (Fin n → K)) : Prop :=
  ∀ v w, beta M hn v w = vdot q (vectorOf (P v)) (vectorOf (P w))

local notation "L" => orthProd (diagFactor q) GradedProduct.lcont
local notation "G" => orthProd (diagFactor q) GradedProduct.gp

theorem conV_space (v : Fin n → K) {A : MV K} (hA : A ∈ space K n) : conV M hn v A ∈ space K n := by
  obtain ⟨x, hx⟩ := (extE hn).surjective ⟨A, hA⟩
  have hx : (extE hn x : MV K) = A := congrArg Subtype.val hx
  rw [← hx, ← extE_contract]
  exact Subtype.property _

include hn in
theorem wick_space {A B : MV K} (hA : A ∈ space K n) (hB : B ∈ space K n) : wickL M A B ∈ space K n := by
  obtain ⟨x, hx⟩ := (genEquiv M hn).surjective ⟨A, hA⟩
  obtain ⟨y, hy⟩ := (genEquiv M hn).surjective ⟨B, hB⟩
  have hx : (genEquiv M hn x : MV K) = A := congrArg Subtype.val hx
  have hy : (genEquiv M hn y : MV K) = B := congrArg Subtype.val hy
  rw [← hx, ← hy, ← genEquiv_mul]
  exact Subtype.property _

theorem outerMap_con (h : Isometry hn M q P) (v : Fin n → K) {A : MV K} (hA : A ∈ space K n) :
    outerMap hn P (conV M hn v A) = L (vectorOf (P v)) (outerMap hn P A) := by
  have hv := vectorOf_homog (P v) hn
  refine outer_induction hn (p := fun A => outerMap hn P (conV M hn v A) = L (vectorOf (P v)) (outerMap hn P A)) hA ?_ ?_ ?_
  · intro a
    rw [conV_scalar, map_zero, outerMap_scalar]
    have : (scalar a : MV K) = a • scalar 1 := by
      unfold scalar; rw [Finsupp.smul_single, smul_eq_mul, mul_one]
    rw [this, prod_smul_right, lcont_one q hv, smul_zero]
  · intro A B _ _ h1 h2
    rw [conV_add, map_add, map_add, prod_add_right, h1, h2]
  · intro w A hA hi
    rw [conV_op, map_sub, map_smul, outerMap_op hn P (vectorOf_space w hn) (conV_space hn v hA), hi,
      outerMap_op hn P (vectorOf_space w hn) hA, outerMap_vector, lcont_wedge q hv (vectorOf_homog _ hn), h v w]

theorem outerMap_wick (h : Isometry hn M q P) {A B : MV K} (hA : A ∈ space K n) (hB : B ∈ space K n) :
    outerMap hn P (wickL M A B) = G (outerMap hn P A) (outerMap hn P B) := by
  obtain ⟨x, hx⟩ := (genEquiv M hn).surjective ⟨A, hA⟩
  have hx : (genEquiv M hn x : MV K) = A := congrArg Subtype.val hx
  rw [← hx]
  clear * - h hB
  induction x using CliffordAlgebra.left_induction with
  | algebraMap a =>
    rw [genEquiv_algebraMap, outerMap_scalar, gp_scalar_left]
    unfold scalar
    have : (Finsupp.single 0 a : MV K) = a • Finsupp.single 0 1 := by
      rw [Finsupp.smul_single, smul_eq_mul, mul_one]
    rw [wickL_single, wick_zero_left, map_smul]
  | add x y hx hy =>
    simp only [map_add, Submodule.coe_add, LinearMap.add_apply, prod_add_left, hx, hy]
  | ι_mul x v hx =>
    have hX : (genEquiv M hn x : MV K) ∈ space K n := Subtype.property _
    have hW := wick_space hn (M := M) hX hB
    have hv := vectorOf_homog (P v) hn
    have step : ∀ {X : MV K}, X ∈ space K n → outerMap hn P (op (vectorOf v) X + conV M hn v X)
        = G (vectorOf (P v)) (outerMap hn P X) := by
      intro X hX
      rw [map_add, outerMap_op hn P (vectorOf_space v hn) hX, outerMap_vector, outerMap_con hn P h v hX,
        gp_vector q hv, add_comm]
    rw [genEquiv_ι_mul, wick_vectorOf, step hW, hx, step hX, gp_assoc]

theorem grades_of (g : GradedProduct) (r s : Nat) (hg : g ≠ .gp) :
    ∃ k : Int, ∀ t : Nat, areValidGrades g r s t = true ↔ (t : Int) = k := by
  cases g with
  | gp => exact absurd rfl hg
  | lcont => exact ⟨s - r, fun t => by simp only [areValidGrades, decide_eq_true_eq]; omega⟩
  | rcont => exact ⟨r - s, fun t => by simp only [areValidGrades, decide_eq_true_eq]; omega⟩
  | dot =>
    refine ⟨|(r : Int) - s|, fun t => ?_⟩
    simp only [areValidGrades]
    split <;> rw [decide_eq_true_eq]
    · rw [abs_of_nonpos (by omega)]; omega
    · rw [abs_of_nonneg (by omega)]; omega
  | hip =>
    by_cases h0 : r = 0 ∨ s = 0
    · refine ⟨-1, fun t => ?_⟩
      have : (decide ((r : Int) = 0) || decide ((s : Int) = 0)) = true := by
        rcases h0 with h0 | h0 <;> simp [h0]
      simp only [areValidGrades, this, if_true]
      constructor
      · intro h; exact absurd h (by simp)
      · intro h; omega
    · refine ⟨|(r : Int) - s|, fun t => ?_⟩
      have : (decide ((r : Int) = 0) || decide ((s : Int) = 0)) = false := by
        rw [not_or] at h0
        simp [h0.1, h0.2]
      simp only [areValidGrades, this, if_false, Bool.false_eq_true]
      split <;> rw [decide_eq_true_eq]
      · rw [abs_of_nonpos (by omega)]; omega
      · rw [abs_of_nonneg (by omega)]; omega
  | sp => exact ⟨0, fun t => by simp only [areValidGrades, decide_eq_true_eq]⟩

/-- An isometry maps all products to those of the orthogonal metric. -/
theorem outerMap_prod {entry : Nat → Nat → K} (h7 : n ≤ 7) (h : Isometry hn (ent entry) q P) (g : GradedProduct)
    {A B : MV K} (hA : A ∈ space K n) (hB : B ∈ space K n) (fuel : Nat) (hf : 2 ^ n < fuel) :
    outerMap hn P (genProd fuel entry n g A B) = orthProd (diagFactor q) g (outerMap hn P A) (outerMap hn P B) := by
  refine space_eq_sum (p := fun A => outerMap hn P (genProd fuel entry n g A B)
    = orthProd (diagFactor q) g (outerMap hn P A) (outerMap hn P B)) hA ?_ ?_ ?_
  · rw [map_zero, LinearMap.zero_apply, map_zero, prod_zero_left]
  · intro A A' h1 h2; rw [map_add, LinearMap.add_apply, map_add, map_add, prod_add_left, h1, h2]
  intro l a hl
  refine space_eq_sum (p := fun B => outerMap hn P (genProd fuel entry n g (Finsupp.single l a) B)
    = orthProd (diagFactor q) g (outerMap hn P (Finsupp.single l a)) (outerMap hn P B)) hB ?_ ?_ ?_
  · rw [map_zero, map_zero, prod_zero_right]
  · intro A A' h1 h2; rw [map_add, map_add, map_add, prod_add_right, h1, h2]
  intro r b hr
  have h1 := inSpace_ones (by omega) hl
  have h2 := inSpace_ones (by omega) hr
  have hX : (Finsupp.single l a : MV K) ∈ space K n := single_mem_space _ hl
  have hY : (Finsupp.single r b : MV K) ∈ space K n := single_mem_space _ hr
  rw [genProd_homog entry (by omega) g hX hY (homog_single _ rfl) (homog_single _ rfl) ⟨by omega, by omega⟩ fuel hf]
  by_cases hg : g = .gp
  · subst hg
    rw [keep_gp, outerMap_wick hn P h hX hY]
  · obtain ⟨k, hk⟩ := grades_of g (ones l) (ones r) hg
    rw [keep_gradePart g _ _ k hk, outerMap_gradePart hn P k (wick_space hn hX hY), outerMap_wick hn P h hX hY,
      orthMul_gradePart _ g (outerMap_single hn P hl a) (outerMap_single hn P hr b) k hk]

end

end GATL
