import Mathlib.Analysis.InnerProductSpace.PiL2
import Mathlib.Analysis.InnerProductSpace.Projection.FiniteDimensional
import Verif.Spec.Meet
import Verif.Proofs.Blades
import Verif.Proofs.Forms
import Verif.Proofs.GeneralProd
import Verif.Proofs.Inner
import Verif.Proofs.Parameters
import Verif.Proofs.Points

/-!
# Blades and the subspaces they span
-/

namespace GATL

open Spec

variable {n : Nat}

local notation "q1" => (fun _ => (1 : ℝ) : Fin 64 → ℝ)
local notation "L" => orthProd (diagFactor q1) GradedProduct.lcont
local notation "G" => orthProd (diagFactor q1) GradedProduct.gp
local notation "𝔼" => EuclideanSpace ℝ (Fin n)

/-- A vector of the space as a multivector. -/
noncomputable def vec (x : 𝔼) : MV ℝ := vectorOf x

theorem vec_add (x y : 𝔼) : vec (x + y) = vec x + vec y := by
  unfold vec vectorOf
  simp only [PiLp.add_apply, add_smul, Finset.sum_add_distrib]
theorem vec_sub (x y : 𝔼) : vec (x - y) = vec x - vec y := by
  unfold vec vectorOf
  simp only [PiLp.sub_apply, sub_smul, Finset.sum_sub_distrib]
theorem vec_smul (c : ℝ) (x : 𝔼) : vec (c • x) = c • vec x := by
  unfold vec vectorOf
  simp only [PiLp.smul_apply, smul_eq_mul, mul_smul, Finset.smul_sum]
theorem vec_zero : vec (0 : 𝔼) = 0 := by
  have := vec_smul (0 : ℝ) (0 : 𝔼)
  rwa [zero_smul, zero_smul] at this

theorem vec_homog (hn : n ≤ 63) (x : 𝔼) : Homogeneous 1 (vec x) := vectorOf_homog _ (by omega)

theorem vdot_vec (hn : n ≤ 63) (x y : 𝔼) : vdot q1 (vec x) (vec y) = inner ℝ x y := by
  have h := sp_vectors q1 (by omega : n ≤ 64) x y
  have h2 : L (vec x) (vec y) = orthProd (diagFactor q1) .sp (vec x) (vec y) := by
    rw [lcont_same _ (vec_homog hn x) (vec_homog hn y), Iso.sp_scalar]
  unfold vdot
  rw [h2]
  unfold vec
  rw [h, scalar_zero_apply, PiLp.inner_apply]
  refine Finset.sum_congr rfl fun i _ => ?_
  simp [mul_comm]

theorem vec_injective (hn : n ≤ 63) {x : 𝔼} (h : vec x = 0) : x = 0 := by
  have := vdot_vec hn x x
  rw [h] at this
  have h0 : vdot q1 (0 : MV ℝ) 0 = 0 := by unfold vdot; rw [prod_zero_left]; rfl
  rw [h0] at this
  exact inner_self_eq_zero.mp this.symm

theorem vecs_homog (hn : n ≤ 63) (xs : List 𝔼) : ∀ v ∈ xs.map vec, Homogeneous 1 v := by
  intro v hv
  obtain ⟨x, -, rfl⟩ := List.mem_map.mp hv
  exact vec_homog hn x

theorem Spec.Spans.outer {A : MV ℝ} {U : Submodule ℝ 𝔼} (h : Spans A U) :
    ∃ (c : ℝ) (xs : List 𝔼), c ≠ 0 ∧ Submodule.span ℝ {x | x ∈ xs} = U ∧ A = c • outerProd (xs.map vec) ∧
      outerProd (xs.map vec) ≠ 0 := by
  obtain ⟨c, xs, h1, h2⟩ := h.blade
  refine ⟨c, xs, ?_, h1, h2, ?_⟩
  · rintro rfl; rw [zero_smul] at h2; exact h.ne h2
  · intro h3
    have : outerOf (xs.map fun x : 𝔼 => vectorOf x) = outerProd (xs.map (vec (n := n))) := rfl
    rw [this, h3, smul_zero] at h2; exact h.ne h2

theorem spans_outer {c : ℝ} {xs : List 𝔼} (hc : c ≠ 0) (h : outerProd (xs.map vec) ≠ 0) :
    Spans (c • outerProd (xs.map vec)) (Submodule.span ℝ {x | x ∈ xs}) :=
  ⟨smul_ne_zero hc h, c, xs, rfl, rfl⟩

theorem Spec.Spans.smul {A : MV ℝ} {U : Submodule ℝ 𝔼} (h : Spans A U) {c : ℝ} (hc : c ≠ 0) : Spans (c • A) U := by
  obtain ⟨d, xs, h1, h2⟩ := h.blade
  exact ⟨smul_ne_zero hc h.ne, c * d, xs, h1, by rw [h2, smul_smul]⟩

/-- A vector orthogonal to the subspace. -/
theorem Spec.Spans.perp (hn : n ≤ 63) {A : MV ℝ} {U : Submodule ℝ 𝔼} (h : Spans A U) {r : 𝔼} (hr : r ∈ Uᗮ) :
    L (vec r) A = 0 := by
  obtain ⟨c, xs, -, h1, h2, -⟩ := h.outer
  rw [h2, prod_smul_right, lcont_outer q1 (vec_homog hn r) (vecs_homog hn xs), smul_zero]
  intro v hv
  obtain ⟨x, hx, rfl⟩ := List.mem_map.mp hv
  rw [vdot_vec hn]
  rw [Submodule.mem_orthogonal'] at hr
  exact hr x (h1 ▸ Submodule.subset_span hx)

theorem Spec.Spans.inside (hn : n ≤ 63) {A : MV ℝ} {U : Submodule ℝ 𝔼} (h : Spans A U) {x : 𝔼} (hx : x ∈ U) :
    op (vec x) A = 0 := by
  obtain ⟨c, xs, -, h1, h2, -⟩ := h.outer
  rw [← h1] at hx
  rw [h2, op_smul_right]
  refine smul_eq_zero_of_right _ ?_
  induction hx using Submodule.span_induction with
  | mem x hx => exact outer_inside (vecs_homog hn xs) _ (List.mem_map_of_mem hx)
  | zero => rw [vec_zero, op_zero_left]
  | add x y _ _ hx hy => rw [vec_add, op_add_left, hx, hy, add_zero]
  | smul a x _ hx => rw [vec_smul, op_smul_left, hx, smul_zero]

/-- The vectors inside the blade are those of the subspace. -/
theorem Spec.Spans.inside_iff (hn : n ≤ 63) {A : MV ℝ} {U : Submodule ℝ 𝔼} (h : Spans A U) (x : 𝔼) :
    op (vec x) A = 0 ↔ x ∈ U := by
  refine ⟨fun h0 => ?_, h.inside hn⟩
  obtain ⟨y, hy, z, hz, rfl⟩ := Submodule.exists_add_mem_mem_orthogonal (K := U) x
  rw [vec_add, op_add_left, h.inside hn hy, zero_add] at h0
  have h1 := lcont_wedge q1 (vec_homog hn z) (vec_homog hn z) A
  rw [h0, prod_zero_right, h.perp hn hz, op_zero_right, sub_zero, vdot_vec hn] at h1
  have h2 := (smul_eq_zero.mp h1.symm).resolve_right h.ne
  rw [inner_self_eq_zero.mp h2, add_zero]; exact hy

/-- The outer product with a vector outside. -/
theorem Spec.Spans.cons (hn : n ≤ 63) {A : MV ℝ} {U : Submodule ℝ 𝔼} (h : Spans A U) {x : 𝔼} (hx : x ∉ U) :
    Spans (op (vec x) A) (Submodule.span ℝ {x} ⊔ U) := by
  obtain ⟨c, xs, -, h1, h2⟩ := h.outer
  refine ⟨fun h0 => hx ((h.inside_iff hn x).mp h0), c, x :: xs, ?_, ?_⟩
  · rw [← h1, ← Submodule.span_union]
    congr 1
    ext y; simp
  · rw [h2.1, op_smul_right]; rfl

theorem span_cons_list (x : 𝔼) (xs : List 𝔼) :
    Submodule.span ℝ {y | y ∈ x :: xs} = Submodule.span ℝ {x} ⊔ Submodule.span ℝ {y | y ∈ xs} := by
  rw [← Submodule.span_union]
  congr 1
  ext y; simp

/-- The grade is the dimension. -/
theorem outer_finrank (hn : n ≤ 63) : ∀ {xs : List 𝔼}, outerProd (xs.map vec) ≠ 0 →
    Module.finrank ℝ (Submodule.span ℝ {x | x ∈ xs}) = xs.length
  | [], _ => by simp
  | x :: xs, h => by
    have e : outerProd ((x :: xs).map vec) = op (vec x) (outerProd (xs.map vec)) := rfl
    have h1 : outerProd (xs.map vec) ≠ 0 := by
      intro h0; rw [e, h0, op_zero_right] at h; exact h rfl
    have h2 := outer_finrank hn h1
    have h3 : x ∉ Submodule.span ℝ {x | x ∈ xs} := by
      intro h0
      have := (spans_outer one_ne_zero h1).inside hn h0
      rw [one_smul] at this
      exact h (e.trans this)
    have hx : x ≠ 0 := by rintro rfl; exact h3 (Submodule.zero_mem _)
    rw [span_cons_list]
    have h4 := Submodule.finrank_sup_add_finrank_inf_eq (Submodule.span ℝ {x}) (Submodule.span ℝ {y | y ∈ xs})
    rw [finrank_span_singleton hx, h2] at h4
    have h5 : Submodule.span ℝ {x} ⊓ Submodule.span ℝ {y | y ∈ xs} = ⊥ := by
      rw [Submodule.eq_bot_iff]
      rintro y ⟨hy, hy'⟩
      obtain ⟨a, rfl⟩ := Submodule.mem_span_singleton.mp hy
      by_cases ha : a = 0
      · rw [ha, zero_smul]
      · exact absurd ((Submodule.smul_mem_iff _ ha).mp hy') h3
    rw [h5, finrank_bot] at h4
    rw [List.length_cons]; omega

theorem Spec.Spans.homog (hn : n ≤ 63) {A : MV ℝ} {U : Submodule ℝ 𝔼} (h : Spans A U) :
    Homogeneous (Module.finrank ℝ U) A := by
  obtain ⟨c, xs, -, h1, h2, h3⟩ := h.outer
  have := outer_homog (vecs_homog hn xs)
  rw [← h1, outer_finrank hn h3, h2]
  rw [List.length_map] at this
  exact homog_smul _ this

/-- Every subspace is spanned by the outer product of orthogonal vectors. -/
theorem exists_orthogonal (hn : n ≤ 63) (U : Submodule ℝ 𝔼) : ∃ xs : List 𝔼, Orthogonal q1 (xs.map vec) ∧
    Submodule.span ℝ {x | x ∈ xs} = U ∧ outerProd (xs.map vec) ≠ 0 := by
  let b := stdOrthonormalBasis ℝ U
  let xs : List 𝔼 := List.ofFn fun i => (b i : 𝔼)
  have ho : Orthogonal q1 (xs.map vec) := by
    refine ⟨vecs_homog hn xs, ?_⟩
    rw [List.pairwise_map, List.pairwise_ofFn]
    intro i j hij
    rw [vdot_vec hn]
    exact b.orthonormal.2 hij.ne
  have hne : ∀ w ∈ xs.map vec, vdot q1 w w ≠ 0 := by
    intro w hw
    obtain ⟨x, hx, rfl⟩ := List.mem_map.mp hw
    obtain ⟨i, rfl⟩ := (List.mem_ofFn' _ _).mp hx
    rw [vdot_vec hn]
    have h1 : (b i : 𝔼) ≠ 0 := by
      intro h0
      have := b.orthonormal.ne_zero i
      exact this (Subtype.ext h0)
    exact fun h0 => h1 (inner_self_eq_zero.mp h0)
  have hX : outerProd (xs.map vec) ≠ 0 := by
    rw [← orthogonal_outer q1 ho]
    have := versor_ne q1 hne
    intro h0
    have h2 := (versor_norm q1 _ ho.1).1
    rw [h0, prod_zero_left] at h2
    have h3 := congrArg (fun A : MV ℝ => A 0) h2
    simp only [scalar_zero_apply, Finsupp.coe_zero, Pi.zero_apply] at h3
    exact this h3.symm
  refine ⟨xs, ho, ?_, hX⟩
  have h1 : {x | x ∈ xs} = U.subtype '' Set.range b := by
    ext x
    simp [xs, List.mem_ofFn]
  rw [h1, ← Submodule.map_span, ← OrthonormalBasis.coe_toBasis, b.toBasis.span_eq, Submodule.map_top,
    Submodule.range_subtype]

theorem exists_spans (hn : n ≤ 63) (U : Submodule ℝ 𝔼) : ∃ A, Spans A U := by
  obtain ⟨xs, -, h1, h2⟩ := exists_orthogonal hn U
  have := spans_outer (c := 1) one_ne_zero h2
  exact ⟨_, h1 ▸ this⟩

/-- Blades are invertible: their squares are not zero. -/
theorem Spec.Spans.square (hn : n ≤ 63) {A : MV ℝ} {U : Submodule ℝ 𝔼} (h : Spans A U) :
    ∃ κ : ℝ, κ ≠ 0 ∧ G A A = scalar κ := by
  obtain ⟨c, xs, hc, -, h2, h3⟩ := h.outer
  obtain ⟨ws, hw, hne, -, he⟩ := gram_schmidt (xs.map vec) (vecs_homog hn xs) h3
  have h1 := (versor_norm q1 ws hw.1).2
  have hv := versor_ne q1 hne
  have hr := reverse_homog (outer_homog (vecs_homog hn xs))
  obtain ⟨κ, hκ⟩ := blade_square q1 (vecs_homog hn xs)
  rw [he, hr, prod_smul_left, hκ] at h1
  refine ⟨c * c * κ, ?_, ?_⟩
  · refine mul_ne_zero (mul_ne_zero hc hc) ?_
    rintro rfl
    have h3 := congrArg (fun A : MV ℝ => A 0) h1
    simp only [Finsupp.smul_apply, scalar_zero_apply, smul_zero] at h3
    exact hv h3.symm
  · rw [h2, prod_smul_left, prod_smul_right, hκ, smul_smul]
    unfold scalar; rw [Finsupp.smul_single, smul_eq_mul]

/-- The inverse of a blade. -/
theorem Spec.Spans.inverse (hn : n ≤ 63) {A : MV ℝ} {U : Submodule ℝ 𝔼} (h : Spans A U) :
    ∃ κ : ℝ, κ ≠ 0 ∧ G A A = scalar κ ∧ inv (orthProd (diagFactor q1)) A = some (κ⁻¹ • A) := by
  obtain ⟨κ, h0, hκ⟩ := h.square hn
  have h1 := reverse_homog (h.homog hn)
  generalize Module.finrank ℝ U * (Module.finrank ℝ U - 1) / 2 = k at h1
  have h3 : G A (reverse A) = scalar ((-1) ^ k * κ) := by
    rw [h1, prod_smul_right, hκ]
    unfold scalar; rw [Finsupp.smul_single, smul_eq_mul]
  have h4 := sign_ne (K := ℝ) k
  refine ⟨κ, h0, hκ, ?_⟩
  rw [inv_of q1 h3 (mul_ne_zero h4 h0), h1, smul_smul]
  congr 2
  field_simp

/-- Blades of the same subspace are multiples of each other. -/
theorem Spec.Spans.unique (hn : n ≤ 63) {A B : MV ℝ} {U : Submodule ℝ 𝔼} (hA : Spans A U) (hB : Spans B U) :
    ∃ c : ℝ, c ≠ 0 ∧ A = c • B := by
  obtain ⟨κ, hκ0, hκ⟩ := hB.square hn
  obtain ⟨a, xs, ha, h1, h2, h3⟩ := hA.outer
  have h4 : G A B = L A B := by
    rw [h2, prod_smul_left, prod_smul_left, blade_gp q1 (vecs_homog hn xs)]
    intro v hv
    obtain ⟨x, hx, rfl⟩ := List.mem_map.mp hv
    exact hB.inside hn (h1 ▸ Submodule.subset_span hx)
  rw [lcont_same q1 (hA.homog hn) (hB.homog hn)] at h4
  have h5 := congrArg (fun X => G X B) h4
  simp only [gp_assoc, hκ, gp_scalar_right, gp_scalar_left] at h5
  refine ⟨κ⁻¹ * G A B 0, ?_, ?_⟩
  · refine mul_ne_zero (inv_ne_zero hκ0) ?_
    intro h0
    rw [h0, zero_smul] at h5
    exact hA.ne ((smul_eq_zero.mp h5).resolve_left hκ0)
  · rw [mul_smul, ← h5, smul_smul, inv_mul_cancel₀ hκ0, one_smul]

/-- The outer product of blades of disjoint subspaces. -/
theorem Spec.Spans.op (hn : n ≤ 63) {A B : MV ℝ} {U V : Submodule ℝ 𝔼} (hA : Spans A U) (hB : Spans B V)
    (h : U ⊓ V = ⊥) : Spans (GATL.op A B) (U ⊔ V) := by
  obtain ⟨a, xs, ha, rfl, rfl, h3⟩ := hA.outer
  rw [op_smul_left]
  refine Spec.Spans.smul ?_ ha
  clear hA ha
  induction xs with
  | nil =>
    have e : outerProd (([] : List 𝔼).map vec) = scalar 1 := rfl
    rw [e, op_scalar_left, one_smul]
    simpa using hB
  | cons x xs ih =>
    have e : outerProd ((x :: xs).map vec) = GATL.op (vec x) (outerProd (xs.map vec)) := rfl
    have h1 : outerProd (xs.map vec) ≠ 0 := by
      intro h0; rw [e, h0, op_zero_right] at h3; exact h3 rfl
    have h2 := ih (by
      rw [eq_bot_iff, ← h]
      refine inf_le_inf_right _ (Submodule.span_mono fun y hy => ?_)
      exact List.mem_cons_of_mem x hy) h1
    have h4 : x ∉ Submodule.span ℝ {y | y ∈ xs} ⊔ V := by
      intro h0
      obtain ⟨u, hu, v, hv, huv⟩ := Submodule.mem_sup.mp h0
      have h5 : v ∈ Submodule.span ℝ {y | y ∈ x :: xs} ⊓ V := by
        refine ⟨?_, hv⟩
        rw [← eq_sub_iff_add_eq'] at huv
        rw [huv, span_cons_list]
        exact Submodule.sub_mem _ (Submodule.mem_sup_left (Submodule.mem_span_singleton_self x))
          (Submodule.mem_sup_right hu)
      rw [h, Submodule.mem_bot] at h5
      rw [h5, add_zero] at huv
      rw [huv] at hu
      have h6 := (spans_outer one_ne_zero h1).inside hn hu
      rw [one_smul] at h6
      exact h3 (e.trans h6)
    rw [e, op_assoc', span_cons_list, sup_assoc]
    exact h2.cons hn h4

/-- The contraction by a vector that is not orthogonal to the subspace. -/
theorem Spec.Spans.lcont_vec (hn : n ≤ 63) {B : MV ℝ} {V : Submodule ℝ 𝔼} (hB : Spans B V) {a : 𝔼} (ha : a ∉ Vᗮ) :
    Spans (L (vec a) B) (V ⊓ (Submodule.span ℝ {a})ᗮ) := by
  obtain ⟨y, hy, z, hz, rfl⟩ := Submodule.exists_add_mem_mem_orthogonal (K := V) a
  have hy0 : y ≠ 0 := by rintro rfl; rw [zero_add] at ha; exact ha hz
  have hyy : (inner ℝ y y : ℝ) ≠ 0 := fun h0 => hy0 (inner_self_eq_zero.mp h0)
  have e1 : V ⊓ (Submodule.span ℝ {y + z})ᗮ = V ⊓ (Submodule.span ℝ {y})ᗮ := by
    ext v
    simp only [Submodule.mem_inf, Submodule.mem_orthogonal_singleton_iff_inner_right]
    refine and_congr_right fun hv => ?_
    rw [inner_add_left, (Submodule.mem_orthogonal' V z).mp hz v hv, add_zero]
  rw [e1, vec_add, prod_add_left, hB.perp hn hz, add_zero]
  obtain ⟨C, hC⟩ := exists_spans hn (V ⊓ (Submodule.span ℝ {y})ᗮ)
  have h1 : y ∉ V ⊓ (Submodule.span ℝ {y})ᗮ := by
    rintro ⟨-, h0⟩
    rw [SetLike.mem_coe, Submodule.mem_orthogonal_singleton_iff_inner_right] at h0
    exact hyy h0
  have h2 := hC.cons hn h1
  have e2 : Submodule.span ℝ {y} ⊔ V ⊓ (Submodule.span ℝ {y})ᗮ = V := by
    refine le_antisymm (sup_le ((Submodule.span_singleton_le_iff_mem _ _).mpr hy) inf_le_left) fun v hv => ?_
    have : v = (inner ℝ y v / inner ℝ y y : ℝ) • y + (v - (inner ℝ y v / inner ℝ y y : ℝ) • y) := by abel
    rw [this]
    refine Submodule.add_mem_sup (Submodule.smul_mem _ _ (Submodule.mem_span_singleton_self y))
      ⟨Submodule.sub_mem _ hv (Submodule.smul_mem _ _ hy), ?_⟩
    rw [SetLike.mem_coe, Submodule.mem_orthogonal_singleton_iff_inner_right, inner_sub_right, inner_smul_right,
      div_mul_cancel₀ _ hyy, sub_self]
  rw [e2] at h2
  obtain ⟨c, hc, rfl⟩ := hB.unique hn h2
  have h3 : L (vec y) C = 0 := by
    refine hC.perp hn ?_
    rw [Submodule.mem_orthogonal']
    rintro u ⟨-, hu⟩
    exact Submodule.mem_orthogonal_singleton_iff_inner_right.mp hu
  rw [prod_smul_right, lcont_wedge q1 (vec_homog hn y) (vec_homog hn y), h3, op_zero_right, sub_zero, vdot_vec hn,
    smul_smul]
  exact hC.smul (mul_ne_zero hc hyy)

/-- The contraction of blades: the part of the second subspace that is orthogonal to the first. -/
theorem Spec.Spans.lcont (hn : n ≤ 63) {A B : MV ℝ} {U V : Submodule ℝ 𝔼} (hA : Spans A U) (hB : Spans B V)
    (h : U ⊓ Vᗮ = ⊥) : Spans (L A B) (V ⊓ Uᗮ) := by
  obtain ⟨a, xs, ha, rfl, rfl, h3⟩ := hA.outer
  rw [prod_smul_left]
  refine Spec.Spans.smul ?_ ha
  clear hA ha
  induction xs with
  | nil =>
    have e : outerProd (([] : List 𝔼).map vec) = scalar 1 := rfl
    rw [e, lcont_one_left]
    simpa using hB
  | cons x xs ih =>
    have e : outerProd ((x :: xs).map vec) = GATL.op (vec x) (outerProd (xs.map vec)) := rfl
    have h1 : outerProd (xs.map vec) ≠ 0 := by
      intro h0; rw [e, h0, op_zero_right] at h3; exact h3 rfl
    have h2 := ih (by
      rw [eq_bot_iff, ← h]
      refine inf_le_inf_right _ (Submodule.span_mono fun y hy => ?_)
      exact List.mem_cons_of_mem x hy) h1
    have h4 : x ∉ (V ⊓ (Submodule.span ℝ {y | y ∈ xs})ᗮ)ᗮ := by
      intro h0
      have e1 : V ⊓ (Submodule.span ℝ {y | y ∈ xs})ᗮ = (Vᗮ ⊔ Submodule.span ℝ {y | y ∈ xs})ᗮ := by
        rw [← Submodule.inf_orthogonal, Submodule.orthogonal_orthogonal]
      rw [e1, Submodule.orthogonal_orthogonal] at h0
      obtain ⟨v, hv, u, hu, huv⟩ := Submodule.mem_sup.mp h0
      have h5 : v ∈ Submodule.span ℝ {y | y ∈ x :: xs} ⊓ Vᗮ := by
        refine ⟨?_, hv⟩
        rw [← eq_sub_iff_add_eq] at huv
        rw [huv, span_cons_list]
        exact Submodule.sub_mem _ (Submodule.mem_sup_left (Submodule.mem_span_singleton_self x))
          (Submodule.mem_sup_right hu)
      rw [h, Submodule.mem_bot] at h5
      rw [h5, zero_add] at huv
      rw [huv] at hu
      have h6 := (spans_outer one_ne_zero h1).inside hn hu
      rw [one_smul] at h6
      exact h3 (e.trans h6)
    rw [e, lcont_op, span_cons_list]
    have h5 := h2.lcont_vec hn h4
    rwa [inf_assoc, Submodule.inf_orthogonal, sup_comm] at h5

theorem Spec.Spans.reverse (hn : n ≤ 63) {A : MV ℝ} {U : Submodule ℝ 𝔼} (hA : Spans A U) : Spans (GATL.reverse A) U := by
  rw [reverse_homog (hA.homog hn)]
  exact hA.smul (sign_ne _)

/-- The right contraction. -/
theorem Spec.Spans.rcont (hn : n ≤ 63) {A B : MV ℝ} {U V : Submodule ℝ 𝔼} (hA : Spans A U) (hB : Spans B V)
    (h : V ⊓ Uᗮ = ⊥) : Spans (orthProd (diagFactor q1) .rcont A B) (U ⊓ Vᗮ) := by
  rw [rcont_reverse]
  exact ((hB.reverse hn).lcont hn (hA.reverse hn) h).reverse hn

/-- The projection of a vector. -/
theorem Spec.Spans.project (hn : n ≤ 63) {B : MV ℝ} {V : Submodule ℝ 𝔼} (hB : Spans B V) {κ : ℝ} (h0 : κ ≠ 0)
    (hκ : G B B = scalar κ) (a : 𝔼) : L (L (vec a) (κ⁻¹ • B)) B = vec (V.starProjection a) := by
  have h1 : L B B = scalar κ := by
    rw [lcont_same q1 (hB.homog hn) (hB.homog hn), hκ, scalar_zero_apply]
  have h2 : a = V.starProjection a + (a - V.starProjection a) := by abel
  have h3 : L (vec a) B = L (vec (V.starProjection a)) B := by
    conv_lhs => rw [h2]
    rw [vec_add, prod_add_left, hB.perp hn (Submodule.sub_starProjection_mem_orthogonal a), add_zero]
  rw [prod_smul_right, prod_smul_left, h3, lcont_inside q1 (vec_homog hn _)
    (hB.inside hn (Submodule.starProjection_apply_mem V a)), h1, op_scalar_right, smul_smul, inv_mul_cancel₀ h0, one_smul]

end GATL
