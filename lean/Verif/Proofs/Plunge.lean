import Verif.Proofs.GeometricAlgebra
import Verif.Proofs.MeetLoop
import Verif.Props.Algebra
import Verif.Props.Inner

/-!
# Contractions and duals of blades in any metric

The contraction of a metric is the Euclidean contraction by the image of the outermorphism of the metric matrix.
-/

namespace GATL

open Spec

variable {n : Nat} {M : Matrix (Fin n) (Fin n) ℝ} {m : Metric ℝ}

local notation "q1" => (fun _ => (1 : ℝ) : Fin 64 → ℝ)
local notation "L" => orthProd (diagFactor q1) GradedProduct.lcont
local notation "𝔼" => EuclideanSpace ℝ (Fin n)

namespace Spec.GeometricAlgebra

theorem lcont_vector_real (hn : n ≤ 63) (h : GeometricAlgebra n M m) (v : Fin n → ℝ) {B : MV ℝ} (hB : B ∈ space ℝ n) :
    m .lcont (vectorOf v) B = L (vectorOf (M.mulVec v)) B := by
  have hv := vectorOf_homog (M.mulVec v) (by omega : n ≤ 64)
  refine outer_induction (by omega : n ≤ 64)
    (p := fun B => m .lcont (vectorOf v) B = L (vectorOf (M.mulVec v)) B) hB ?_ ?_ ?_
  · intro a
    have h1 := (scalar_spans (n := n) one_ne_zero).perp hn (r := WithLp.toLp 2 (M.mulVec v)) (by simp)
    have h2 : (scalar a : MV ℝ) = a • scalar 1 := by unfold scalar; rw [Finsupp.smul_single, smul_eq_mul, mul_one]
    rw [h.contract_scalar, h2, prod_smul_right]
    exact (smul_eq_zero_of_right a h1).symm
  · intro A B hA hB h1 h2
    rw [h.add_right _ _ _ _ (vectorOf_space v (by omega)) hA hB, prod_add_right, h1, h2]
  · intro w A hA h1
    rw [h.contract_op _ _ _ hA, lcont_wedge q1 hv (vectorOf_homog w (by omega)), h1]
    have h2 : vdot q1 (vectorOf (M.mulVec v)) (vectorOf w) = ∑ i, ∑ j, w i * M i j * v j := by
      refine (vdot_vec hn (WithLp.toLp 2 (M.mulVec v)) (WithLp.toLp 2 w)).trans ?_
      rw [PiLp.inner_apply]
      refine Finset.sum_congr rfl fun i _ => ?_
      simp only [Matrix.mulVec, dotProduct, RCLike.inner_apply, conj_trivial, Finset.mul_sum]
      exact Finset.sum_congr rfl fun j _ => by ring
    rw [h2]

theorem gradePart_vector (hn : n ≤ 63) (h : GeometricAlgebra n M m) (v : Fin n → ℝ) (k : Int) {X : MV ℝ}
    (hX : X ∈ space ℝ n) : gradePart k (m .gp (vectorOf v) X) =
      op (vectorOf v) (gradePart (k - 1) X) + m .lcont (vectorOf v) (gradePart (k + 1) X) := by
  have sv := vectorOf_space v (by omega : n ≤ 64)
  have hv := vectorOf_homog v (by omega : n ≤ 64)
  have := space_eq_sum (p := fun X => X ∈ space ℝ n ∧ gradePart k (m .gp (vectorOf v) X) =
      op (vectorOf v) (gradePart (k - 1) X) + m .lcont (vectorOf v) (gradePart (k + 1) X)) hX ?_ ?_ ?_
  · exact this.2
  · refine ⟨Submodule.zero_mem _, ?_⟩
    rw [h.zero_right _ sv, gradePart_zero, gradePart_zero, gradePart_zero, h.zero_right _ sv, op_zero_right, add_zero]
  · rintro A B ⟨sA, hA⟩ ⟨sB, hB⟩
    refine ⟨Submodule.add_mem _ sA sB, ?_⟩
    rw [h.add_right _ _ _ _ sv sA sB, gradePart_add, hA, hB, gradePart_add, gradePart_add, op_add_right,
      h.add_right _ _ _ _ sv (gradePart_space _ sA) (gradePart_space _ sB)]
    abel
  · intro b a hb
    have sb : (Finsupp.single b a : MV ℝ) ∈ space ℝ n := single_mem_space a hb
    have hs : Homogeneous (ones b) (Finsupp.single b a : MV ℝ) := homog_single a rfl
    refine ⟨sb, ?_⟩
    have h1 : gradePart k (op (vectorOf v) (Finsupp.single b a)) = op (vectorOf v) (gradePart (k - 1) (Finsupp.single b a)) := by
      rw [Iso.gradePart_of_homog (Iso.op_homog hv hs), Iso.gradePart_of_homog hs]
      by_cases e : (ones b : Int) = k - 1
      · rw [if_pos e, if_pos (by push_cast; omega)]
      · rw [if_neg e, if_neg (by push_cast; omega), op_zero_right]
    have h2 : gradePart k (m .lcont (vectorOf v) (Finsupp.single b a)) =
        m .lcont (vectorOf v) (gradePart (k + 1) (Finsupp.single b a)) := by
      rw [(h.parts 1 (ones b) _ _ sv sb hv hs).1, Iso.gradePart_of_homog hs]
      by_cases e : (ones b : Int) = k + 1
      · rw [if_pos e, (h.parts 1 (ones b) _ _ sv sb hv hs).1]
        have : (ones b : Int) - (1 : Nat) = k := by push_cast; omega
        rw [this]
        ext c; unfold gradePart; simp only [Finsupp.filter_apply]; split_ifs <;> rfl
      · rw [if_neg e, h.zero_right _ sv]
        ext c; unfold gradePart; simp only [Finsupp.filter_apply]
        split_ifs with e1 e2
        · push_cast at e2; omega
        all_goals rfl
    rw [h.vector v _ sb, gradePart_add, h1, h2]

theorem lcont_homog (hn : n ≤ 63) (h : GeometricAlgebra n M m) (v : Fin n → ℝ) {r : Nat} {A : MV ℝ} (sA : A ∈ space ℝ n)
    (hA : Homogeneous (r + 1) A) : Homogeneous r (m .lcont (vectorOf v) A) := by
  rw [(h.parts 1 (r + 1) _ _ (vectorOf_space v (by omega)) sA (vectorOf_homog v (by omega)) hA).1]
  have : ((r + 1 : Nat) : Int) - (1 : Nat) = (r : Nat) := by push_cast; omega
  rw [this]
  exact gradePart_homog r _

/-- Homogeneous multivectors of a positive grade are sums of outer products with vectors. -/
theorem homog_outer {r : Nat} {p : MV ℝ → Prop} (h0 : p 0) (hadd : ∀ A B, A ∈ space ℝ n → B ∈ space ℝ n → p A → p B → p (A + B))
    (hop : ∀ (v : Fin n → ℝ) A, A ∈ space ℝ n → Homogeneous r A → p (op (vectorOf v) A)) {A : MV ℝ} (sA : A ∈ space ℝ n)
    (hA : Homogeneous (r + 1) A) : p A := by
  have := space_eq_sum (p := fun X => X ∈ space ℝ n ∧ p (gradePart ((r + 1 : Nat) : Int) X)) sA ?_ ?_ ?_
  · have h1 := this.2
    rwa [Iso.gradePart_of_homog hA, if_pos rfl] at h1
  · exact ⟨Submodule.zero_mem _, by rwa [gradePart_zero]⟩
  · rintro A B ⟨s1, h1⟩ ⟨s2, h2⟩
    exact ⟨Submodule.add_mem _ s1 s2, by
      rw [gradePart_add]; exact hadd _ _ (gradePart_space _ s1) (gradePart_space _ s2) h1 h2⟩
  · intro b a hb
    refine ⟨single_mem_space a hb, ?_⟩
    rw [Iso.gradePart_of_homog (homog_single a rfl)]
    split_ifs with e
    · have e : ones b = r + 1 := by exact_mod_cast e
      obtain ⟨v, b', s1, s2, s3⟩ := blade_in_split (K := ℝ) (n := n) (b := b) (by rintro rfl; rw [ones_zero] at e; omega) hb
      have : (Finsupp.single b a : MV ℝ) = op (vectorOf v) (Finsupp.single b' a) := by
        have e1 : (Finsupp.single b' a : MV ℝ) = a • Finsupp.single b' 1 := by
          rw [Finsupp.smul_single, smul_eq_mul, mul_one]
        rw [e1, op_smul_right, s3, Finsupp.smul_single, smul_eq_mul, mul_one]
      rw [this]
      exact hop v _ (single_mem_space a s1) (homog_single a (by omega))
    · exact h0

/-- The geometric product of multivectors of grades `r` and `s` has no part of a grade less than `s - r`. -/
theorem gp_low (hn : n ≤ 63) (h : GeometricAlgebra n M m) {s : Nat} {C : MV ℝ} (sC : C ∈ space ℝ n) (hC : Homogeneous s C)
    (r : Nat) : ∀ {A : MV ℝ}, A ∈ space ℝ n → Homogeneous r A → ∀ k : Int, k < (s : Int) - r → gradePart k (m .gp A C) = 0 := by
  induction r using Nat.strong_induction_on with
  | _ r ih =>
    intro A sA hA k hk
    match r, ih, hA, hk with
    | 0, _, hA, hk =>
      rw [homog_scalar hA, h.gp_scalar _ sC, gradePart_smul, Iso.gradePart_of_homog hC, if_neg (by push_cast at hk; omega), smul_zero]
    | r + 1, ih, hA, hk =>
      refine homog_outer (p := fun A => gradePart k (m .gp A C) = 0) ?_ ?_ ?_ sA hA
      · rw [h.zero_left _ sC, gradePart_zero]
      · intro A B s1 s2 h1 h2
        rw [h.add_left _ _ _ _ s1 s2 sC, gradePart_add, h1, h2, add_zero]
      · intro v A s1 h1
        have sv := vectorOf_space v (by omega : n ≤ 64)
        have e : gradePart k (m .gp (op (vectorOf v) A) C) + gradePart k (m .gp (m .lcont (vectorOf v) A) C) =
            gradePart k (m .gp (vectorOf v) (m .gp A C)) := by
          rw [← gradePart_add, ← h.add_left _ _ _ _ (op_space (by omega) sv s1) (h.prod_space _ sv s1) sC, ← h.vector v A s1,
            h.assoc sv s1 sC]
        have e1 : gradePart k (m .gp (m .lcont (vectorOf v) A) C) = 0 := by
          cases r with
          | zero => rw [homog_scalar h1, h.contract_scalar, h.zero_left _ sC, gradePart_zero]
          | succ r =>
            exact ih r (by omega) (h.prod_space _ sv s1) (h.lcont_homog hn v s1 h1) k (by push_cast at hk ⊢; omega)
        rw [e1, add_zero, h.gradePart_vector hn v k (h.gp_space s1 sC),
          ih r (by omega) s1 h1 (k - 1) (by push_cast at hk ⊢; omega), ih r (by omega) s1 h1 (k + 1) (by push_cast at hk ⊢; omega),
          op_zero_right, h.zero_right _ sv, add_zero] at e
        exact e

/-- Contraction by an outer product. -/
theorem lcont_outer_vector (hn : n ≤ 63) (h : GeometricAlgebra n M m) (v : Fin n → ℝ) {r s : Nat} {A C : MV ℝ}
    (sA : A ∈ space ℝ n) (hA : Homogeneous r A) (sC : C ∈ space ℝ n) (hC : Homogeneous s C) :
    m .lcont (op (vectorOf v) A) C = m .lcont (vectorOf v) (m .lcont A C) := by
  have sv := vectorOf_space v (by omega : n ≤ 64)
  have hv := vectorOf_homog v (by omega : n ≤ 64)
  have so := op_space (by omega) sv sA
  rw [(h.parts (1 + r) s _ _ so sC (Iso.op_homog hv hA) hC).1, (h.parts r s _ _ sA sC hA hC).1]
  set k : Int := (s : Int) - ((1 + r : Nat) : Int) with hk
  have e : gradePart k (m .gp (op (vectorOf v) A) C) + gradePart k (m .gp (m .lcont (vectorOf v) A) C) =
      gradePart k (m .gp (vectorOf v) (m .gp A C)) := by
    rw [← gradePart_add, ← h.add_left _ _ _ _ so (h.prod_space _ sv sA) sC, ← h.vector v A sA, h.assoc sv sA sC]
  have e1 : gradePart k (m .gp (m .lcont (vectorOf v) A) C) = 0 := by
    cases r with
    | zero => rw [homog_scalar hA, h.contract_scalar, h.zero_left _ sC, gradePart_zero]
    | succ r =>
      exact h.gp_low hn sC hC r (h.prod_space _ sv sA) (h.lcont_homog hn v sA hA) k (by push_cast at hk ⊢; omega)
  rw [e1, add_zero, h.gradePart_vector hn v k (h.gp_space sA sC), h.gp_low hn sC hC r sA hA (k - 1) (by push_cast at hk ⊢; omega),
    op_zero_right, zero_add] at e
  rw [e]
  have : k + 1 = (s : Int) - (r : Int) := by push_cast at hk ⊢; omega
  rw [this]

/-- The contraction of a metric is the Euclidean contraction by the image under the outermorphism of the metric. -/
theorem lcont_real (hn : n ≤ 63) (h : GeometricAlgebra n M m) {s : Nat} {C : MV ℝ} (sC : C ∈ space ℝ n) (hC : Homogeneous s C)
    (r : Nat) : ∀ {A : MV ℝ}, A ∈ space ℝ n → Homogeneous r A →
      m .lcont A C = L (outerMap (by omega : n ≤ 64) M.mulVecLin A) C := by
  induction r with
  | zero =>
    intro A sA hA
    rw [homog_scalar hA, outerMap_scalar, (h.parts 0 s _ _ (scalar_space _) sC (homog_single _ ones_zero) hC).1,
      h.gp_scalar _ sC, gradePart_smul, Iso.gradePart_of_homog hC, if_pos (by push_cast; omega)]
    refine (lcont_scalar _ ?_ _ _).symm
    simp [diagFactor]
  | succ r ih =>
    intro A sA hA
    refine homog_outer (p := fun A => m .lcont A C = L (outerMap (by omega : n ≤ 64) M.mulVecLin A) C) ?_ ?_ ?_ sA hA
    · rw [h.zero_left _ sC, map_zero, prod_zero_left]
    · intro A B s1 s2 h1 h2
      rw [h.add_left _ _ _ _ s1 s2 sC, map_add, prod_add_left, h1, h2]
    · intro v A s1 h1
      rw [h.lcont_outer_vector hn v s1 h1 sC hC, h.lcont_vector_real hn v (h.prod_space _ s1 sC), ih s1 h1,
        outerMap_op _ _ (vectorOf_space v (by omega)) s1, outerMap_vector, lcont_op]
      rfl

end Spec.GeometricAlgebra

/-! ### Subspaces -/

/-- The metric as a map of vectors. -/
noncomputable def metricMap (M : Matrix (Fin n) (Fin n) ℝ) : 𝔼 →ₗ[ℝ] 𝔼 where
  toFun x := WithLp.toLp 2 (M.mulVec x)
  map_add' x y := by ext i; simp [Matrix.mulVec_add]
  map_smul' c x := by ext i; simp [Matrix.mulVec_smul]

theorem metricMap_inner (x y : 𝔼) : inner ℝ x (metricMap M y) = ∑ i, ∑ j, x i * M i j * y j := by
  rw [PiLp.inner_apply]
  refine Finset.sum_congr rfl fun i _ => ?_
  simp only [metricMap, LinearMap.coe_mk, AddHom.coe_mk, Matrix.mulVec, dotProduct, RCLike.inner_apply, conj_trivial,
    Finset.sum_mul]
  exact Finset.sum_congr rfl fun j _ => by ring

theorem orthogonalIn_eq (W : Submodule ℝ 𝔼) : orthogonalIn M W = (W.map (metricMap M))ᗮ := by
  ext x
  rw [Submodule.mem_orthogonal']
  constructor
  · rintro h _ ⟨y, hy, rfl⟩
    rw [metricMap_inner]; exact h y hy
  · intro h y hy
    rw [← metricMap_inner]; exact h _ ⟨y, hy, rfl⟩

theorem metric_symm (hM : M.IsSymm) (x y : 𝔼) : (inner ℝ x (metricMap M y) : ℝ) = inner ℝ (metricMap M x) y := by
  rw [real_inner_comm y, metricMap_inner, metricMap_inner, Finset.sum_comm]
  refine Finset.sum_congr rfl fun i _ => Finset.sum_congr rfl fun j _ => ?_
  rw [hM.apply]; ring

/-- The image of a vector of a regular subspace is not orthogonal to it. -/
theorem Spec.Regular.image (hM : M.IsSymm) {S : Submodule ℝ 𝔼} (h : Regular M S) {x : 𝔼} (hx : x ∈ S)
    (h0 : metricMap M x ∈ Sᗮ) : x = 0 := by
  have : x ∈ S ⊓ orthogonalIn M S := by
    refine ⟨hx, fun y hy => ?_⟩
    rw [← metricMap_inner, metric_symm hM]
    exact (Submodule.mem_orthogonal' _ _).mp h0 y hy
  rw [h] at this
  exact (Submodule.mem_bot ℝ).mp this

theorem vec_spans (hn : n ≤ 63) {x : 𝔼} (hx : x ≠ 0) : Spans (vec x) (Submodule.span ℝ {x}) := by
  have h1 : op (vec x) (scalar 1) = vec x := by rw [op_scalar_right, one_smul]
  have := (scalar_spans (n := n) one_ne_zero).cons hn (x := x) (by simpa using hx)
  rw [h1, sup_bot_eq] at this
  exact this

theorem outerMap_outer (hn : n ≤ 63) (xs : List 𝔼) :
    outerMap (by omega : n ≤ 64) M.mulVecLin (outerProd (xs.map vec)) = outerProd ((xs.map (metricMap M)).map vec) ∧
      outerProd (xs.map vec) ∈ space ℝ n := by
  induction xs with
  | nil => exact ⟨outerMap_scalar _ _ 1, scalar_space 1⟩
  | cons x xs ih =>
    have e : outerProd ((x :: xs).map vec) = op (vec x) (outerProd (xs.map vec)) := rfl
    have sx : vec x ∈ space ℝ n := vectorOf_space _ (by omega)
    rw [e]
    refine ⟨?_, op_space (by omega) sx ih.2⟩
    rw [outerMap_op _ _ sx ih.2, ih.1]
    unfold vec
    rw [outerMap_vector]
    rfl

/-- The outermorphism of the metric maps blades to blades. -/
theorem Spec.Spans.metric (hn : n ≤ 63) {A : MV ℝ} {U : Submodule ℝ 𝔼} (hA : Spans A U)
    (hi : ∀ x ∈ U, metricMap M x = 0 → x = 0) :
    Spans (outerMap (by omega : n ≤ 64) M.mulVecLin A) (U.map (metricMap M)) := by
  obtain ⟨a, xs, ha, rfl, rfl, h3⟩ := hA.outer
  rw [map_smul, (outerMap_outer hn xs).1]
  refine Spec.Spans.smul ?_ ha
  clear hA ha
  induction xs with
  | nil =>
    have e : outerProd ((([] : List 𝔼).map (metricMap M)).map vec) = scalar 1 := rfl
    rw [e]
    simpa using scalar_spans (n := n) one_ne_zero
  | cons x xs ih =>
    have e : outerProd ((x :: xs).map vec) = GATL.op (vec x) (outerProd (xs.map vec)) := rfl
    have h1 : outerProd (xs.map vec) ≠ 0 := by
      intro h0; rw [e, h0, op_zero_right] at h3; exact h3 rfl
    have hle : Submodule.span ℝ {y | y ∈ xs} ≤ Submodule.span ℝ {y | y ∈ x :: xs} :=
      Submodule.span_mono fun y hy => List.mem_cons_of_mem _ hy
    have hx : x ∉ Submodule.span ℝ {y | y ∈ xs} := by
      intro h0
      have := (spans_outer one_ne_zero h1).inside hn h0
      rw [one_smul] at this
      exact h3 (e.trans this)
    have h2 := ih (fun y hy => hi y (hle hy)) h1
    have h4 : metricMap M x ∉ (Submodule.span ℝ {y | y ∈ xs}).map (metricMap M) := by
      rintro ⟨y, hy, hxy⟩
      have h5 := hi (x - y) (Submodule.sub_mem _ (Submodule.subset_span (List.mem_cons_self ..)) (hle hy))
        (by rw [map_sub, hxy, sub_self])
      rw [sub_eq_zero.mp h5] at hx
      exact hx hy
    have := h2.cons hn h4
    rw [span_cons_list, Submodule.map_sup, Submodule.map_span, Set.image_singleton]
    exact this

theorem finrank_orthogonalIn (hM : M.IsSymm) {S W : Submodule ℝ 𝔼} (hS : Regular M S) (hW : W ≤ S) :
    Module.finrank ℝ (S ⊓ orthogonalIn M W : Submodule ℝ 𝔼) + Module.finrank ℝ W = Module.finrank ℝ S := by
  have hi : Function.Injective ((metricMap M).domRestrict W) := by
    rw [← LinearMap.ker_eq_bot, LinearMap.ker_eq_bot']
    rintro ⟨x, hx⟩ h0
    have : metricMap M x = 0 := h0
    exact Subtype.ext (hS.image hM (hW hx) (by rw [this]; exact Submodule.zero_mem _))
  have e1 : Module.finrank ℝ (W.map (metricMap M)) = Module.finrank ℝ W := by
    rw [← LinearMap.finrank_range_of_inj hi, LinearMap.range_domRestrict]
  have e2 : Sᗮ ⊓ W.map (metricMap M) = ⊥ := by
    rw [eq_bot_iff]
    rintro _ ⟨h1, x, hx, rfl⟩
    rw [hS.image hM (hW hx) h1, map_zero]
    exact Submodule.zero_mem _
  have e3 : S ⊓ orthogonalIn M W = (Sᗮ ⊔ W.map (metricMap M))ᗮ := by
    rw [← Submodule.inf_orthogonal, Submodule.orthogonal_orthogonal, orthogonalIn_eq]
  have e4 := Submodule.finrank_sup_add_finrank_inf_eq Sᗮ (W.map (metricMap M))
  rw [e2, finrank_bot, add_zero, e1] at e4
  have e5 := Submodule.finrank_add_finrank_orthogonal (Sᗮ ⊔ W.map (metricMap M))
  have e6 := Submodule.finrank_add_finrank_orthogonal S
  rw [e3]
  omega

theorem lcont_spans (hn : n ≤ 63) (h : GeometricAlgebra n M m) (hM : M.IsSymm) {C J : MV ℝ} {S W : Submodule ℝ 𝔼}
    (hS : Regular M S) (hC : Spans C W) (hJ : Spans J S) (hW : W ≤ S) :
    Spans (m .lcont C J) (S ⊓ orthogonalIn M W) := by
  rw [h.lcont_real hn (hJ.space hn) (hJ.homog hn) _ (hC.space hn) (hC.homog hn), orthogonalIn_eq]
  refine (hC.metric hn fun x hx h0 => hS.image hM (hW hx) (by rw [h0]; exact Submodule.zero_mem _)).lcont hn hJ ?_
  rw [eq_bot_iff]
  rintro _ ⟨⟨x, hx, rfl⟩, h1⟩
  rw [hS.image hM (hW hx) h1, map_zero]
  exact Submodule.zero_mem _

theorem inv_value (J : MV ℝ) : inv m J = if rnormSqr m J = 0 then none else some ((rnormSqr m J)⁻¹ • reverse J) := by
  unfold inv invScalar
  split_ifs
  · rfl
  · rw [Option.map_some, real_eq]
    congr 1
    exact gp_scalar_right _ _ _

/-- The squared norm of a blade is the contraction by itself. -/
theorem rnormSqr_blade (hn : n ≤ 63) (h : GeometricAlgebra n M m) {J : MV ℝ} {S : Submodule ℝ 𝔼} (hJ : Spans J S) :
    ∃ ε : ℝ, ε ≠ 0 ∧ reverse J = ε • J ∧ rnormSqr m J = m .lcont J (ε • J) 0 := by
  have h1 := reverse_homog (hJ.homog hn)
  refine ⟨_, sign_ne _, h1, ?_⟩
  have hs := hJ.smul (sign_ne (K := ℝ) (Module.finrank ℝ S * (Module.finrank ℝ S - 1) / 2))
  have := h.parts _ _ _ _ (hJ.space hn) (hs.space hn) (hJ.homog hn) (hs.homog hn)
  unfold rnormSqr
  rw [h1, this.2.2.2.2, this.1, sub_self]

/-- A blade is invertible if and only if its subspace is regular. -/
theorem invertible_iff (hn : n ≤ 63) (h : GeometricAlgebra n M m) (hM : M.IsSymm) {J : MV ℝ} {S : Submodule ℝ 𝔼}
    (hJ : Spans J S) : rnormSqr m J ≠ 0 ↔ Regular M S := by
  obtain ⟨ε, e0, e1, e2⟩ := rnormSqr_blade hn h hJ
  rw [e2]
  constructor
  · intro h0
    unfold Regular
    by_contra hc
    obtain ⟨x, ⟨hx, hxS⟩, hx0⟩ := Submodule.exists_mem_ne_zero_of_ne_bot hc
    apply h0
    have hp : metricMap M x ∈ Sᗮ := by
      rw [Submodule.mem_orthogonal']
      intro y hy
      rw [← metric_symm hM, metricMap_inner]
      exact hxS y hy
    obtain ⟨K, hK⟩ := exists_spans hn (S ⊓ (Submodule.span ℝ {x})ᗮ)
    have hle : Submodule.span ℝ {x} ≤ S := by rwa [Submodule.span_singleton_le_iff_mem]
    have hj := hK.op hn (vec_spans hn hx0) (by
      rw [eq_bot_iff, inf_assoc, inf_comm _ (Submodule.span ℝ {x}), Submodule.inf_orthogonal_eq_bot]
      exact inf_le_right)
    rw [split_perp hle] at hj
    obtain ⟨c, -, hc⟩ := hJ.unique hn hj
    have hs := hJ.smul e0
    have sx : vec x ∈ space ℝ n := vectorOf_space _ (by omega)
    have e4 : outerMap (by omega : n ≤ 64) M.mulVecLin J =
        c • op (outerMap (by omega : n ≤ 64) M.mulVecLin K) (outerMap (by omega : n ≤ 64) M.mulVecLin (vec x)) := by
      rw [hc, map_smul, outerMap_op _ _ (hK.space hn) sx]
    rw [h.lcont_real hn (hs.space hn) (hs.homog hn) _ (hJ.space hn) (hJ.homog hn), e4]
    have e3 : outerMap (by omega : n ≤ 64) M.mulVecLin (vec x) = vec (metricMap M x) := by
      unfold vec; rw [outerMap_vector]; rfl
    rw [e3, prod_smul_left, lcont_op, hs.perp hn hp, prod_zero_right, smul_zero]
    rfl
  · intro hr h0
    have hs := lcont_spans hn h hM hr hJ (hJ.smul e0) le_rfl
    rw [hr] at hs
    have h1 := hs.homog hn
    rw [finrank_bot] at h1
    apply hs.ne
    rw [homog_scalar h1, h0]
    unfold scalar
    exact Finsupp.single_zero _

/-- The dual of a blade inside an invertible blade. -/
theorem dual_spans (hn : n ≤ 63) (h : GeometricAlgebra n M m) (hM : M.IsSymm) {C J : MV ℝ} {S W : Submodule ℝ 𝔼}
    (hS : Regular M S) (hC : Spans C W) (hJ : Spans J S) (hW : W ≤ S) :
    ∃ D, dual m J C = some D ∧ Spans D (S ⊓ orthogonalIn M W) := by
  obtain ⟨ε, e0, e1, -⟩ := rnormSqr_blade hn h hJ
  have h0 := (invertible_iff hn h hM hJ).mpr hS
  unfold dual
  rw [inv_value, if_neg h0, Option.map_some, e1]
  exact ⟨_, rfl, lcont_spans hn h hM hS hC ((hJ.smul e0).smul (inv_ne_zero h0)) hW⟩

theorem plunge_space (hM : M.IsSymm) {U V : Submodule ℝ 𝔼} (hS : Regular M (U ⊔ V)) :
    (U ⊔ V) ⊓ orthogonalIn M V ⊓ ((U ⊔ V) ⊓ orthogonalIn M U) = ⊥ ∧
      (U ⊔ V) ⊓ orthogonalIn M V ⊔ (U ⊔ V) ⊓ orthogonalIn M U = (U ⊔ V) ⊓ orthogonalIn M (U ⊓ V) := by
  have mono : ∀ {W W' : Submodule ℝ 𝔼}, W ≤ W' → orthogonalIn M W' ≤ orthogonalIn M W := fun h x hx y hy => hx y (h hy)
  have h1 : (U ⊔ V) ⊓ orthogonalIn M V ⊓ ((U ⊔ V) ⊓ orthogonalIn M U) = ⊥ := by
    rw [eq_bot_iff, ← hS]
    intro x hx
    refine ⟨hx.1.1, ?_⟩
    rw [orthogonalIn_eq, Submodule.map_sup, ← Submodule.inf_orthogonal, ← orthogonalIn_eq, ← orthogonalIn_eq]
    exact ⟨hx.2.2, hx.1.2⟩
  refine ⟨h1, Submodule.eq_of_le_of_finrank_eq ?_ ?_⟩
  · exact sup_le (inf_le_inf_left _ (mono inf_le_right)) (inf_le_inf_left _ (mono inf_le_left))
  · have e1 := finrank_orthogonalIn hM hS (le_sup_left : U ≤ U ⊔ V)
    have e2 := finrank_orthogonalIn hM hS (le_sup_right : V ≤ U ⊔ V)
    have e3 := finrank_orthogonalIn hM hS (inf_le_left.trans le_sup_left : U ⊓ V ≤ U ⊔ V)
    have e4 := Submodule.finrank_sup_add_finrank_inf_eq ((U ⊔ V) ⊓ orthogonalIn M V) ((U ⊔ V) ⊓ orthogonalIn M U)
    have e5 := Submodule.finrank_sup_add_finrank_inf_eq U V
    rw [h1, finrank_bot] at e4
    omega

theorem plunge_spans (hn : n ≤ 63) (h : GeometricAlgebra n M m) (hM : M.IsSymm) {A B J : MV ℝ} {U V : Submodule ℝ 𝔼}
    (hS : Regular M (U ⊔ V)) (hA : Spans A U) (hB : Spans B V) (hJ : Spans J (U ⊔ V)) :
    ∃ a b, dual m J A = some a ∧ dual m J B = some b ∧ Spans (op b a) ((U ⊔ V) ⊓ orthogonalIn M (U ⊓ V)) := by
  obtain ⟨a, a1, a2⟩ := dual_spans hn h hM hS hA hJ le_sup_left
  obtain ⟨b, b1, b2⟩ := dual_spans hn h hM hS hB hJ le_sup_right
  refine ⟨a, b, a1, b1, ?_⟩
  have := b2.op hn a2 (plunge_space hM hS).1
  rwa [(plunge_space hM hS).2] at this

/-! ### The signed metrics -/

theorem geometricAlgebra_signed {P Q R : Nat} (hn : P + Q + R ≤ 63) :
    GeometricAlgebra (P + Q + R)
      (Matrix.diagonal fun i : Fin (P + Q + R) => ((signature P Q R ⟨i, by omega⟩ : Int) : ℝ)) (signedProd P Q R) := by
  set q : Fin 64 → ℝ := fun i => ((signature P Q R i : Int) : ℝ) with hq
  have hs : (signedProd P Q R : Metric ℝ) = orthProd (diagFactor q) := by
    funext g A B
    unfold signedProd
    rw [signedFactor_cast P Q R hn]
  have key : ∀ v w : Fin (P + Q + R) → ℝ, vdot q (vectorOf v) (vectorOf w) =
      ∑ i, ∑ j, w i * Matrix.diagonal (fun i : Fin (P + Q + R) => q ⟨i, by omega⟩) i j * v j := by
    intro v w
    have hv := vectorOf_homog v (by omega : P + Q + R ≤ 64)
    have hw := vectorOf_homog w (by omega : P + Q + R ≤ 64)
    have h2 : orthProd (diagFactor q) .lcont (vectorOf v) (vectorOf w) = orthProd (diagFactor q) .sp (vectorOf v) (vectorOf w) := by
      rw [lcont_same _ hv hw, Iso.sp_scalar]
    unfold vdot
    rw [h2, sp_vectors q (by omega) v w, scalar_zero_apply]
    refine Finset.sum_congr rfl fun i _ => ?_
    rw [Finset.sum_eq_single i (fun j _ hj => by rw [Matrix.diagonal_apply_ne' _ hj]; ring) (by simp), Matrix.diagonal_apply_eq]
    ring
  refine ⟨?_, ?_, ?_, ?_, ?_, ?_, ?_⟩
  · intro g A B C _ _ _; rw [hs, prod_add_left]
  · intro g A B C _ _ _; rw [hs, prod_add_right]
  · obtain ⟨Φ, h1, h2, h3⟩ := Props.C05_gp_clifford_algebra (K := ℝ) P Q R hn
    have e : QuadraticMap.weightedSumSquares ℝ (fun i : Fin (P + Q + R) => q ⟨i, by omega⟩) =
        (Matrix.diagonal fun i : Fin (P + Q + R) => q ⟨i, by omega⟩).toQuadraticForm' := by
      ext v
      unfold Matrix.toQuadraticForm'
      rw [LinearMap.BilinMap.toQuadraticMap_apply, Matrix.toLinearMap₂'_apply, QuadraticMap.weightedSumSquares_apply]
      refine Finset.sum_congr rfl fun i _ => ?_
      rw [Finset.sum_eq_single i (fun j _ hj => by rw [Matrix.diagonal_apply_ne' _ hj]; simp) (by simp),
        Matrix.diagonal_apply_eq]
      simp only [smul_eq_mul]
      ring
    exact e ▸ ⟨Φ, h1, h3, h2⟩
  · intro v B _
    rw [Props.C10_vector_split _ _ _ hn (vectorOf_homog v (by omega)), add_comm]
  · intro v a
    have h0 : Homogeneous 0 (scalar a : MV ℝ) := homog_single a ones_zero
    rw [(Props.C09_grade_parts P Q R hn (vectorOf_homog v (by omega)) h0).1]
    ext b
    unfold gradePart
    rw [Finsupp.filter_apply, if_neg fun hc => ?_]
    · rfl
    · have := Int.natCast_nonneg (gradeOf b)
      omega
  · intro v w B _
    rw [hs, lcont_wedge q (vectorOf_homog v (by omega)) (vectorOf_homog w (by omega)), key]
  · intro r s A B _ _ hA hB
    obtain ⟨p1, p2, p3, p4, p5, -⟩ := Props.C09_grade_parts P Q R hn hA hB
    exact ⟨p1, p2, p3, p4, p5⟩

end GATL
