import Mathlib.LinearAlgebra.QuadraticForm.Basic
import Verif.Proofs.Plunge

/-!
# The geometric product of blades in any metric
-/

namespace GATL

open Spec

variable {n : Nat} {M : Matrix (Fin n) (Fin n) ℝ} {m : Metric ℝ}

local notation "q1" => (fun _ => (1 : ℝ) : Fin 64 → ℝ)
local notation "L" => orthProd (diagFactor q1) GradedProduct.lcont
local notation "𝔼" => EuclideanSpace ℝ (Fin n)

/-- The geometric product of multivectors of grades `r` and `s`: the part of grade `r + s` is the outer product, there is
none of a greater grade. -/
theorem Spec.GeometricAlgebra.gp_high (hn : n ≤ 63) (h : GeometricAlgebra n M m) {s : Nat} {C : MV ℝ} (sC : C ∈ space ℝ n)
    (hC : Homogeneous s C) (r : Nat) : ∀ {A : MV ℝ}, A ∈ space ℝ n → Homogeneous r A → ∀ k : Int, (r : Int) + s ≤ k →
      gradePart k (m .gp A C) = if k = r + s then GATL.op A C else 0 := by
  induction r using Nat.strong_induction_on with
  | _ r ih =>
    intro A sA hA k hk
    match r, ih, hA, hk with
    | 0, _, hA, hk =>
      rw [homog_scalar hA, h.gp_scalar _ sC, gradePart_smul, Iso.gradePart_of_homog hC, op_scalar_left]
      by_cases e : (s : Int) = k
      · rw [if_pos e, if_pos (by push_cast; omega)]
      · rw [if_neg e, if_neg (by push_cast; omega), smul_zero]
    | r + 1, ih, hA, hk =>
      refine Spec.GeometricAlgebra.homog_outer (p := fun A => gradePart k (m .gp A C) = if k = ((r + 1 : Nat) : Int) + s then GATL.op A C else 0)
        ?_ ?_ ?_ sA hA
      · rw [h.zero_left _ sC, gradePart_zero, op_zero_left, ite_self]
      · intro A B s1 s2 h1 h2
        rw [h.add_left _ _ _ _ s1 s2 sC, gradePart_add, h1, h2, op_add_left]
        split_ifs
        · rfl
        · exact add_zero _
      · intro v A s1 h1
        have sv := vectorOf_space v (by omega : n ≤ 64)
        have e : gradePart k (m .gp (GATL.op (vectorOf v) A) C) + gradePart k (m .gp (m .lcont (vectorOf v) A) C) =
            gradePart k (m .gp (vectorOf v) (m .gp A C)) := by
          rw [← gradePart_add, ← h.add_left _ _ _ _ (op_space (by omega) sv s1) (h.prod_space _ sv s1) sC, ← h.vector v A s1,
            h.assoc sv s1 sC]
        have e1 : gradePart k (m .gp (m .lcont (vectorOf v) A) C) = 0 := by
          cases r with
          | zero => rw [homog_scalar h1, h.contract_scalar, h.zero_left _ sC, gradePart_zero]
          | succ r =>
            rw [ih r (by omega) (h.prod_space _ sv s1) (h.lcont_homog hn v s1 h1) k (by push_cast at hk ⊢; omega),
              if_neg (by push_cast at hk ⊢; omega)]
        rw [e1, add_zero, h.gradePart_vector hn v k (h.gp_space s1 sC),
          ih r (by omega) s1 h1 (k - 1) (by push_cast at hk ⊢; omega), ih r (by omega) s1 h1 (k + 1) (by push_cast at hk ⊢; omega),
          if_neg (by push_cast at hk ⊢; omega : ¬ k + 1 = (r : Int) + s), h.zero_right _ sv, add_zero] at e
        rw [e]
        by_cases e2 : k = ((r + 1 : Nat) : Int) + s
        · rw [if_pos e2, if_pos (by push_cast at e2; omega), op_assoc']
        · rw [if_neg e2, if_neg (by push_cast at e2; omega), op_zero_right]

/-! ### Orthogonal factors -/

theorem lcont_vec_metric (hn : n ≤ 63) (h : GeometricAlgebra n M m) (x : 𝔼) {B : MV ℝ} (hB : B ∈ space ℝ n) :
    m .lcont (vec x) B = L (vec (metricMap M x)) B := h.lcont_vector_real hn x hB

theorem vec_space (hn : n ≤ 63) (x : 𝔼) : vec x ∈ space ℝ n := vectorOf_space _ (by omega)

theorem outer_of_finrank (hn : n ≤ 63) : ∀ {xs : List 𝔼}, Module.finrank ℝ (Submodule.span ℝ {x | x ∈ xs}) = xs.length →
    outerProd (xs.map vec) ≠ 0
  | [], _ => (scalar_spans (n := n) one_ne_zero).ne
  | x :: xs, h => by
    have e : outerProd ((x :: xs).map vec) = op (vec x) (outerProd (xs.map vec)) := rfl
    have hle : Module.finrank ℝ (Submodule.span ℝ {x | x ∈ xs}) ≤ xs.length := by
      classical
      have e1 : {x | x ∈ xs} = (xs.toFinset : Set 𝔼) := by ext; simp
      rw [e1]
      exact (finrank_span_finset_le_card xs.toFinset).trans xs.toFinset_card_le
    rw [span_cons_list, List.length_cons] at h
    have h1 := Submodule.finrank_add_le_finrank_add_finrank (Submodule.span ℝ {x}) (Submodule.span ℝ {y | y ∈ xs})
    have h2 : Module.finrank ℝ (Submodule.span ℝ {x}) ≤ 1 := by
      have := finrank_span_finset_le_card (R := ℝ) ({x} : Finset 𝔼)
      rwa [Finset.coe_singleton, Finset.card_singleton] at this
    have h3 := outer_of_finrank hn (xs := xs) (by omega)
    have h4 := spans_outer (c := 1) one_ne_zero h3
    rw [one_smul] at h4
    rw [e]
    refine (h4.cons hn fun hx => ?_).ne
    rw [sup_eq_right.mpr (by rwa [Submodule.span_singleton_le_iff_mem])] at h
    omega

/-- Every subspace has a basis of vectors that are orthogonal in the metric. -/
theorem exists_orthogonal_metric (hn : n ≤ 63) (hM : M.IsSymm) (U : Submodule ℝ 𝔼) : ∃ xs : List 𝔼,
    xs.Pairwise (fun x y => inner ℝ x (metricMap M y) = 0) ∧ Submodule.span ℝ {x | x ∈ xs} = U ∧
      outerProd (xs.map vec) ≠ 0 := by
  let F : LinearMap.BilinForm ℝ U := (innerₗ 𝔼).compl₁₂ U.subtype (metricMap M ∘ₗ U.subtype)
  have hF : ∀ x y, F x y = inner ℝ (x : 𝔼) (metricMap M y) := fun x y => rfl
  have hs : LinearMap.IsSymm F := ⟨fun x y => by
    rw [hF, hF, RingHom.id_apply, metric_symm hM, real_inner_comm]⟩
  obtain ⟨b, hb⟩ := LinearMap.BilinForm.exists_orthogonal_basis (B := F) hs
  have hsp : Submodule.span ℝ {x | x ∈ List.ofFn fun i => (b i : 𝔼)} = U := by
    have h1 : {x | x ∈ List.ofFn fun i => (b i : 𝔼)} = U.subtype '' Set.range b := by
      ext x
      simp [List.mem_ofFn]
    rw [h1, ← Submodule.map_span, b.span_eq, Submodule.map_top, Submodule.range_subtype]
  refine ⟨List.ofFn fun i => (b i : 𝔼), ?_, hsp, ?_⟩
  · rw [List.pairwise_ofFn]
    intro i j hij
    exact hb hij.ne
  · refine outer_of_finrank hn ?_
    rw [hsp, List.length_ofFn]

/-- The product of orthogonal vectors and a multivector orthogonal to them. -/
theorem gp_orthogonal_metric (hn : n ≤ 63) (h : GeometricAlgebra n M m) (hM : M.IsSymm) {Y : MV ℝ} (sY : Y ∈ space ℝ n) :
    ∀ {xs : List 𝔼}, xs.Pairwise (fun x y => inner ℝ x (metricMap M y) = 0) → outerProd (xs.map vec) ≠ 0 →
      (∀ x ∈ xs, L (vec (metricMap M x)) Y = 0) → m .gp (outerProd (xs.map vec)) Y = op (outerProd (xs.map vec)) Y
  | [], _, _, _ => by
    have e : outerProd (([] : List 𝔼).map vec) = scalar 1 := rfl
    rw [e, h.gp_scalar _ sY, op_scalar_left]
  | x :: xs, hp, hne, hY => by
    have e : outerProd ((x :: xs).map vec) = op (vec x) (outerProd (xs.map vec)) := rfl
    have h1 : outerProd (xs.map vec) ≠ 0 := by
      intro h0; rw [e, h0, op_zero_right] at hne; exact hne rfl
    have hX := spans_outer (c := 1) one_ne_zero h1
    rw [one_smul] at hX
    rw [List.pairwise_cons] at hp
    have ih := gp_orthogonal_metric hn h hM sY hp.2 h1 fun y hy => hY y (by simp [hy])
    have h4 : L (vec (metricMap M x)) (outerProd (xs.map vec)) = 0 := by
      refine hX.perp hn ?_
      rw [Submodule.mem_orthogonal']
      intro y hy
      induction hy using Submodule.span_induction with
      | mem y hy => rw [← metric_symm hM]; exact hp.1 y hy
      | zero => exact inner_zero_right _
      | add y z _ _ hy hz => rw [inner_add_right, hy, hz, add_zero]
      | smul a y _ hy => rw [inner_smul_right, hy, mul_zero]
    have sx := vec_space hn x
    have sX := hX.space hn
    have h5 : op (vec x) (outerProd (xs.map vec)) = m .gp (vec x) (outerProd (xs.map vec)) := by
      rw [show m .gp (vec x) (outerProd (xs.map vec)) = _ from h.vector x _ sX]
      have := lcont_vec_metric hn h x sX
      unfold vec at this h4 ⊢
      rw [this, h4, add_zero]
    have h6 : m .gp (vec x) (op (outerProd (xs.map vec)) Y) = op (vec x) (op (outerProd (xs.map vec)) Y) := by
      have so := op_space (by omega : n ≤ 64) sX sY
      have := lcont_vec_metric hn h x so
      rw [lcont_op_involute q1 (vec_homog hn _), h4, hY x (by simp), op_zero_left, op_zero_right, add_zero] at this
      have h7 := h.vector x _ so
      unfold vec at this h7 ⊢
      rw [h7, this, add_zero]
    rw [e, op_assoc', ← h6, ← ih, ← h.assoc sx sX sY, ← h5]

/-- The product of orthogonal vectors and a multivector they are inside of. -/
theorem gp_inside_metric (hn : n ≤ 63) (h : GeometricAlgebra n M m) (hM : M.IsSymm) {s : Nat} {C : MV ℝ} (sC : C ∈ space ℝ n)
    (hC : Homogeneous s C) :
    ∀ {xs : List 𝔼}, xs.Pairwise (fun x y => inner ℝ x (metricMap M y) = 0) → outerProd (xs.map vec) ≠ 0 →
      (∀ x ∈ xs, op (vec x) C = 0) → m .gp (outerProd (xs.map vec)) C = m .lcont (outerProd (xs.map vec)) C ∧
        ∀ x, (∀ y ∈ xs, inner ℝ x (metricMap M y) = 0) → op (vec x) C = 0 → op (vec x) (m .lcont (outerProd (xs.map vec)) C) = 0
  | [], _, _, _ => by
    have e : outerProd (([] : List 𝔼).map vec) = scalar 1 := rfl
    have h1 : m .lcont (scalar 1) C = C := by
      rw [(h.parts 0 s _ _ (scalar_space _) sC (homog_single _ ones_zero) hC).1, h.gp_scalar _ sC, one_smul,
        Iso.gradePart_of_homog hC, if_pos (by push_cast; omega)]
    rw [e, h1, h.gp_scalar _ sC, one_smul]
    exact ⟨rfl, fun x _ hx => hx⟩
  | y :: ys, hp, hne, hy => by
    have e : outerProd ((y :: ys).map vec) = op (vec y) (outerProd (ys.map vec)) := rfl
    have h1 : outerProd (ys.map vec) ≠ 0 := by
      intro h0; rw [e, h0, op_zero_right] at hne; exact hne rfl
    have hX := spans_outer (c := 1) one_ne_zero h1
    rw [one_smul] at hX
    rw [List.pairwise_cons] at hp
    obtain ⟨ih1, ih2⟩ := gp_inside_metric hn h hM sC hC hp.2 h1 fun z hz => hy z (by simp [hz])
    have sX := hX.space hn
    have sy := vec_space hn y
    have sL := h.prod_space .lcont sX sC
    have e1 : m .lcont (op (vec y) (outerProd (ys.map vec))) C = m .lcont (vec y) (m .lcont (outerProd (ys.map vec)) C) :=
      h.lcont_outer_vector hn y sX (hX.homog hn) sC hC
    have h4 : L (vec (metricMap M y)) (outerProd (ys.map vec)) = 0 := by
      refine hX.perp hn ?_
      rw [Submodule.mem_orthogonal']
      intro z hz
      induction hz using Submodule.span_induction with
      | mem z hz => rw [← metric_symm hM]; exact hp.1 z hz
      | zero => exact inner_zero_right _
      | add z w _ _ hz hw => rw [inner_add_right, hz, hw, add_zero]
      | smul a z _ hz => rw [inner_smul_right, hz, mul_zero]
    have h5 : op (vec y) (outerProd (ys.map vec)) = m .gp (vec y) (outerProd (ys.map vec)) := by
      have h6 := h.vector y _ sX
      have := lcont_vec_metric hn h y sX
      unfold vec at this h4 h6 ⊢
      rw [h6, this, h4, add_zero]
    rw [e]
    refine ⟨?_, ?_⟩
    · rw [h5, h.assoc sy sX sC, ih1, ← h5, e1]
      have h7 := h.vector y _ sL
      have h8 := ih2 y hp.1 (hy y (by simp))
      unfold vec at h7 h8 ⊢
      rw [h7, h8, zero_add]
    · intro x hx hxC
      have h7 := ih2 x (fun z hz => hx z (by simp [hz])) hxC
      have h8 := lcont_wedge q1 (vec_homog hn (metricMap M y)) (vec_homog hn x) (m .lcont (outerProd (ys.map vec)) C)
      rw [h7, prod_zero_right, vdot_vec hn, real_inner_comm, hx y (by simp), zero_smul, zero_sub, eq_comm, neg_eq_zero] at h8
      rw [e1, lcont_vec_metric hn h y sL, h8]

theorem gp_perp_metric (hn : n ≤ 63) (h : GeometricAlgebra n M m) (hM : M.IsSymm) {A B : MV ℝ} {U V : Submodule ℝ 𝔼}
    (hA : Spans A U) (hB : Spans B V) (hp : U ≤ orthogonalIn M V) : m .gp A B = op A B := by
  obtain ⟨xs, ho, h1, h2⟩ := exists_orthogonal_metric hn hM U
  have h3 := spans_outer (c := 1) one_ne_zero h2
  rw [h1, one_smul] at h3
  obtain ⟨c, -, rfl⟩ := hA.unique hn h3
  have sX := h3.space hn
  have e : m .gp (c • outerProd (xs.map vec)) B = c • m .gp (outerProd (xs.map vec)) B := by
    have h4 : c • outerProd (xs.map vec) = m .gp (scalar c) (outerProd (xs.map vec)) := (h.gp_scalar c sX).symm
    rw [h4, h.assoc (scalar_space c) sX (hB.space hn), h.gp_scalar c (h.gp_space sX (hB.space hn))]
  rw [e, op_smul_left, gp_orthogonal_metric hn h hM (hB.space hn) ho h2]
  intro x hx
  refine hB.perp hn ?_
  rw [Submodule.mem_orthogonal']
  intro y hy
  rw [← metric_symm hM, metricMap_inner]
  exact hp (h1 ▸ Submodule.subset_span hx) y hy

/-- The square of a blade. -/
theorem square_metric (hn : n ≤ 63) (h : GeometricAlgebra n M m) (hM : M.IsSymm) {C : MV ℝ} {W : Submodule ℝ 𝔼}
    (hC : Spans C W) (hW : Regular M W) : ∃ κ : ℝ, κ ≠ 0 ∧ m .gp C C = scalar κ := by
  obtain ⟨xs, ho, h1, h2⟩ := exists_orthogonal_metric hn hM W
  have h3 := spans_outer (c := 1) one_ne_zero h2
  rw [h1, one_smul] at h3
  obtain ⟨c, hc, hcX⟩ := hC.unique hn h3
  have sX := h3.space hn
  have e := (gp_inside_metric hn h hM (hC.space hn) (hC.homog hn) ho h2 fun x hx =>
    hC.inside hn (h1 ▸ Submodule.subset_span hx)).1
  have hs := lcont_spans hn h hM hW h3 hC le_rfl
  rw [hW] at hs
  have h4 := hs.homog hn
  rw [finrank_bot] at h4
  have h5 := homog_scalar h4
  have h6 : m .gp C C = c • m .gp (outerProd (xs.map vec)) C := by
    have h7 : m .gp (c • outerProd (xs.map vec)) C = c • m .gp (outerProd (xs.map vec)) C := by
      have h4 : c • outerProd (xs.map vec) = m .gp (scalar c) (outerProd (xs.map vec)) := (h.gp_scalar c sX).symm
      rw [h4, h.assoc (scalar_space c) sX (hC.space hn), h.gp_scalar c (h.gp_space sX (hC.space hn))]
    rw [← h7, ← hcX]
  refine ⟨c * m .lcont (outerProd (xs.map vec)) C 0, mul_ne_zero hc fun h0 => hs.ne ?_, ?_⟩
  · rw [h5, h0]; unfold scalar; exact Finsupp.single_zero _
  · rw [h6, e]
    conv_lhs => rw [h5]
    unfold scalar
    rw [Finsupp.smul_single, smul_eq_mul]

/-- A subspace is the sum of a regular part and what is orthogonal to it. -/
theorem split_metric (hM : M.IsSymm) {U W : Submodule ℝ 𝔼} (h : W ≤ U) (hW : Regular M W) :
    U ⊓ orthogonalIn M W ⊓ W = ⊥ ∧ U ⊓ orthogonalIn M W ⊔ W = U := by
  have h1 : U ⊓ orthogonalIn M W ⊓ W = ⊥ := by
    rw [eq_bot_iff, ← hW]
    exact fun x hx => ⟨hx.2, hx.1.2⟩
  refine ⟨h1, Submodule.eq_of_le_of_finrank_le (sup_le inf_le_left h) ?_⟩
  have e1 := Submodule.finrank_sup_add_finrank_inf_eq (U ⊓ orthogonalIn M W) W
  rw [h1, finrank_bot, add_zero] at e1
  have e2 := Submodule.finrank_sup_add_finrank_inf_eq U (orthogonalIn M W)
  have e3 : Module.finrank ℝ (W.map (metricMap M)) ≤ Module.finrank ℝ W := Submodule.finrank_map_le _ _
  have e4 := Submodule.finrank_add_finrank_orthogonal (W.map (metricMap M))
  rw [← orthogonalIn_eq] at e4
  have e5 := Submodule.finrank_le (U ⊔ orthogonalIn M W)
  omega

theorem orthogonalIn_symm (hM : M.IsSymm) {U V : Submodule ℝ 𝔼} (h : U ≤ orthogonalIn M V) : V ≤ orthogonalIn M U := by
  intro x hx y hy
  rw [← metricMap_inner, metric_symm hM, real_inner_comm, metricMap_inner]
  exact h hy x hx

/-- The geometric product of blades: its part of the largest grade spans the sum of the two subspaces less what they
have in common. -/
theorem delta_metric (hn : n ≤ 63) (h : GeometricAlgebra n M m) (hM : M.IsSymm) {A B : MV ℝ} {U V : Submodule ℝ 𝔼}
    (hA : Spans A U) (hB : Spans B V) (hR : Regular M (U ⊓ V)) :
    ∃ g : ℕ, g + 2 * Module.finrank ℝ (U ⊓ V : Submodule ℝ 𝔼) = Module.finrank ℝ U + Module.finrank ℝ V ∧
      (∀ b, m .gp A B b ≠ 0 → gradeOf b ≤ g) ∧ Spans (gradePart (g : ℤ) (m .gp A B)) ((U ⊔ V) ⊓ orthogonalIn M (U ⊓ V)) := by
  have hWU : U ⊓ V ≤ U := inf_le_left
  have hWV : U ⊓ V ≤ V := inf_le_right
  generalize hW : U ⊓ V = W at *
  set X := orthogonalIn M W with hX
  obtain ⟨A', hA'⟩ := exists_spans hn (U ⊓ X)
  obtain ⟨B', hB'⟩ := exists_spans hn (V ⊓ X)
  obtain ⟨C, hC⟩ := exists_spans hn W
  obtain ⟨e1, s1⟩ := split_metric hM hWU hR
  obtain ⟨e2, s2⟩ := split_metric hM hWV hR
  have hWX : W ⊓ X = ⊥ := hR
  have e3 : U ⊓ X ⊓ (V ⊓ X) = ⊥ := by
    rw [eq_bot_iff, ← hWX, ← hW]
    exact le_inf (le_inf (inf_le_left.trans inf_le_left) (inf_le_right.trans inf_le_left)) (inf_le_left.trans inf_le_right)
  have hAC := hA'.op hn hC e1
  have hCB := hC.op hn hB' (by rw [inf_comm]; exact e2)
  rw [s1] at hAC
  rw [sup_comm, s2] at hCB
  obtain ⟨α, hα, eA⟩ := hA.unique hn hAC
  obtain ⟨β, hβ, eB⟩ := hB.unique hn hCB
  obtain ⟨κ, hκ, eC⟩ := square_metric hn h hM hC hR
  rw [← gp_perp_metric hn h hM hA' hC inf_le_right] at eA
  rw [← gp_perp_metric hn h hM hC hB' (orthogonalIn_symm hM inf_le_right)] at eB
  have sA := hA'.space hn
  have sB := hB'.space hn
  have sC := hC.space hn
  have smul_l : ∀ (a : ℝ) {Y Z : MV ℝ}, Y ∈ space ℝ n → Z ∈ space ℝ n → m .gp (a • Y) Z = a • m .gp Y Z := by
    intro a Y Z sY sZ
    rw [← h.gp_scalar a sY, h.assoc (scalar_space a) sY sZ, h.gp_scalar a (h.gp_space sY sZ)]
  have smul_r : ∀ (a : ℝ) {Y Z : MV ℝ}, Y ∈ space ℝ n → Z ∈ space ℝ n → m .gp Y (a • Z) = a • m .gp Y Z := by
    intro a Y Z sY sZ
    obtain ⟨Φ, -, -, h3⟩ := h.clifford
    obtain ⟨x, hx⟩ := Φ.surjective ⟨Y, sY⟩
    obtain ⟨y, hy⟩ := Φ.surjective ⟨Z, sZ⟩
    have hx : (Φ x : MV ℝ) = Y := congrArg Subtype.val hx
    have hy : (Φ y : MV ℝ) = Z := congrArg Subtype.val hy
    have h4 := h3 x (a • y)
    rw [mul_smul_comm, map_smul, map_smul, Submodule.coe_smul, Submodule.coe_smul, h3, hx, hy] at h4
    exact h4.symm
  have eG : m .gp A B = (α * β * κ) • m .gp A' B' := by
    have sCB := h.gp_space sC sB
    rw [eA, eB, smul_l α (h.gp_space sA sC) (Submodule.smul_mem _ _ sCB), smul_r β (h.gp_space sA sC) sCB,
      h.assoc sA sC sCB, ← h.assoc sC sC sB, eC, h.gp_scalar κ sB, smul_r κ sA sB, smul_smul, smul_smul]
  have f1 := Submodule.finrank_sup_add_finrank_inf_eq (U ⊓ X) W
  rw [e1, s1, finrank_bot] at f1
  have f2 := Submodule.finrank_sup_add_finrank_inf_eq (V ⊓ X) W
  rw [e2, s2, finrank_bot] at f2
  have hne : α * β * κ ≠ 0 := mul_ne_zero (mul_ne_zero hα hβ) hκ
  refine ⟨Module.finrank ℝ (U ⊓ X : Submodule ℝ 𝔼) + Module.finrank ℝ (V ⊓ X : Submodule ℝ 𝔼), by omega, ?_, ?_⟩
  · intro b hb
    rw [eG, Finsupp.smul_apply, smul_eq_mul] at hb
    by_contra hc
    have := h.gp_high hn sB (hB'.homog hn) _ sA (hA'.homog hn) (gradeOf b) (by omega)
    rw [if_neg (by omega)] at this
    have h4 := DFunLike.congr_fun this b
    unfold gradePart at h4
    rw [Finsupp.filter_apply, if_pos rfl] at h4
    exact right_ne_zero_of_mul hb h4
  · rw [eG, gradePart_smul, h.gp_high hn sB (hB'.homog hn) _ sA (hA'.homog hn) _ (by push_cast; rfl), if_pos (by push_cast; rfl)]
    have h3 := (hA'.op hn hB' e3).smul hne
    have e4 : U ⊓ X ⊔ V ⊓ X = (U ⊔ V) ⊓ X := by
      refine le_antisymm (sup_le (inf_le_inf_right _ le_sup_left) (inf_le_inf_right _ le_sup_right)) ?_
      rintro x ⟨hx, hx'⟩
      obtain ⟨u, hu, v, hv, rfl⟩ := Submodule.mem_sup.mp hx
      rw [← s1] at hu
      rw [← s2] at hv
      obtain ⟨u1, hu1, w1, hw1, rfl⟩ := Submodule.mem_sup.mp hu
      obtain ⟨v1, hv1, w2, hw2, rfl⟩ := Submodule.mem_sup.mp hv
      have h5 : w1 + w2 ∈ X := by
        have : w1 + w2 = (u1 + w1 + (v1 + w2)) - u1 - v1 := by abel
        rw [this]
        exact Submodule.sub_mem _ (Submodule.sub_mem _ hx' hu1.2) hv1.2
      have h6 : w1 + w2 = 0 := by
        have : w1 + w2 ∈ W ⊓ X := ⟨Submodule.add_mem _ hw1 hw2, h5⟩
        rwa [hWX, Submodule.mem_bot] at this
      have : u1 + w1 + (v1 + w2) = u1 + v1 + (w1 + w2) := by abel
      rw [this, h6, add_zero]
      exact Submodule.add_mem_sup hu1 hv1
    rwa [e4] at h3

end GATL
