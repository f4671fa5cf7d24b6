import Verif.Proofs.Minkowski
import Verif.Proofs.Transport
import Verif.Props.Metric
import Verif.Spec.Conformal

/-!
# The conformal model

Helper lemmas: the isometry from the conformal model to the Minkowski model.
-/

namespace GATL

open Spec Props

variable {D k : Nat}

/-- The isometry of vectors: `e(D+1)` and `e(D+2)` become the points at the origin and at infinity. -/
noncomputable def toMinkowski (D : Nat) : (Fin (D + 2) → ℝ) →ₗ[ℝ] (Fin (D + 2) → ℝ) where
  toFun v := Fin.snoc (Fin.snoc (fun i => v i.castSucc.castSucc) (v (Fin.last _) - v (Fin.last D).castSucc / 2) : Fin (D + 1) → ℝ)
    (v (Fin.last _) + v (Fin.last D).castSucc / 2)
  map_add' v w := by
    ext i
    refine Fin.lastCases ?_ (fun i => Fin.lastCases ?_ (fun i => ?_) i) i <;> simp <;> ring
  map_smul' a v := by
    ext i
    refine Fin.lastCases ?_ (fun i => Fin.lastCases ?_ (fun i => ?_) i) i <;> simp <;> ring

/-- Its inverse. -/
noncomputable def fromMinkowski (D : Nat) : (Fin (D + 2) → ℝ) →ₗ[ℝ] (Fin (D + 2) → ℝ) where
  toFun v := Fin.snoc (Fin.snoc (fun i => v i.castSucc.castSucc) (v (Fin.last _) - v (Fin.last D).castSucc) : Fin (D + 1) → ℝ)
    ((v (Fin.last _) + v (Fin.last D).castSucc) / 2)
  map_add' v w := by
    ext i
    refine Fin.lastCases ?_ (fun i => Fin.lastCases ?_ (fun i => ?_) i) i <;> simp <;> ring
  map_smul' a v := by
    ext i
    refine Fin.lastCases ?_ (fun i => Fin.lastCases ?_ (fun i => ?_) i) i <;> simp <;> ring

theorem toMinkowski_snoc (x : Fin D → ℝ) (a b : ℝ) :
    toMinkowski D (Fin.snoc (Fin.snoc x a : Fin (D + 1) → ℝ) b)
      = Fin.snoc (Fin.snoc x (b - a / 2) : Fin (D + 1) → ℝ) (b + a / 2) := by
  unfold toMinkowski
  simp

theorem from_to : fromMinkowski D ∘ₗ toMinkowski D = LinearMap.id := by
  ext v i
  unfold fromMinkowski toMinkowski
  refine Fin.lastCases ?_ (fun i => Fin.lastCases ?_ (fun i => ?_) i) i <;> simp <;> ring

theorem vector_image (hD : D ≤ 61) (v : Fin (D + 2) → ℝ) : vectorOf (toMinkowski D v)
    = direction (fun i : Fin D => v i.castSucc.castSucc) + v (Fin.last D).castSucc • origin D + v (Fin.last _) • infinity D := by
  unfold toMinkowski origin infinity direction
  simp only [LinearMap.coe_mk, AddHom.coe_mk, vectorOf_snoc]
  module

theorem conformal_isometry (hD : D ≤ 61) :
    Isometry (by omega : D + 2 ≤ 64) (ent (conformalEntry D)) (mq D) (toMinkowski D) := by
  intro v w
  rw [vector_image hD, vector_image hD]
  have h1 := vdot_n_dir hD
  have h2 := vdot_o_dir hD
  have h3 : ∀ x : Fin D → ℝ, vdot (mq D) (direction x) (infinity D) = 0 := fun x => by
    rw [vdot_comm _ (direction_homog (by omega) x) (infinity_homog hD), h1]
  have h4 : ∀ x : Fin D → ℝ, vdot (mq D) (direction x) (origin D) = 0 := fun x => by
    rw [vdot_comm _ (direction_homog (by omega) x) (origin_homog hD), h2]
  simp only [vdot_add_left, vdot_add_right, vdot_smul_left, vdot_smul_right, h1, h2, h3, h4, vdot_nn hD, vdot_oo hD,
    vdot_on hD, vdot_no hD, vdot_dir_dir hD]
  unfold beta
  rw [Matrix.toBilin'_apply]
  have hg : ∀ i j, (gram (ent (conformalEntry D)) (by omega : D + 2 ≤ 64)).transpose i j
      = (conformalEntry D (j.val + 1) (i.val + 1) : ℝ) := fun i j => rfl
  simp only [hg, Fin.sum_univ_castSucc, Fin.val_castSucc, Fin.val_last, conformalEntry]
  have z : ∀ i : Fin D, ∀ j : Fin D, (if j.val + 1 = i.val + 1 then (if j.val + 1 ≤ D then (1 : ℝ) else 0)
      else if j.val + 1 ≤ D ∨ i.val + 1 ≤ D then 0 else -1) = if i = j then 1 else 0 := by
    intro i j
    by_cases h : i = j
    · subst h; rw [if_pos rfl, if_pos rfl, if_pos (by omega)]
    · rw [if_neg (fun h' => h (Fin.ext (by omega))), if_pos (by omega), if_neg h]
  have z1 : ∀ i : Fin D, ∀ t, D ≤ t → (if t + 1 = i.val + 1 then (if t + 1 ≤ D then (1 : ℝ) else 0)
      else if t + 1 ≤ D ∨ i.val + 1 ≤ D then 0 else -1) = 0 := by
    intro i t ht
    rw [if_neg (by omega), if_pos (by omega)]
  have z2 : ∀ i : Fin D, ∀ t, D ≤ t → (if i.val + 1 = t + 1 then (if i.val + 1 ≤ D then (1 : ℝ) else 0)
      else if i.val + 1 ≤ D ∨ t + 1 ≤ D then 0 else -1) = 0 := by
    intro i t ht
    rw [if_neg (by omega), if_pos (by omega)]
  have z3 : (if D + 1 = D + 1 then (if D + 1 ≤ D then (1 : ℝ) else 0) else if D + 1 ≤ D ∨ D + 1 ≤ D then 0 else -1) = 0 := by
    simp
  have z4 : (if D + 1 + 1 = D + 1 + 1 then (if D + 1 + 1 ≤ D then (1 : ℝ) else 0)
      else if D + 1 + 1 ≤ D ∨ D + 1 + 1 ≤ D then 0 else -1) = 0 := by
    rw [if_pos rfl, if_neg (by omega)]
  have z5 : (if D + 1 + 1 = D + 1 then (if D + 1 + 1 ≤ D then (1 : ℝ) else 0)
      else if D + 1 + 1 ≤ D ∨ D + 1 ≤ D then 0 else -1) = -1 := by
    rw [if_neg (by omega), if_neg (by omega)]
  have z6 : (if D + 1 = D + 1 + 1 then (if D + 1 ≤ D then (1 : ℝ) else 0)
      else if D + 1 ≤ D ∨ D + 1 + 1 ≤ D then 0 else -1) = -1 := by
    rw [if_neg (by omega), if_neg (by omega)]
  simp only [z, z1 _ D le_rfl, z1 _ (D + 1) (Nat.le_succ D), z2 _ D le_rfl, z2 _ (D + 1) (Nat.le_succ D), z3, z4, z5, z6]
  simp [Finset.sum_add_distrib]
  ring

/-! ### The transport -/

/-- The map of multivectors. -/
noncomputable def conformalMap (D : Nat) (hD : D ≤ 5) : MV ℝ →ₗ[ℝ] MV ℝ := outerMap (by omega : D + 2 ≤ 64) (toMinkowski D)

theorem conformal_transport (hD : D ≤ 5) {m : Metric ℝ} (hm : GeometricAlgebra (D + 2) (conformalMetric D) m) :
    Transport (D + 2) m (orthProd (diagFactor (mq D))) (conformalMap D hD) where
  mem g A B hA hB := hm.prod_space g hA hB
  prod g A B hA hB := by
    have h := geometricAlgebra_gen (n := D + 2) (by omega) (conformalEntry D) (fuel := 2 ^ (D + 2) + 1) (by omega)
    rw [conformal_matrix] at h
    rw [hm.unique (by omega) h g hA hB]
    exact outerMap_prod _ _ (by omega) (conformal_isometry (by omega)) g hA hB _ (by omega)
  op A B hA hB := outerMap_op _ _ hA hB
  scalar a := outerMap_scalar _ _ a
  grade k A hA := outerMap_gradePart _ _ k hA
  minus p A hA := outerMap_minus _ _ p hA
  inj A B hA hB h := by
    have e : ∀ C ∈ space ℝ (D + 2), outerMap (by omega : D + 2 ≤ 64) (fromMinkowski D) (conformalMap D hD C) = C := by
      intro C hC
      unfold conformalMap
      rw [outerMap_comp _ _ _ hC, from_to, outerMap_id _ hC]
    rw [← e A hA, h, e B hB]

variable (hD : D ≤ 5)

theorem map_vector (v : Fin (D + 2) → ℝ) : conformalMap D hD (vectorOf v) = vectorOf (toMinkowski D v) :=
  outerMap_vector _ _ v

theorem map_snoc (x : Fin D → ℝ) (a b : ℝ) :
    conformalMap D hD (direction x + a • e ℝ D + b • e ℝ (D + 1)) = direction x + a • origin D + b • infinity D := by
  have h : direction x + a • e ℝ D + b • e ℝ (D + 1) = vectorOf (Fin.snoc (Fin.snoc x a : Fin (D + 1) → ℝ) b : Fin (D + 2) → ℝ) := by
    rw [vectorOf_snoc, vectorOf_snoc]; rfl
  rw [h, map_vector, vector_image (by omega)]
  simp

theorem direction_zero : direction (0 : Fin D → ℝ) = 0 := by unfold direction vectorOf; simp

theorem map_direction (x : Fin D → ℝ) : conformalMap D hD (direction x) = direction x := by
  have := map_snoc hD x 0 0
  simpa using this

theorem map_origin : conformalMap D hD (e ℝ D) = origin D := by
  have := map_snoc hD 0 1 0
  simpa [direction_zero] using this

theorem map_infinity : conformalMap D hD (e ℝ (D + 1)) = infinity D := by
  have := map_snoc hD 0 0 1
  simpa [direction_zero] using this

theorem conformalPoint_eq (x : Fin D → ℝ) :
    conformalPointAt x = direction x + (1 : ℝ) • e ℝ D + ((∑ i, x i ^ 2) / 2) • e ℝ (D + 1) := by
  unfold conformalPointAt conformalCoords
  rw [vectorOf_snoc, vectorOf_snoc]
  rfl

theorem map_point (x : Fin D → ℝ) : conformalMap D hD (conformalPointAt x) = minkowskiPointAt x := by
  rw [conformalPoint_eq, map_snoc, point_eq, dotp_sq]
  module

theorem conformal_point_space (x : Fin D → ℝ) (hD : D ≤ 61) : conformalPointAt x ∈ space ℝ (D + 2) :=
  vectorOf_space _ (by omega)

theorem map_outer {vs : List (MV ℝ)} (h : ∀ v ∈ vs, v ∈ space ℝ (D + 2)) :
    conformalMap D hD (outerOf vs) = outerOf (vs.map (conformalMap D hD)) ∧ outerOf vs ∈ space ℝ (D + 2) := by
  induction vs with
  | nil => exact ⟨outerMap_scalar _ _ _, scalar_space _⟩
  | cons v vs ih =>
    obtain ⟨h1, h2⟩ := ih fun w hw => h w (by simp [hw])
    have hv := h v (by simp)
    have e1 : outerOf (v :: vs) = op v (outerOf vs) := rfl
    have e2 : outerOf ((v :: vs).map (conformalMap D hD)) = op (conformalMap D hD v) (outerOf (vs.map (conformalMap D hD))) := rfl
    rw [e1, e2, ← h1]
    exact ⟨outerMap_op _ _ hv h2, op_space (by omega) hv h2⟩

theorem map_ofFn {f g : Fin k → MV ℝ} (h : ∀ i, f i ∈ space ℝ (D + 2)) (hg : ∀ i, conformalMap D hD (f i) = g i) :
    conformalMap D hD (outerOf (List.ofFn f)) = outerOf (List.ofFn g) ∧ outerOf (List.ofFn f) ∈ space ℝ (D + 2) := by
  have := map_outer hD (vs := List.ofFn f) (by
    intro v hv
    obtain ⟨i, rfl⟩ := (List.mem_ofFn' _ _).1 hv
    exact h i)
  rw [List.map_ofFn, show conformalMap D hD ∘ f = g from funext hg] at this
  exact this

include hD in
theorem far_space : e ℝ (D + 1) ∈ space ℝ (D + 2) := e_space (by omega)

include hD in
theorem near_space : e ℝ D ∈ space ℝ (D + 2) := space_mono (by omega) (e_space (by omega))

include hD in
theorem dir_space (x : Fin D → ℝ) : direction x ∈ space ℝ (D + 2) := space_mono (by omega) (direction_space (by omega) x)

theorem map_round (x : Fin (k + 1) → Fin D → ℝ) :
    conformalMap D hD (conformalRound x) = roundThrough x ∧ conformalRound x ∈ space ℝ (D + 2) :=
  map_ofFn hD (fun i => conformal_point_space _ (by omega)) fun i => map_point hD _

theorem map_flat (x : Fin (k + 1) → Fin D → ℝ) :
    conformalMap D hD (conformalFlat x) = flatThrough x ∧ conformalFlat x ∈ space ℝ (D + 2) := by
  obtain ⟨h1, h2⟩ := map_round hD x
  have h3 := far_space hD
  refine ⟨?_, op_space (by omega) h2 h3⟩
  unfold flatThrough
  rw [← h1, ← map_infinity hD]
  exact outerMap_op _ _ h2 h3

theorem map_tangent (x : Fin D → ℝ) (d : Fin k → Fin D → ℝ) :
    conformalMap D hD (conformalTangent x d) = tangentAt x d ∧ conformalTangent x d ∈ space ℝ (D + 2) := by
  obtain ⟨h1, h2⟩ := map_ofFn hD (f := fun i => direction (d i) + (∑ j, d i j * x j) • e ℝ (D + 1))
    (g := fun i => direction (d i) + (∑ j, d i j * x j) • infinity D)
    (fun i => Submodule.add_mem _ (dir_space hD _) (Submodule.smul_mem _ _ (far_space hD)))
    (fun i => by rw [map_add, map_smul, map_direction, map_infinity])
  have h3 := conformal_point_space x (by omega)
  refine ⟨?_, op_space (by omega) h3 h2⟩
  unfold tangentAt
  rw [← h1, ← map_point hD]
  exact outerMap_op _ _ h3 h2

theorem map_directionOf (d : Fin k → Fin D → ℝ) :
    conformalMap D hD (conformalDirection d) = directionOf d ∧ conformalDirection d ∈ space ℝ (D + 2) := by
  obtain ⟨h1, h2⟩ := map_ofFn hD (f := fun i => direction (d i)) (fun i => dir_space hD _) (fun i => map_direction hD _)
  have h3 := far_space hD
  refine ⟨?_, op_space (by omega) h2 h3⟩
  unfold directionOf
  rw [← h1, ← map_infinity hD]
  exact outerMap_op _ _ h2 h3

include hD in
theorem full_space : pseudoscalarOf ℝ (D + 2) ∈ space ℝ (D + 2) := by
  refine single_mem_space _ fun i hi => ?_
  have : (full (D + 2)).getLsbD i = true := hi
  rw [getLsbD_full _ _ i.2] at this
  simpa using this

/-- The pseudoscalar becomes a pseudoscalar. -/
theorem map_full {m : Metric ℝ} (hm : GeometricAlgebra (D + 2) (conformalMetric D) m) :
    ∃ d : ℝ, d ≠ 0 ∧ conformalMap D hD (pseudoscalarOf ℝ (D + 2)) = d • pseudoscalarOf ℝ (D + 2) := by
  have hs := full_space hD
  have hH : Homogeneous (D + 2) (conformalMap D hD (pseudoscalarOf ℝ (D + 2))) := by
    have := outerMap_single (by omega : D + 2 ≤ 64) (toMinkowski D) (b := full (D + 2)) (fun i hi => by
      rw [getLsbD_full _ _ i.2] at hi; simpa using hi) (1 : ℝ)
    rwa [vecs_full _ (by omega)] at this
  have hI : conformalMap D hD (pseudoscalarOf ℝ (D + 2)) ∈ space ℝ (D + 2) := outerMap_space _ _ _
  have e1 : conformalMap D hD (pseudoscalarOf ℝ (D + 2))
      = (conformalMap D hD (pseudoscalarOf ℝ (D + 2)) (full (D + 2))) • pseudoscalarOf ℝ (D + 2) := by
    have hp : pseudoscalarOf ℝ (D + 2) = Finsupp.single (full (D + 2)) 1 := rfl
    generalize conformalMap D hD (pseudoscalarOf ℝ (D + 2)) = A at hH hI ⊢
    ext b
    rw [Finsupp.smul_apply, hp, Finsupp.single_apply, smul_eq_mul]
    split_ifs with hb
    · rw [← hb, mul_one]
    · rw [mul_zero]
      by_contra h0
      apply hb
      have h1 := hH b h0
      rw [gradeOf_eq] at h1
      have h2 := space_inSpace hI h0
      have h3 : vecs b ⊆ vecs (full (D + 2)) := fun i hi => by
        rw [mem_vecs] at hi ⊢
        rw [getLsbD_full _ _ i.2]
        simpa using h2 i hi
      have h4 := Finset.eq_of_subset_of_card_le h3 (by
        rw [← ones_eq_card, ← ones_eq_card, vecs_full _ (by omega), h1])
      apply word_ext
      intro i hi
      have h5 : (⟨i, hi⟩ : Fin 64) ∈ vecs b ↔ (⟨i, hi⟩ : Fin 64) ∈ vecs (full (D + 2)) := by rw [h4]
      rw [mem_vecs, mem_vecs] at h5
      exact (Bool.eq_iff_iff.2 h5).symm
  refine ⟨_, fun h0 => ?_, e1⟩
  rw [h0, zero_smul] at e1
  have := (conformal_transport hD hm).inj _ 0 hs (Submodule.zero_mem _) (by rw [e1, map_zero])
  have := congrArg (· (full (D + 2))) this
  unfold pseudoscalarOf full at this
  simp at this

end GATL
