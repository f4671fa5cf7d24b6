import Mathlib.LinearAlgebra.AffineSpace.FiniteDimensional
import Verif.Proofs.Parameters
import Verif.Spec.Minkowski
import Verif.Props.Spaces

/-!
# The Minkowski model

Helper lemmas: the scalar products of points, directions and the point at infinity.
-/

namespace GATL

open Spec Props

/-- The squares of the basis vectors. -/
noncomputable def mq (D : Nat) : Fin 64 → ℝ := fun i => ((signature (D + 1) 1 0 i : Int) : ℝ)

variable {D k : Nat}

local notation "L" => orthProd (diagFactor (mq D)) GradedProduct.lcont
local notation "G" => orthProd (diagFactor (mq D)) GradedProduct.gp
local notation "S" => orthProd (diagFactor (mq D)) GradedProduct.sp

theorem minkowski_eq (hD : D ≤ 61) : (signedProd (D + 1) 1 0 : Metric ℝ) = orthProd (diagFactor (mq D)) := by
  funext g A B
  unfold signedProd mq
  rw [signedFactor_cast (D + 1) 1 0 (by omega)]

theorem space_mono {n m : Nat} (h : n ≤ m) {A : MV ℝ} (hA : A ∈ space ℝ n) : A ∈ space ℝ m := by
  rw [mem_space] at hA ⊢
  intro b hb i hi
  exact lt_of_lt_of_le (hA b hb i hi) h

theorem e_space (hD : D ≤ 62) : e ℝ D ∈ space ℝ (D + 1) := by
  have := vectorOf_space (K := ℝ) (n := D + 1) (Fin.snoc 0 1) (by omega)
  rw [vectorOf_snoc, one_smul] at this
  have h0 : vectorOf (0 : Fin D → ℝ) = 0 := by unfold vectorOf; simp
  rwa [h0, zero_add] at this

theorem infinity_homog (hD : D ≤ 61) : Homogeneous 1 (infinity D) :=
  homog_add (e_homog (by omega)) (e_homog (by omega))

theorem origin_homog (hD : D ≤ 61) : Homogeneous 1 (origin D) :=
  homog_smul _ (Iso.homog_sub (e_homog (by omega)) (e_homog (by omega)))

theorem vdot_dir_dir (hD : D ≤ 61) (x y : Fin D → ℝ) : vdot (mq D) (direction x) (direction y) = ∑ i, x i * y i := by
  have h := sp_vectors (mq D) (by omega : D ≤ 64) x y
  have h2 : L (direction x) (direction y) = S (direction x) (direction y) := by
    rw [lcont_same _ (direction_homog (by omega) x) (direction_homog (by omega) y), Iso.sp_scalar]
  unfold vdot
  rw [h2]
  unfold direction
  rw [h, scalar_zero_apply]
  refine Finset.sum_congr rfl fun i _ => ?_
  unfold mq signature
  rw [if_pos (show i.val < D + 1 by omega)]
  simp

theorem vdot_ee (hD : D ≤ 61) : vdot (mq D) (e ℝ D) (e ℝ D) = 1 := by
  rw [vdot_e (by omega)]
  unfold mq signature
  rw [if_pos (show D < D + 1 by omega)]
  simp

theorem vdot_ff (hD : D ≤ 61) : vdot (mq D) (e ℝ (D + 1)) (e ℝ (D + 1)) = -1 := by
  rw [vdot_e (by omega)]
  unfold mq signature
  rw [if_neg (show ¬ D + 1 < D + 1 by omega), if_pos (show D + 1 < D + 1 + 1 by omega)]
  simp

theorem vdot_fe (hD : D ≤ 61) : vdot (mq D) (e ℝ (D + 1)) (e ℝ D) = 0 :=
  vdot_absent _ (by omega) (e_space (by omega))

theorem vdot_ef (hD : D ≤ 61) : vdot (mq D) (e ℝ D) (e ℝ (D + 1)) = 0 := by
  rw [vdot_comm _ (e_homog (by omega)) (e_homog (by omega)), vdot_fe hD]

theorem vdot_n_dir (hD : D ≤ 61) (x : Fin D → ℝ) : vdot (mq D) (infinity D) (direction x) = 0 := by
  unfold infinity
  rw [vdot_add_left, vdot_absent _ (by omega) (direction_space (by omega) x),
    vdot_absent _ (by omega) (space_mono (Nat.le_succ D) (direction_space (by omega) x)), add_zero]

theorem vdot_o_dir (hD : D ≤ 61) (x : Fin D → ℝ) : vdot (mq D) (origin D) (direction x) = 0 := by
  unfold origin
  rw [vdot_smul_left, vdot_sub_left, vdot_absent _ (by omega) (direction_space (by omega) x),
    vdot_absent _ (by omega) (space_mono (Nat.le_succ D) (direction_space (by omega) x)), sub_zero, mul_zero]

theorem vdot_nn (hD : D ≤ 61) : vdot (mq D) (infinity D) (infinity D) = 0 := by
  unfold infinity
  rw [vdot_add_left, vdot_add_right, vdot_add_right, vdot_ee hD, vdot_ff hD, vdot_ef hD, vdot_fe hD]
  norm_num

theorem vdot_oo (hD : D ≤ 61) : vdot (mq D) (origin D) (origin D) = 0 := by
  unfold origin
  rw [vdot_smul_left, vdot_smul_right, vdot_sub_left, vdot_sub_right, vdot_sub_right, vdot_ee hD, vdot_ff hD, vdot_ef hD,
    vdot_fe hD]
  norm_num

theorem vdot_on (hD : D ≤ 61) : vdot (mq D) (origin D) (infinity D) = -1 := by
  unfold origin infinity
  rw [vdot_smul_left, vdot_sub_left, vdot_add_right, vdot_add_right, vdot_ee hD, vdot_ff hD, vdot_ef hD,
    vdot_fe hD]
  norm_num

theorem vdot_no (hD : D ≤ 61) : vdot (mq D) (infinity D) (origin D) = -1 := by
  rw [vdot_comm _ (infinity_homog hD) (origin_homog hD), vdot_on hD]

/-- The Euclidean scalar product. -/
def dotp (x y : Fin D → ℝ) : ℝ := ∑ i, x i * y i

theorem dotp_comm (x y : Fin D → ℝ) : dotp x y = dotp y x := Finset.sum_congr rfl fun _ _ => mul_comm _ _
theorem dotp_add_left (x y z : Fin D → ℝ) : dotp (x + y) z = dotp x z + dotp y z := by
  unfold dotp; rw [← Finset.sum_add_distrib]; exact Finset.sum_congr rfl fun _ _ => add_mul _ _ _
theorem dotp_sub_left (x y z : Fin D → ℝ) : dotp (x - y) z = dotp x z - dotp y z := by
  unfold dotp; rw [← Finset.sum_sub_distrib]; exact Finset.sum_congr rfl fun _ _ => sub_mul _ _ _
theorem dotp_sub_right (x y z : Fin D → ℝ) : dotp z (x - y) = dotp z x - dotp z y := by
  rw [dotp_comm, dotp_sub_left, dotp_comm x, dotp_comm y]
theorem dotp_smul_left (c : ℝ) (x z : Fin D → ℝ) : dotp (c • x) z = c * dotp x z := by
  unfold dotp; rw [Finset.mul_sum]; exact Finset.sum_congr rfl fun _ _ => mul_assoc _ _ _
theorem dotp_sq (x : Fin D → ℝ) : dotp x x = ∑ i, x i ^ 2 := Finset.sum_congr rfl fun _ _ => (sq _).symm
theorem dotp_self {x : Fin D → ℝ} (h : dotp x x = 0) : x = 0 := by
  unfold dotp at h
  rw [Finset.sum_eq_zero_iff_of_nonneg (fun i _ => mul_self_nonneg _)] at h
  funext i
  exact mul_self_eq_zero.mp (h i (Finset.mem_univ i))

theorem direction_add (x y : Fin D → ℝ) : direction (x + y) = direction x + direction y := by
  unfold direction vectorOf
  simp only [Pi.add_apply, add_smul, Finset.sum_add_distrib]
theorem direction_sub (x y : Fin D → ℝ) : direction (x - y) = direction x - direction y := by
  unfold direction vectorOf
  simp only [Pi.sub_apply, sub_smul, Finset.sum_sub_distrib]
theorem direction_smul (c : ℝ) (x : Fin D → ℝ) : direction (c • x) = c • direction x := by
  unfold direction vectorOf
  simp only [Pi.smul_apply, smul_eq_mul, mul_smul, Finset.smul_sum]

/-- The point at `x`. -/
theorem point_eq (x : Fin D → ℝ) : minkowskiPointAt x = origin D + direction x + (dotp x x / 2) • infinity D := by
  unfold minkowskiPointAt minkowskiCoords origin infinity direction
  rw [vectorOf_snoc, vectorOf_snoc, ← dotp_sq]
  module

theorem point_homog (hD : D ≤ 61) (x : Fin D → ℝ) : Homogeneous 1 (minkowskiPointAt x) :=
  vectorOf_homog _ (by omega)

theorem vdot_n_point (hD : D ≤ 61) (x : Fin D → ℝ) : vdot (mq D) (infinity D) (minkowskiPointAt x) = -1 := by
  rw [point_eq, vdot_add_right, vdot_add_right, vdot_smul_right, vdot_nn hD, vdot_no hD, vdot_n_dir hD]; norm_num

theorem vdot_o_point (hD : D ≤ 61) (x : Fin D → ℝ) : vdot (mq D) (origin D) (minkowskiPointAt x) = -(dotp x x / 2) := by
  rw [point_eq, vdot_add_right, vdot_add_right, vdot_smul_right, vdot_on hD, vdot_oo hD, vdot_o_dir hD]; ring

theorem vdot_dir_point (hD : D ≤ 61) (x y : Fin D → ℝ) :
    vdot (mq D) (direction x) (minkowskiPointAt y) = dotp x y := by
  have hx := direction_homog (by omega : D ≤ 63) x
  rw [point_eq, vdot_add_right, vdot_add_right, vdot_smul_right, vdot_comm _ hx (infinity_homog hD),
    vdot_comm _ hx (origin_homog hD), vdot_n_dir hD, vdot_o_dir hD, vdot_dir_dir hD]
  unfold dotp; ring

theorem vdot_points (hD : D ≤ 61) (x y : Fin D → ℝ) :
    vdot (mq D) (minkowskiPointAt x) (minkowskiPointAt y) = -(dotp (x - y) (x - y) / 2) := by
  rw [point_eq x, vdot_add_left, vdot_add_left, vdot_smul_left, vdot_o_point hD, vdot_dir_point hD, vdot_n_point hD,
    dotp_sub_left, dotp_sub_right, dotp_sub_right, dotp_comm y x]
  ring

/-! ### Directions -/

/-- The vectors of the Euclidean space. -/
noncomputable def dirMap (D : Nat) : (Fin D → ℝ) →ₗ[ℝ] MV ℝ where
  toFun := direction
  map_add' := direction_add
  map_smul' c x := direction_smul c x

theorem dirs_square (hD : D ≤ 61) {d : Fin k → Fin D → ℝ} (hd : LinearIndependent ℝ d) :
    ∃ κ, κ ≠ 0 ∧ G (outerProd (List.ofFn fun i => direction (d i))) (outerProd (List.ofFn fun i => direction (d i)))
      = scalar κ := by
  have hinj : ∀ x : Fin D → ℝ, vdot (mq D) (direction x) (direction x) = 0 → x = 0 := by
    intro x hx
    rw [vdot_dir_dir hD] at hx
    exact dotp_self hx
  refine blade_square_ne (mq D) (V := LinearMap.range (dirMap D)) ?_ ?_ (fun i => ⟨d i, rfl⟩) ?_
  · rintro _ ⟨x, rfl⟩; exact direction_homog (by omega) x
  · rintro _ ⟨x, rfl⟩ h
    rw [hinj x h, map_zero]
  · refine hd.map' (dirMap D) ?_
    rw [LinearMap.ker_eq_bot']
    intro x hx
    refine hinj x ?_
    have : direction x = 0 := hx
    rw [this]; unfold vdot; rw [prod_zero_left]; rfl

theorem forall₂_ofFn {α β : Type*} {r : α → β → Prop} : ∀ {k : Nat} {f : Fin k → α} {g : Fin k → β},
    (∀ i, r (f i) (g i)) → List.Forall₂ r (List.ofFn f) (List.ofFn g)
  | 0, _, _, _ => by rw [List.ofFn_zero, List.ofFn_zero]; exact .nil
  | k + 1, f, g, h => by
    rw [List.ofFn_succ, List.ofFn_succ]
    exact .cons (h 0) (forall₂_ofFn fun i => h i.succ)

/-- Directions with parts along the point at infinity. -/
theorem shifted (hD : D ≤ 61) {d : Fin k → Fin D → ℝ} (hd : LinearIndependent ℝ d) (β : Fin k → ℝ) {U : MV ℝ}
    (hU : U = outerProd (List.ofFn fun i => direction (d i) + β i • infinity D)) :
    Homogeneous k U ∧ L (infinity D) U = 0 ∧ op U (infinity D) = directionOf d ∧
      ∃ κ, κ ≠ 0 ∧ G U U = scalar κ := by
  have hn := infinity_homog hD
  have hu : ∀ v ∈ List.ofFn (fun i => direction (d i) + β i • infinity D), Homogeneous 1 v := by
    intro v hv
    rw [List.mem_ofFn] at hv
    obtain ⟨i, rfl⟩ := hv
    exact homog_add (direction_homog (by omega) _) (homog_smul _ hn)
  have hdh : ∀ v ∈ List.ofFn (fun i => direction (d i)), Homogeneous 1 v := by
    intro v hv
    rw [List.mem_ofFn] at hv
    obtain ⟨i, rfl⟩ := hv
    exact direction_homog (by omega) _
  have hH : Homogeneous k U := by
    have := outer_homog hu
    rwa [List.length_ofFn, ← hU] at this
  have hHd : Homogeneous k (outerProd (List.ofFn fun i => direction (d i))) := by
    have := outer_homog hdh
    rwa [List.length_ofFn] at this
  have hL : L (infinity D) U = 0 := by
    rw [hU]
    refine lcont_outer _ hn hu ?_
    intro v hv
    rw [List.mem_ofFn] at hv
    obtain ⟨i, rfl⟩ := hv
    rw [vdot_add_right, vdot_smul_right, vdot_n_dir hD, vdot_nn hD, mul_zero, add_zero]
  have hLo : L (origin D) (outerProd (List.ofFn fun i => direction (d i))) = 0 := by
    refine lcont_outer _ (origin_homog hD) hdh ?_
    intro v hv
    rw [List.mem_ofFn] at hv
    obtain ⟨i, rfl⟩ := hv
    exact vdot_o_dir hD _
  have hop : op (infinity D) U = op (infinity D) (outerProd (List.ofFn fun i => direction (d i))) := by
    rw [hU]
    exact op_shift hn hu hdh (forall₂_ofFn fun i => ⟨β i, rfl⟩)
  refine ⟨hH, hL, ?_, ?_⟩
  · have e : directionOf d = op (outerProd (List.ofFn fun i => direction (d i))) (infinity D) := rfl
    rw [e, op_vec_right hn, op_vec_right hn, involute_homog hH, involute_homog hHd, op_smul_right, op_smul_right, hop]
  · obtain ⟨κ, h0, hκ⟩ := dirs_square hD hd
    obtain ⟨κ', hκ'⟩ := blade_square (mq D) hu
    rw [← hU] at hκ'
    have h := square_shift (mq D) hn (origin_homog hD) hH (vdot_nn hD) (vdot_on hD) hL hLo hop
    rw [square_sp _ hκ, square_sp _ hκ'] at h
    exact ⟨κ', by rw [scalar_inj h]; exact h0, hκ'⟩

/-! ### Rounds -/

theorem differences {x : Fin (k + 1) → Fin D → ℝ} (hx : AffineIndependent ℝ x) :
    LinearIndependent ℝ fun i : Fin k => x i.succ - x 0 := by
  have h := (affineIndependent_iff_linearIndependent_vsub ℝ x 0).mp hx
  exact h.comp (fun i : Fin k => (⟨i.succ, Fin.succ_ne_zero i⟩ : {y : Fin (k + 1) // y ≠ 0}))
    (fun i j hij => Fin.succ_injective _ (Subtype.ext_iff.mp hij))

theorem points_homog (hD : D ≤ 61) (x : Fin k → Fin D → ℝ) :
    ∀ v ∈ List.ofFn (fun i => minkowskiPointAt (x i)), Homogeneous 1 v := by
  intro v hv
  rw [List.mem_ofFn] at hv
  obtain ⟨i, rfl⟩ := hv
  exact point_homog hD _

theorem round_homog (hD : D ≤ 61) (x : Fin (k + 1) → Fin D → ℝ) : Homogeneous (k + 1) (roundThrough x) := by
  have := outer_homog (points_homog hD x)
  rwa [List.length_ofFn] at this

/-- The contraction of a round by the point at infinity. -/
theorem round_contraction (hD : D ≤ 61) {x : Fin (k + 1) → Fin D → ℝ} (hx : AffineIndependent ℝ x) :
    ∃ U, Homogeneous k U ∧ L (infinity D) (roundThrough x) = -U ∧ L (infinity D) U = 0 ∧
      op U (infinity D) = directionOf (fun i => x i.succ - x 0) ∧ ∃ κ, κ ≠ 0 ∧ G U U = scalar κ := by
  obtain ⟨hH, hL, hd, hκ⟩ := shifted hD (differences hx)
    (fun i => dotp (x i.succ) (x i.succ) / 2 - dotp (x 0) (x 0) / 2) rfl
  refine ⟨_, hH, ?_, hL, hd, hκ⟩
  have e : roundThrough x = op (minkowskiPointAt (x 0)) (outerProd (List.ofFn fun i : Fin k =>
      minkowskiPointAt (x i.succ))) := by
    unfold roundThrough
    rw [List.ofFn_succ]; rfl
  have hp := point_homog hD (x 0)
  have e2 : roundThrough x = op (minkowskiPointAt (x 0)) (outerProd (List.ofFn fun i =>
      direction (x i.succ - x 0) + (dotp (x i.succ) (x i.succ) / 2 - dotp (x 0) (x 0) / 2) • infinity D)) := by
    rw [e]
    refine op_shift hp (points_homog hD _) ?_ (forall₂_ofFn fun i => ⟨1, ?_⟩)
    · intro v hv
      rw [List.mem_ofFn] at hv
      obtain ⟨i, rfl⟩ := hv
      exact homog_add (direction_homog (by omega) _) (homog_smul _ (infinity_homog hD))
    · rw [point_eq, point_eq, direction_sub]
      module
  rw [e2, lcont_wedge _ (infinity_homog hD) hp, hL, op_zero_right, sub_zero, vdot_n_point hD, neg_one_smul]

/-- Combinations of points. -/
theorem combination {x : Fin k → Fin D → ℝ} {c : Fin D → ℝ} {l : Fin k → ℝ} (h1 : ∑ i, l i = 1)
    (hc : c = ∑ i, l i • x i) :
    ∑ i, l i • minkowskiPointAt (x i)
      = minkowskiPointAt c + ((∑ i, l i * dotp (x i - c) (x i - c)) / 2) • infinity D := by
  have hd : direction c = ∑ i, l i • direction (x i) := by
    have := congrArg (dirMap D) hc
    rw [map_sum] at this
    simp only [map_smul] at this
    exact this
  have hcc : ∑ i, l i * dotp (x i) c = dotp c c := by
    conv_rhs => rw [hc]
    have : ∀ s : Finset (Fin k), dotp (∑ i ∈ s, l i • x i) c = ∑ i ∈ s, l i * dotp (x i) c := by
      intro s
      induction s using Finset.induction_on with
      | empty => simp [dotp]
      | insert j s hj ih => rw [Finset.sum_insert hj, Finset.sum_insert hj, dotp_add_left, dotp_smul_left, ih]
    rw [← hc, ← this, ← hc]
  have e : ∑ i, l i * dotp (x i - c) (x i - c) = ∑ i, l i * dotp (x i) (x i) - dotp c c := by
    have h2 : ∀ i, l i * dotp (x i - c) (x i - c)
        = l i * dotp (x i) (x i) - 2 * (l i * dotp (x i) c) + l i * dotp c c := by
      intro i
      rw [dotp_sub_left, dotp_sub_right, dotp_sub_right, dotp_comm c (x i)]; ring
    simp only [h2, Finset.sum_add_distrib, Finset.sum_sub_distrib]
    rw [← Finset.mul_sum, hcc, ← Finset.sum_mul, h1]; ring
  have hs : ∑ i, l i • minkowskiPointAt (x i)
      = (∑ i, l i) • origin D + ∑ i, l i • direction (x i) + ((∑ i, l i * dotp (x i) (x i)) / 2) • infinity D := by
    have h3 : ∀ i, l i • minkowskiPointAt (x i)
        = l i • origin D + l i • direction (x i) + (l i * dotp (x i) (x i) / 2) • infinity D := by
      intro i; rw [point_eq]; module
    simp only [h3, Finset.sum_add_distrib]
    rw [Finset.sum_smul, div_eq_mul_inv, Finset.sum_mul, Finset.sum_smul]
    simp only [div_eq_mul_inv]
  rw [hs, h1, e, point_eq c, hd]
  module

theorem combination_inside (hD : D ≤ 61) (x : Fin (k + 1) → Fin D → ℝ) (l : Fin (k + 1) → ℝ) :
    op (∑ i, l i • minkowskiPointAt (x i)) (roundThrough x) = 0 := by
  rw [op_sum_left]
  refine Finset.sum_eq_zero fun i _ => ?_
  rw [op_smul_left]
  have := outer_inside (points_homog hD x) (minkowskiPointAt (x i)) (by rw [List.mem_ofFn]; exact ⟨i, rfl⟩)
  have e : outerProd (List.ofFn fun i => minkowskiPointAt (x i)) = roundThrough x := rfl
  rw [← e, this, smul_zero]

theorem infinity_space (hD : D ≤ 61) : infinity D ∈ space ℝ (D + 2) :=
  Submodule.add_mem _ (space_mono (by omega) (e_space (by omega))) (e_space (by omega))

theorem origin_space (hD : D ≤ 61) : origin D ∈ space ℝ (D + 2) :=
  Submodule.smul_mem _ _ (Submodule.sub_mem _ (e_space (by omega)) (space_mono (by omega) (e_space (by omega))))

theorem point_space (hD : D ≤ 61) (x : Fin D → ℝ) : minkowskiPointAt x ∈ space ℝ (D + 2) :=
  vectorOf_space _ (by omega)

theorem round_space (hD : D ≤ 61) (x : Fin (k + 1) → Fin D → ℝ) : roundThrough x ∈ space ℝ (D + 2) := by
  refine outer_mem_space ?_
  intro v hv
  rw [List.mem_ofFn] at hv
  obtain ⟨i, rfl⟩ := hv
  exact point_space hD _

theorem on_line {x : Fin (k + 1) → Fin D → ℝ} {c : Fin D → ℝ} (hc : c ∈ affineSpan ℝ (Set.range x)) :
    ∃ l : Fin (k + 1) → ℝ, ∑ i, l i = 1 ∧ c = ∑ i, l i • x i := by
  obtain ⟨l, h1, h2⟩ := eq_affineCombination_of_mem_affineSpan_of_fintype hc
  rw [Finset.affineCombination_eq_linear_combination _ _ _ h1] at h2
  exact ⟨l, h1, h2⟩

/-- The decomposition of the point at infinity. -/
theorem round_parts (hD : D ≤ 61) {x : Fin (k + 1) → Fin D → ℝ} (hx : AffineIndependent ℝ x) {c : Fin D → ℝ}
    (hc : c ∈ affineSpan ℝ (Set.range x)) {ρ : ℝ} (hρ : ∀ i, dotp (x i - c) (x i - c) = ρ) (h0 : ρ ≠ 0) :
    ∃ P R κ, P ∈ space ℝ (D + 2) ∧ P + R = infinity D ∧ Homogeneous 1 P ∧ Homogeneous 1 R ∧ op P (roundThrough x) = 0 ∧
      L R (roundThrough x) = 0 ∧ G (roundThrough x) (roundThrough x) = scalar κ ∧ κ ≠ 0 ∧
      vdot (mq D) P P = -ρ⁻¹ ∧ vdot (mq D) R R = ρ⁻¹ ∧ R - P = (2 * -ρ⁻¹) • minkowskiPointAt c := by
  obtain ⟨l, h1, h2⟩ := on_line hc
  have hn := infinity_homog hD
  have hs := combination h1 h2
  have hw : ∑ i, l i * dotp (x i - c) (x i - c) = ρ := by
    simp only [hρ]; rw [← Finset.sum_mul, h1, one_mul]
  rw [hw] at hs
  have hin := combination_inside hD x l
  rw [hs] at hin
  have hsH : Homogeneous 1 (minkowskiPointAt c + (ρ / 2) • infinity D) :=
    homog_add (point_homog hD c) (homog_smul _ hn)
  have hP : Homogeneous 1 (ρ⁻¹ • (minkowskiPointAt c + (ρ / 2) • infinity D)) := homog_smul _ hsH
  have hR := Iso.homog_sub hn hP
  have hns : vdot (mq D) (infinity D) (ρ⁻¹ • (minkowskiPointAt c + (ρ / 2) • infinity D)) = -ρ⁻¹ := by
    rw [vdot_smul_right, vdot_add_right, vdot_smul_right, vdot_n_point hD, vdot_nn hD]; ring
  have hsn := hns
  rw [vdot_comm _ hn hP] at hsn
  have hss : vdot (mq D) (ρ⁻¹ • (minkowskiPointAt c + (ρ / 2) • infinity D))
      (ρ⁻¹ • (minkowskiPointAt c + (ρ / 2) • infinity D)) = -ρ⁻¹ := by
    rw [vdot_smul_left, vdot_smul_right, vdot_add_left, vdot_add_right, vdot_smul_left, vdot_smul_right, vdot_add_right,
      vdot_smul_right, vdot_n_point hD, vdot_nn hD, vdot_comm _ (point_homog hD c) hn, vdot_n_point hD, vdot_points hD,
      sub_self]
    simp only [dotp, Pi.zero_apply, mul_zero, Finset.sum_const_zero]
    field_simp
    ring
  have h3 : op (ρ⁻¹ • (minkowskiPointAt c + (ρ / 2) • infinity D)) (roundThrough x) = 0 := by
    rw [op_smul_left, hin, smul_zero]
  have h4 : L (infinity D - ρ⁻¹ • (minkowskiPointAt c + (ρ / 2) • infinity D)) (roundThrough x) = 0 := by
    refine lcont_outer _ hR (points_homog hD x) ?_
    intro v hv
    rw [List.mem_ofFn] at hv
    obtain ⟨i, rfl⟩ := hv
    rw [vdot_sub_left, vdot_smul_left, vdot_add_left, vdot_smul_left, vdot_n_point hD, vdot_points hD]
    have : dotp (c - x i) (c - x i) = ρ := by
      rw [← hρ i]
      unfold dotp
      refine Finset.sum_congr rfl fun j _ => ?_
      simp only [Pi.sub_apply]; ring
    rw [this]
    field_simp
    ring
  obtain ⟨κ, hκ⟩ := blade_square (mq D) (points_homog hD x)
  refine ⟨_, _, κ, Submodule.smul_mem _ _ (Submodule.add_mem _ (point_space hD c)
    (Submodule.smul_mem _ _ (infinity_space hD))), add_sub_cancel _ _, hP, hR, h3, h4, hκ, ?_, hss, ?_, ?_⟩
  · rintro rfl
    have h5 := contraction_square (mq D) (round_homog hD x) hP h3 h4 hκ
    obtain ⟨U, -, hLU, -, -, κ', h6, h7⟩ := round_contraction hD hx
    rw [add_sub_cancel, hLU, ← neg_one_smul ℝ U, prod_smul_left, prod_smul_right, square_sp _ h7, smul_smul] at h5
    apply h6
    have := scalar_inj (K := ℝ) (a := κ') (b := _) (by simpa using h5)
    simpa using this
  · rw [vdot_sub_left, vdot_sub_right, vdot_sub_right, vdot_nn hD, hns, hsn, hss]; ring
  · have : 2 * (-ρ⁻¹) * (ρ / 2) = -1 := by field_simp
    match_scalars <;> field_simp <;> norm_num

theorem round_point {x : Fin (k + 1) → Fin D → ℝ} (hx : AffineIndependent ℝ x) {c : Fin D → ℝ}
    (hρ : ∀ i, dotp (x i - c) (x i - c) = 0) : k = 0 ∧ roundThrough x = minkowskiPointAt c := by
  have h : ∀ i, x i = c := fun i => sub_eq_zero.mp (dotp_self (hρ i))
  have hk : k = 0 := by
    by_contra h0
    have := hx.injective ((h 0).trans (h (Fin.last k)).symm)
    rw [Fin.ext_iff] at this
    simp at this
    omega
  subst hk
  refine ⟨rfl, ?_⟩
  unfold roundThrough
  rw [List.ofFn_succ, List.ofFn_zero, h]
  simp only [outerOf, List.foldr_cons, List.foldr_nil]
  rw [op_scalar_right, one_smul]

/-- The parameters of a round. -/
theorem round_values (hD : D ≤ 61) {x : Fin (k + 1) → Fin D → ℝ} (hx : AffineIndependent ℝ x) {c : Fin D → ℝ}
    (hc : c ∈ affineSpan ℝ (Set.range x)) {ρ : ℝ} (hρ : ∀ i, dotp (x i - c) (x i - c) = ρ) {w : ℝ} (hw : w ≠ 0) :
    ∃ α, RoundFacts (mq D) (infinity D) (w • roundThrough x) (minkowskiPointAt c) ρ α := by
  by_cases h0 : ρ = 0
  · subst h0
    obtain ⟨-, e⟩ := round_point hx hρ
    have hp := point_homog hD c
    have hn := infinity_homog hD
    have pp : G (minkowskiPointAt c) (minkowskiPointAt c) = 0 := by
      rw [gp_vec_self _ hp, vdot_points hD, sub_self]
      simp [dotp, scalar]
    rw [e]
    refine ⟨w * w, mul_ne_zero hw hw, ?_, ?_, ?_⟩
    · have h := vdot_n_point hD c
      unfold vdot at h
      rw [prod_smul_right, lcont_vec_vec _ hn hp, h, prod_smul_left, prod_smul_right, Iso.sp_scalar, gp_scalar_left,
        Finsupp.smul_apply, scalar_zero_apply]
      unfold scalar
      rw [Finsupp.smul_single, Finsupp.smul_single]
      congr 1
      simp only [smul_eq_mul]; ring
    · rw [prod_smul_left, prod_smul_left, prod_smul_right, gp_assoc, gp_swap _ hp hn, vdot_comm _ hp hn,
        vdot_n_point hD, pp, prod_zero_right, sub_zero, smul_smul, smul_smul]
      congr 1; ring
    · rw [involute_smul, Iso.involute_vec hp, prod_smul_left, prod_smul_right, ← neg_one_smul ℝ, prod_smul_right,
        Iso.sp_scalar, pp]
      simp [scalar]
  · obtain ⟨P, R, κ, -, hn, hP, hR, h1, h2, hκ, hκ0, hPP, -, hc'⟩ := round_parts hD hx hc hρ h0
    have := round_facts (mq D) (m := k + 1) (X := w • roundThrough x) (P := P) (R := R) (c := minkowskiPointAt c)
      (κ := w * w * κ) (β := -ρ⁻¹) (ρ := ρ) (homog_smul _ (round_homog hD x)) hP hR
      (by rw [op_smul_right, h1, smul_zero]) (by rw [prod_smul_right, h2, smul_zero])
      (by
        rw [prod_smul_left, prod_smul_right, hκ]; unfold scalar
        rw [Finsupp.smul_single, Finsupp.smul_single]; simp only [smul_eq_mul, mul_assoc])
      (mul_ne_zero (mul_ne_zero hw hw) hκ0) hPP (by simpa using h0) hc' (by field_simp)
    rw [hn] at this
    exact ⟨_, this⟩

/-! ### Duals -/

/-- What is used of the inverse of a pseudoscalar. -/
structure Pseudo (D : Nat) (I : MV ℝ) (ι : ℝ) : Prop where
  homog : Homogeneous (D + 2) I
  lcont : ∀ A ∈ space ℝ (D + 2), orthProd (diagFactor (mq D)) .lcont A I = orthProd (diagFactor (mq D)) .gp A I
  square : orthProd (diagFactor (mq D)) .gp I I = scalar ι
  ne : ι ≠ 0

theorem Pseudo.inside {I : MV ℝ} {ι : ℝ} (h : Pseudo D I ι) {v : MV ℝ} (hv : Homogeneous 1 v)
    (hs : v ∈ space ℝ (D + 2)) : op v I = 0 := by
  rw [op_gp (mq D) hv, h.lcont v hs, sub_self]

/-- The parameters of a dual round. -/
theorem dual_round_values (hD : D ≤ 61) {x : Fin (k + 1) → Fin D → ℝ} (hx : AffineIndependent ℝ x) {c : Fin D → ℝ}
    (hc : c ∈ affineSpan ℝ (Set.range x)) {ρ : ℝ} (hρ : ∀ i, dotp (x i - c) (x i - c) = ρ) {w : ℝ} (hw : w ≠ 0)
    {I : MV ℝ} {ι : ℝ} (hI : Pseudo D I ι) :
    ∃ α, RoundFacts (mq D) (infinity D) (G (w • roundThrough x) I) (minkowskiPointAt c) (-ρ) α := by
  have hnI := hI.inside (infinity_homog hD) (infinity_space hD)
  by_cases h0 : ρ = 0
  · subst h0
    obtain ⟨-, e⟩ := round_point hx hρ
    rw [e, neg_zero]
    exact ⟨_, round_facts_dual_point (mq D) hI.homog (point_homog hD c) (infinity_homog hD)
      (hI.inside (point_homog hD c) (point_space hD c)) hnI hI.square hI.ne
      (by rw [vdot_points hD, sub_self]; simp [dotp]) (vdot_n_point hD c) hw⟩
  · obtain ⟨P, R, κ, hPs, hn, hP, hR, h1, h2, hκ, hκ0, -, hRR, hc'⟩ := round_parts hD hx hc hρ h0
    have hPI := hI.inside hP hPs
    have hRI : op R I = 0 := by
      have e : R = infinity D - P := by rw [← hn, add_sub_cancel_left]
      rw [e, sub_eq_add_neg, ← neg_one_smul ℝ P, op_add_left, op_smul_left, hnI, hPI, smul_zero, add_zero]
    have hX := homog_smul w (round_homog hD x)
    have hXs : w • roundThrough x ∈ space ℝ (D + 2) := Submodule.smul_mem _ _ (round_space hD x)
    have hκw : G (w • roundThrough x) (w • roundThrough x) = scalar (w * w * κ) := by
      rw [prod_smul_left, prod_smul_right, hκ]; unfold scalar
      rw [Finsupp.smul_single, Finsupp.smul_single]; simp only [smul_eq_mul, mul_assoc]
    obtain ⟨κ', h3, h4⟩ := dual_square (mq D) hI.homog hX (hI.lcont _ hXs) hI.square hI.ne hκw
      (mul_ne_zero (mul_ne_zero hw hw) hκ0)
    have := round_facts (mq D) (P := R) (R := P) (c := minkowskiPointAt c) (β := ρ⁻¹) (ρ := -ρ)
      (dual_homog (mq D) hI.homog hX (hI.lcont _ hXs)) hR hP
      (by rw [← gp_inside _ hR hRI, prod_smul_right, h2, smul_zero, prod_zero_left])
      (by rw [← gp_op_inside _ hP hPI, op_smul_right, h1, smul_zero, prod_zero_left])
      h4 h3 hRR (inv_ne_zero h0) (by rw [← neg_sub, hc', ← neg_smul]; congr 1; ring) (by rw [inv_inv])
    rw [add_comm R P, hn] at this
    exact ⟨_, this⟩

/-! ### Flats -/

/-- The values from which the location of a flat is computed. -/
structure Divides (q : Fin 64 → ℝ) (A W c : MV ℝ) : Prop where
  ne : rnormSqr (orthProd (diagFactor q)) W ≠ 0
  quotient : orthProd (diagFactor q) .gp A ((rnormSqr (orthProd (diagFactor q)) W)⁻¹ • reverse W) = c

theorem divides_of (q : Fin 64 → ℝ) {m : Nat} {A W c : MV ℝ} {κ : ℝ} (hW : Homogeneous m W)
    (h : orthProd (diagFactor q) .gp W W = scalar κ) (h0 : κ ≠ 0) (hA : A = orthProd (diagFactor q) .gp c W) :
    Divides q A W c := by
  obtain ⟨h1, h2⟩ := inverse_square q hW h h0
  refine ⟨h1, ?_⟩
  rw [h2, hA, prod_smul_right, gp_assoc, h, gp_scalar_right, smul_smul, inv_mul_cancel₀ h0, one_smul]

theorem flat_homog (hD : D ≤ 61) (x : Fin (k + 1) → Fin D → ℝ) : Homogeneous (k + 1 + 1) (flatThrough x) :=
  Iso.op_homog (round_homog hD x) (infinity_homog hD)

theorem flat_space (hD : D ≤ 61) (x : Fin (k + 1) → Fin D → ℝ) : flatThrough x ∈ space ℝ (D + 2) :=
  op_mem_space (round_space hD x) (infinity_space hD)

theorem outerProd_append (vs : List (MV ℝ)) (v : MV ℝ) : outerProd (vs ++ [v]) = op (outerProd vs) v := by
  induction vs with
  | nil => simp [outerProd, op_scalar_left, op_scalar_right]
  | cons w vs ih =>
    have e1 : outerProd (w :: vs ++ [v]) = op w (outerProd (vs ++ [v])) := rfl
    have e2 : outerProd (w :: vs) = op w (outerProd vs) := rfl
    rw [e1, e2, ih, op_assoc']

/-- The direction of a round and a flat. -/
theorem flat_contraction (hD : D ≤ 61) {x : Fin (k + 1) → Fin D → ℝ} (hx : AffineIndependent ℝ x) :
    L (infinity D) (flatThrough x) = -directionOf (fun i => x i.succ - x 0) ∧
      ∃ κ, κ ≠ 0 ∧ G (flatThrough x) (flatThrough x) = scalar κ := by
  obtain ⟨U, -, hLU, hU, hdir, κ, h0, hκ⟩ := round_contraction hD hx
  obtain ⟨h1, h2⟩ := flat_square (mq D) (infinity_homog hD) (vdot_nn hD) hLU
  have e : flatThrough x = op (roundThrough x) (infinity D) := rfl
  rw [← e] at h1 h2
  refine ⟨by rw [h1, hdir], ?_⟩
  have hv : ∀ v ∈ (List.ofFn fun i => minkowskiPointAt (x i)) ++ [infinity D], Homogeneous 1 v := by
    intro v hv
    rcases List.mem_append.mp hv with h | h
    · exact points_homog hD x v h
    · rw [List.mem_singleton.mp h]; exact infinity_homog hD
  obtain ⟨κ', hκ'⟩ := blade_square (mq D) hv
  have e2 : outerProd ((List.ofFn fun i => minkowskiPointAt (x i)) ++ [infinity D]) = flatThrough x :=
    outerProd_append _ _
  rw [e2] at hκ'
  rw [square_sp _ hκ', square_sp _ hκ] at h2
  exact ⟨κ', by rw [scalar_inj h2]; exact h0, hκ'⟩

/-- The decomposition of the origin. -/
theorem flat_parts (hD : D ≤ 61) {x : Fin (k + 1) → Fin D → ℝ} {c : Fin D → ℝ}
    (hc : c ∈ affineSpan ℝ (Set.range x)) (ho : ∀ i, dotp c (x i - c) = 0) :
    ∃ P R, P = minkowskiPointAt c + (dotp c c / 2) • infinity D ∧ P + R = origin D ∧ Homogeneous 1 P ∧ Homogeneous 1 R ∧
      P ∈ space ℝ (D + 2) ∧ op P (flatThrough x) = 0 ∧ L R (flatThrough x) = 0 := by
  have hn := infinity_homog hD
  obtain ⟨l, h1, h2⟩ := on_line hc
  have hs := combination h1 h2
  have hin := combination_inside hD x l
  rw [hs] at hin
  have hP : Homogeneous 1 (minkowskiPointAt c + (dotp c c / 2) • infinity D) :=
    homog_add (point_homog hD c) (homog_smul _ hn)
  have hR := Iso.homog_sub (origin_homog hD) hP
  have hpn : op (minkowskiPointAt c) (flatThrough x) = 0 ∧ op (infinity D) (flatThrough x) = 0 := by
    have h3 : op (infinity D) (flatThrough x) = 0 := by
      unfold flatThrough
      rw [op_vec_right hn, ← op_assoc', op_vec_self hn, op_zero_left]
    refine ⟨?_, h3⟩
    have h4 := congrArg (fun A => op A (infinity D)) hin
    simp only [op_zero_left] at h4
    rw [op_assoc'] at h4
    have e : op (roundThrough x) (infinity D) = flatThrough x := rfl
    rw [e, op_add_left, op_smul_left, h3, smul_zero, add_zero] at h4
    exact h4
  refine ⟨_, _, rfl, add_sub_cancel _ _, hP, hR, Submodule.add_mem _ (point_space hD c)
    (Submodule.smul_mem _ _ (infinity_space hD)), ?_, ?_⟩
  · rw [op_add_left, op_smul_left, hpn.1, hpn.2, smul_zero, add_zero]
  · have hv : ∀ v ∈ (List.ofFn fun i => minkowskiPointAt (x i)) ++ [infinity D], Homogeneous 1 v := by
      intro v hv
      rcases List.mem_append.mp hv with h | h
      · exact points_homog hD x v h
      · rw [List.mem_singleton.mp h]; exact infinity_homog hD
    have e2 : outerProd ((List.ofFn fun i => minkowskiPointAt (x i)) ++ [infinity D]) = flatThrough x :=
      outerProd_append _ _
    rw [← e2]
    refine lcont_outer _ hR hv ?_
    intro v hv
    rcases List.mem_append.mp hv with h | h
    · rw [List.mem_ofFn] at h
      obtain ⟨i, rfl⟩ := h
      have h5 := ho i
      rw [dotp_sub_right] at h5
      rw [vdot_sub_left, vdot_add_left, vdot_smul_left, vdot_o_point hD, vdot_points hD, vdot_n_point hD, dotp_sub_left,
        dotp_sub_right, dotp_sub_right, dotp_comm (x i) c]
      linear_combination -h5
    · rw [List.mem_singleton.mp h, vdot_sub_left, vdot_add_left, vdot_smul_left, vdot_on hD, vdot_nn hD,
        vdot_comm _ (point_homog hD c) hn, vdot_n_point hD]
      ring

/-- The location of a flat. -/
theorem flat_location (hD : D ≤ 61) {x : Fin (k + 1) → Fin D → ℝ} (hx : AffineIndependent ℝ x) {c : Fin D → ℝ}
    (hc : c ∈ affineSpan ℝ (Set.range x)) (ho : ∀ i, dotp c (x i - c) = 0) {w : ℝ} (hw : w ≠ 0) :
    Divides (mq D) (L (origin D) (w • flatThrough x)) (w • flatThrough x)
      (minkowskiPointAt c + (dotp c c / 2) • infinity D) := by
  obtain ⟨P, R, rfl, hn, hP, hR, hPs, h1, h2⟩ := flat_parts hD hc ho
  obtain ⟨-, κ, h0, hκ⟩ := flat_contraction hD hx
  refine divides_of _ (homog_smul _ (flat_homog hD x)) (κ := w * w * κ) ?_ (mul_ne_zero (mul_ne_zero hw hw) h0) ?_
  · rw [prod_smul_left, prod_smul_right, hκ]; unfold scalar
    rw [Finsupp.smul_single, Finsupp.smul_single]; simp only [smul_eq_mul, mul_assoc]
  · rw [prod_smul_right, prod_smul_right, ← hn, prod_add_left, h2, add_zero, gp_vector _ hP, h1, add_zero]

/-- The location of a dual flat. -/
theorem dual_flat_location (hD : D ≤ 61) {x : Fin (k + 1) → Fin D → ℝ} (hx : AffineIndependent ℝ x) {c : Fin D → ℝ}
    (hc : c ∈ affineSpan ℝ (Set.range x)) (ho : ∀ i, dotp c (x i - c) = 0) {w : ℝ} (hw : w ≠ 0)
    {I : MV ℝ} {ι : ℝ} (hI : Pseudo D I ι) :
    Divides (mq D) (op (origin D) (G (w • flatThrough x) I)) (G (w • flatThrough x) I)
      (minkowskiPointAt c + (dotp c c / 2) • infinity D) := by
  obtain ⟨P, R, rfl, hn, hP, hR, hPs, h1, h2⟩ := flat_parts hD hc ho
  obtain ⟨-, κ, h0, hκ⟩ := flat_contraction hD hx
  have hX := homog_smul w (flat_homog hD x)
  have hXs : w • flatThrough x ∈ space ℝ (D + 2) := Submodule.smul_mem _ _ (flat_space hD x)
  have hκw : G (w • flatThrough x) (w • flatThrough x) = scalar (w * w * κ) := by
    rw [prod_smul_left, prod_smul_right, hκ]; unfold scalar
    rw [Finsupp.smul_single, Finsupp.smul_single]; simp only [smul_eq_mul, mul_assoc]
  obtain ⟨κ', h3, h4⟩ := dual_square (mq D) hI.homog hX (hI.lcont _ hXs) hI.square hI.ne hκw
    (mul_ne_zero (mul_ne_zero hw hw) h0)
  refine divides_of _ (dual_homog (mq D) hI.homog hX (hI.lcont _ hXs)) h4 h3 ?_
  rw [← gp_inside _ (origin_homog hD) (hI.inside (origin_homog hD) (origin_space hD)), prod_smul_right, ← hn, prod_add_left,
    h2, add_zero, ← gp_assoc, prod_smul_right, gp_vector _ hP (flatThrough x), h1, add_zero]

/-! ### Tangents -/

theorem tangent_parts (hD : D ≤ 61) (x : Fin D → ℝ) {d : Fin k → Fin D → ℝ} (hd : LinearIndependent ℝ d) :
    ∃ B, Homogeneous k B ∧ tangentAt x d = G (minkowskiPointAt x) B ∧ L (infinity D) (tangentAt x d) = -B ∧
      op B (infinity D) = directionOf d ∧ (∃ κ, κ ≠ 0 ∧ G B B = scalar κ) ∧
      Homogeneous (1 + k) (tangentAt x d) ∧ tangentAt x d ∈ space ℝ (D + 2) ∧
      ∃ κ, κ ≠ 0 ∧ G (op (infinity D) (tangentAt x d)) (op (infinity D) (tangentAt x d)) = scalar κ := by
  obtain ⟨hH, hL, hdir, κ, h0, hκ⟩ := shifted hD hd (fun i => ∑ j, d i j * x j) rfl
  have hn := infinity_homog hD
  have hp := point_homog hD x
  have hb : ∀ v ∈ List.ofFn (fun i => direction (d i) + (∑ j, d i j * x j) • infinity D), Homogeneous 1 v := by
    intro v hv
    rw [List.mem_ofFn] at hv
    obtain ⟨i, rfl⟩ := hv
    exact homog_add (direction_homog (by omega) _) (homog_smul _ hn)
  have hpL : L (minkowskiPointAt x) (outerProd (List.ofFn fun i => direction (d i) + (∑ j, d i j * x j) • infinity D))
      = 0 := by
    refine lcont_outer _ hp hb ?_
    intro v hv
    rw [List.mem_ofFn] at hv
    obtain ⟨i, rfl⟩ := hv
    rw [vdot_add_right, vdot_smul_right, vdot_comm _ hp (direction_homog (by omega) _), vdot_dir_point hD,
      vdot_comm _ hp hn, vdot_n_point hD]
    unfold dotp; ring
  have e : tangentAt x d = op (minkowskiPointAt x)
      (outerProd (List.ofFn fun i => direction (d i) + (∑ j, d i j * x j) • infinity D)) := rfl
  have hLn : L (infinity D) (tangentAt x d)
      = -outerProd (List.ofFn fun i => direction (d i) + (∑ j, d i j * x j) • infinity D) := by
    rw [e, lcont_wedge _ hn hp, hL, op_zero_right, sub_zero, vdot_n_point hD, neg_one_smul]
  have hT : Homogeneous (1 + k) (tangentAt x d) := Iso.op_homog hp hH
  refine ⟨_, hH, ?_, hLn, hdir, ⟨κ, h0, hκ⟩, hT, ?_, ?_⟩
  · rw [e, gp_vector _ hp, hpL, zero_add]
  · refine op_mem_space (point_space hD x) (outer_mem_space ?_)
    intro v hv
    rw [List.mem_ofFn] at hv
    obtain ⟨i, rfl⟩ := hv
    exact Submodule.add_mem _ (space_mono (by omega) (direction_space (by omega) _))
      (Submodule.smul_mem _ _ (infinity_space hD))
  · obtain ⟨-, h2⟩ := flat_square (mq D) hn (vdot_nn hD) hLn
    have hv : ∀ v ∈ infinity D :: minkowskiPointAt x ::
        List.ofFn (fun i => direction (d i) + (∑ j, d i j * x j) • infinity D), Homogeneous 1 v := by
      intro v hv
      rcases List.mem_cons.mp hv with rfl | hv
      · exact hn
      rcases List.mem_cons.mp hv with rfl | hv
      · exact hp
      · exact hb v hv
    obtain ⟨κ', hκ'⟩ := blade_square (mq D) hv
    have e3 : outerProd (infinity D :: minkowskiPointAt x ::
        List.ofFn (fun i => direction (d i) + (∑ j, d i j * x j) • infinity D)) = op (infinity D) (tangentAt x d) := rfl
    rw [e3] at hκ'
    refine ⟨κ', ?_, hκ'⟩
    rw [op_vec_right hn, involute_homog hT, op_smul_right, prod_smul_left, prod_smul_right, smul_smul, sign_sq, one_smul,
      square_sp _ hκ', square_sp _ hκ] at h2
    rw [scalar_inj h2]; exact h0

theorem tangent_location (hD : D ≤ 61) (x : Fin D → ℝ) {d : Fin k → Fin D → ℝ} (hd : LinearIndependent ℝ d) {w : ℝ}
    (hw : w ≠ 0) :
    Divides (mq D) (w • tangentAt x d) (L (-infinity D) (w • tangentAt x d)) (minkowskiPointAt x) := by
  obtain ⟨B, hB, h1, h2, -, ⟨κ, h0, hκ⟩, -⟩ := tangent_parts hD x hd
  have e : L (-infinity D) (w • tangentAt x d) = w • B := by
    rw [prod_neg_left, prod_smul_right, h2, smul_neg, neg_neg]
  rw [e]
  refine divides_of _ (homog_smul _ hB) (κ := w * w * κ) ?_ (mul_ne_zero (mul_ne_zero hw hw) h0) ?_
  · rw [prod_smul_left, prod_smul_right, hκ]; unfold scalar
    rw [Finsupp.smul_single, Finsupp.smul_single]; simp only [smul_eq_mul, mul_assoc]
  · rw [prod_smul_right, h1]

theorem dual_tangent_location (hD : D ≤ 61) (x : Fin D → ℝ) {d : Fin k → Fin D → ℝ} (hd : LinearIndependent ℝ d) {w : ℝ}
    (hw : w ≠ 0) {I : MV ℝ} {ι : ℝ} (hI : Pseudo D I ι) :
    Divides (mq D) (G (w • tangentAt x d) I) (L (-infinity D) (G (w • tangentAt x d) I)) (minkowskiPointAt x) := by
  obtain ⟨B, hB, h1, h2, -, -, hT, hTs, κ, h0, hκ⟩ := tangent_parts hD x hd
  have hn := infinity_homog hD
  have hp := point_homog hD x
  have e : L (-infinity D) (G (w • tangentAt x d) I) = G ((-w) • op (infinity D) (tangentAt x d)) I := by
    rw [prod_neg_left, ← gp_op_inside _ hn (hI.inside hn (infinity_space hD)), op_smul_right, prod_smul_left,
      prod_smul_left, neg_smul]
  have hX : Homogeneous (1 + (1 + k)) ((-w) • op (infinity D) (tangentAt x d)) := homog_smul _ (Iso.op_homog hn hT)
  have hXs : (-w) • op (infinity D) (tangentAt x d) ∈ space ℝ (D + 2) :=
    Submodule.smul_mem _ _ (op_mem_space (infinity_space hD) hTs)
  have hκw : G ((-w) • op (infinity D) (tangentAt x d)) ((-w) • op (infinity D) (tangentAt x d))
      = scalar (w * w * κ) := by
    rw [prod_smul_left, prod_smul_right, hκ]; unfold scalar
    rw [Finsupp.smul_single, Finsupp.smul_single]; congr 1; simp only [smul_eq_mul]; ring
  obtain ⟨κ', h3, h4⟩ := dual_square (mq D) hI.homog hX (hI.lcont _ hXs) hI.square hI.ne hκw
    (mul_ne_zero (mul_ne_zero hw hw) h0)
  rw [e]
  refine divides_of _ (dual_homog (mq D) hI.homog hX (hI.lcont _ hXs)) h4 h3 ?_
  rw [← gp_assoc, prod_smul_right]
  have pp : G (minkowskiPointAt x) (minkowskiPointAt x) = 0 := by
    rw [gp_vec_self _ hp, vdot_points hD, sub_self]
    simp [dotp, scalar]
  have e5 : G (minkowskiPointAt x) (op (infinity D) (tangentAt x d)) = -tangentAt x d := by
    rw [op_gp (mq D) hn, h2, h1, sub_neg_eq_add, prod_add_right, ← gp_assoc, ← gp_assoc, gp_assoc (mq D) (minkowskiPointAt x),
      gp_swap _ hp hn, pp, prod_zero_right, sub_zero, vdot_comm _ hp hn, vdot_n_point hD, prod_smul_left]
    module
  rw [e5, smul_neg, neg_smul, neg_neg]

end GATL
