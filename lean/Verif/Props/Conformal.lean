import Verif.Model.Conformal
import Verif.Proofs.Conformal
import Verif.Props.Minkowski

/-!
# Rounds, flats and tangents of the conformal model

**C68**, **C69**, **C70**.  `f.valueIn (D + 2) m [X, e ℝ D, e ℝ (D + 1)]` is the value of the function `f` of the model
(`Verif/Model/Conformal.lean`) at the multivector `X`, where `m` are the products of the geometric algebra of the conformal
metric (`GeometricAlgebra`, `Verif/Spec/Programs.lean`); `ConformalModel.call D k τ ρ f M = some o` says that the call with
the object `M` compiles and returns the object `o`.  The multivectors are described in `Verif/Spec/Conformal.lean`.
-/

namespace GATL.Props

open Expr Spec ConformalModel

variable {τ : Types} {ρ : Env} {D k n : Nat} {m : Metric ℝ}

/-! ### Values in the Minkowski model -/

local notation "L" => orthProd (diagFactor (mq D)) GradedProduct.lcont
local notation "G" => orthProd (diagFactor (mq D)) GradedProduct.gp
local notation "S" => orthProd (diagFactor (mq D)) GradedProduct.sp
local notation "𝕄" => orthProd (diagFactor (mq D))

theorem cRoundLocation_value {X c : MV ℝ} {r α : ℝ} (h : RoundFacts (mq D) (infinity D) X c r α) :
    roundLocation.valueIn (D + 2) 𝕄 [X, origin D, infinity D] = some c := by
  have ha : -(2 * α) ≠ 0 := neg_ne_zero.mpr (mul_ne_zero two_ne_zero h.ne)
  obtain ⟨h1, h2⟩ := inverse_scalar (mq D) ha
  have e2 : G (Finsupp.single 0 ((-2 : ℤ) : ℝ)) (scalar α) = scalar (-(2 * α)) := by
    rw [gp_scalar_right]; unfold scalar
    rw [Finsupp.smul_single, smul_eq_mul]; congr 1; push_cast; ring
  simp only [roundLocation, Rational.valueIn, Program.valueIn, List.getD_cons_zero, List.getD_cons_succ, List.cons_append,
    List.nil_append, h.aux, e2, if_neg h1, h2, h.loc]
  rw [gp_scalar_right, smul_smul, inv_mul_cancel₀ ha, one_smul]

theorem cPrimalRoundSizeSqr_value {X c : MV ℝ} {r α : ℝ} (h : RoundFacts (mq D) (infinity D) X c r α) :
    primalRoundSizeSqr.valueIn (D + 2) 𝕄 [X, origin D, infinity D] = some (scalar r) := by
  obtain ⟨h1, h2⟩ := inverse_scalar (mq D) h.ne
  simp only [primalRoundSizeSqr, Rational.valueIn, Program.valueIn, List.getD_cons_zero, List.getD_cons_succ,
    List.cons_append, List.nil_append, h.aux, if_neg h1, h2, h.size]
  rw [Iso.sp_scalar, gp_scalar_right, Finsupp.smul_apply, scalar_zero_apply, smul_eq_mul, ← mul_assoc,
    inv_mul_cancel₀ h.ne, one_mul]

theorem cDualRoundSizeSqr_value {X c : MV ℝ} {r α : ℝ} (h : RoundFacts (mq D) (infinity D) X c r α) :
    dualRoundSizeSqr.valueIn (D + 2) 𝕄 [X, origin D, infinity D] = some (scalar (-r)) := by
  obtain ⟨h1, h2⟩ := inverse_scalar (mq D) h.ne
  simp only [dualRoundSizeSqr, Rational.valueIn, Program.valueIn, List.getD_cons_zero, List.getD_cons_succ,
    List.cons_append, List.nil_append, h.aux, if_neg h1, h2, h.size]
  rw [Iso.sp_scalar, gp_scalar_right, Finsupp.smul_apply, scalar_zero_apply, smul_eq_mul, ← mul_assoc,
    inv_mul_cancel₀ h.ne, one_mul]
  unfold scalar
  rw [Finsupp.single_neg]

theorem cDirection_value {X U A : MV ℝ} (h : L (infinity D) X = -U) (hU : op U (infinity D) = A) :
    primalDirection.valueIn (D + 2) 𝕄 [X, origin D, infinity D] = some A := by
  simp only [primalDirection, Rational.valueIn, Program.valueIn, List.getD_cons_zero, List.getD_cons_succ,
    prod_neg_left, h, neg_neg, hU]

theorem cTangentLocation_value {X c : MV ℝ} (h : Divides (mq D) X (L (-infinity D) X) c) :
    tangentLocation.valueIn (D + 2) 𝕄 [X, origin D, infinity D] = some c := by
  simp only [tangentLocation, Rational.valueIn, Program.valueIn, List.getD_cons_zero, List.getD_cons_succ,
    List.cons_append, List.nil_append, if_neg h.ne, h.quotient]

theorem cPrimalFlatLocation_value (hD : D ≤ 61) {X c : MV ℝ} {j : Nat} (hX : Homogeneous (j + 1) X) (hc : Homogeneous 1 c)
    (h : Divides (mq D) (L (origin D) X) X c) :
    primalFlatLocation.valueIn (D + 2) 𝕄 [X, origin D, infinity D] = some c := by
  simp only [primalFlatLocation, Rational.valueIn, Program.valueIn, List.getD_cons_zero, List.getD_cons_succ,
    List.cons_append, List.nil_append, if_neg h.ne]
  have hA : Homogeneous j (L (origin D) X) := by
    rw [orthMul_gradePart _ .lcont (origin_homog hD) hX (j : Int) (fun t => by simp [areValidGrades]; omega)]
    exact gradePart_homog _ _
  have hB : Homogeneous (j + 1) ((rnormSqr 𝕄 X)⁻¹ • reverse X) := homog_smul _ (by
    rw [reverse_homog hX]; exact homog_smul _ hX)
  rw [orthMul_gradePart _ .lcont hA hB 1 (fun t => by simp [areValidGrades]; omega), h.quotient,
    Iso.gradePart_of_homog hc]
  simp

theorem cDualFlatLocation_value (hD : D ≤ 61) {X c : MV ℝ} {j : Nat} (hX : Homogeneous j X) (hc : Homogeneous 1 c)
    (h : Divides (mq D) (op (origin D) X) X c) :
    dualFlatLocation.valueIn (D + 2) 𝕄 [X, origin D, infinity D] = some c := by
  simp only [dualFlatLocation, Rational.valueIn, Program.valueIn, List.getD_cons_zero, List.getD_cons_succ,
    List.cons_append, List.nil_append, if_neg h.ne]
  have hA : Homogeneous (1 + j) (op (origin D) X) := Iso.op_homog (origin_homog hD) hX
  have hB : Homogeneous j ((rnormSqr 𝕄 X)⁻¹ • reverse X) := homog_smul _ (by
    rw [reverse_homog hX]; exact homog_smul _ hX)
  rw [orthMul_gradePart _ .rcont hA hB 1 (fun t => by simp [areValidGrades]; omega), h.quotient,
    Iso.gradePart_of_homog hc]
  simp

/-! ### The conformal model -/

/-- The value in the conformal model follows from the value in the Minkowski model. -/
theorem from_minkowski (hD : D ≤ 5) (hm : GeometricAlgebra (D + 2) (conformalMetric D) m) {f : Rational}
    (hf : f.NoRegressive) {X B : MV ℝ} (hX : X ∈ space ℝ (D + 2)) (hB : B ∈ space ℝ (D + 2))
    (hv : f.valueIn (D + 2) 𝕄 [conformalMap D hD X, origin D, infinity D] = some (conformalMap D hD B)) :
    f.valueIn (D + 2) m [X, e ℝ D, e ℝ (D + 1)] = some B := by
  refine (conformal_transport hD hm).rational_eq (by omega) f hf ?_ hB ?_
  · simp only [List.mem_cons, List.not_mem_nil, or_false, forall_eq_or_imp, forall_eq]
    exact ⟨hX, near_space hD, far_space hD⟩
  · simpa only [List.map_cons, List.map_nil, map_origin, map_infinity] using hv

/-- The dual in the conformal model becomes the product with a pseudoscalar in the Minkowski model. -/
theorem conformal_dual (hD : D ≤ 5) (hm : GeometricAlgebra (D + 2) (conformalMetric D) m) {b : ℝ} (hb : b ≠ 0) {A : MV ℝ}
    (hA : A ∈ space ℝ (D + 2)) :
    ∃ Y I ι, dual m (b • pseudoscalarOf ℝ (D + 2)) A = some Y ∧ Y ∈ space ℝ (D + 2) ∧ Pseudo D I ι ∧
      conformalMap D hD Y = G (conformalMap D hD A) I := by
  obtain ⟨d, hd, e1⟩ := map_full hD hm
  have ht := conformal_transport hD hm
  obtain ⟨h1, h2⟩ := ht.dual (Submodule.smul_mem _ b (full_space hD)) hA
  obtain ⟨I, ι, hI, hY⟩ := dual_pseudo (D := D) (by omega) (mul_ne_zero hb hd)
    (A := conformalMap D hD A) (outerMap_space _ _ _)
  rw [map_smul, e1, smul_smul, ← minkowski_eq (by omega), hY] at h1
  obtain ⟨Y, hY', h3⟩ := Option.map_eq_some_iff.1 h1
  exact ⟨Y, I, ι, hY', h2 Y hY', hI, h3⟩

theorem scalar_map (hD : D ≤ 5) (a : ℝ) : conformalMap D hD (scalar a) = scalar a := outerMap_scalar _ _ a

/-- **C68** The location, the squared size and the direction of the round through points, with any weight `w ≠ 0`: the
centre, the square of the radius, and the direction spanned by the differences of the points. -/
theorem C68_primal (hD : D ≤ 5) (hm : GeometricAlgebra (D + 2) (conformalMetric D) m)
    {x : Fin (k + 1) → Fin D → ℝ} {c : Fin D → ℝ} {r : ℝ} (h : RoundOf x c r) {w : ℝ} (hw : w ≠ 0) :
    roundLocation.valueIn (D + 2) m [w • conformalRound x, e ℝ D, e ℝ (D + 1)] = some (conformalPointAt c) ∧
    primalRoundSizeSqr.valueIn (D + 2) m [w • conformalRound x, e ℝ D, e ℝ (D + 1)] = some (scalar r) ∧
    primalDirection.valueIn (D + 2) m [w • conformalRound x, e ℝ D, e ℝ (D + 1)]
      = some (w • conformalDirection fun i => x i.succ - x 0) := by
  have hD' : D ≤ 61 := by omega
  obtain ⟨α, hf⟩ := round_values hD' h.independent h.inside h.dist hw
  obtain ⟨U, -, hLU, -, hdir, -⟩ := round_contraction hD' h.independent
  obtain ⟨e1, hs⟩ := map_round hD x
  obtain ⟨e2, hs2⟩ := map_directionOf hD (fun i => x i.succ - x 0)
  have hX := Submodule.smul_mem _ w hs
  refine ⟨from_minkowski hD hm (by simp [roundLocation, Rational.NoRegressive, Program.NoRegressive]) hX
      (conformal_point_space c hD') ?_,
    from_minkowski hD hm (by simp [primalRoundSizeSqr, Rational.NoRegressive, Program.NoRegressive]) hX
      (scalar_space r) ?_,
    from_minkowski hD hm (by simp [primalDirection, Rational.NoRegressive, Program.NoRegressive]) hX
      (Submodule.smul_mem _ w hs2) ?_⟩
  · rw [map_smul, e1, map_point]; exact cRoundLocation_value hf
  · rw [map_smul, e1, scalar_map]; exact cPrimalRoundSizeSqr_value hf
  · rw [map_smul, e1, map_smul, e2]
    refine cDirection_value (U := w • U) ?_ ?_
    · rw [prod_smul_right, hLU, smul_neg]
    · rw [op_smul_left, hdir]

/-- **C68** The location and the squared size of the dual of a round, for every pseudoscalar `b I`: the same. -/
theorem C68_dual (hD : D ≤ 5) (hm : GeometricAlgebra (D + 2) (conformalMetric D) m)
    {x : Fin (k + 1) → Fin D → ℝ} {c : Fin D → ℝ} {r : ℝ} (h : RoundOf x c r) {w b : ℝ} (hw : w ≠ 0) (hb : b ≠ 0) :
    ∃ Y, dual m (b • pseudoscalarOf ℝ (D + 2)) (w • conformalRound x) = some Y ∧
    roundLocation.valueIn (D + 2) m [Y, e ℝ D, e ℝ (D + 1)] = some (conformalPointAt c) ∧
    dualRoundSizeSqr.valueIn (D + 2) m [Y, e ℝ D, e ℝ (D + 1)] = some (scalar r) := by
  have hD' : D ≤ 61 := by omega
  obtain ⟨e1, hs⟩ := map_round hD x
  obtain ⟨Y, I, ι, hY, hYs, hI, e2⟩ := conformal_dual hD hm hb (Submodule.smul_mem _ w hs)
  obtain ⟨α, hf⟩ := dual_round_values hD' h.independent h.inside h.dist hw hI
  rw [map_smul, e1] at e2
  refine ⟨Y, hY, from_minkowski hD hm (by simp [roundLocation, Rational.NoRegressive, Program.NoRegressive]) hYs
      (conformal_point_space c hD') ?_,
    from_minkowski hD hm (by simp [dualRoundSizeSqr, Rational.NoRegressive, Program.NoRegressive]) hYs (scalar_space r) ?_⟩
  · rw [e2, map_point]; exact cRoundLocation_value hf
  · rw [e2, scalar_map]
    have := cDualRoundSizeSqr_value hf
    rwa [neg_neg] at this

/-- **C69** The location and the direction of the flat through points, with any weight `w ≠ 0`: the location is
`no + c + |c|² ni`, where `c` is the point of the flat closest to the origin. -/
theorem C69_primal (hD : D ≤ 5) (hm : GeometricAlgebra (D + 2) (conformalMetric D) m)
    {x : Fin (k + 1) → Fin D → ℝ} {c : Fin D → ℝ} (h : FlatOf x c) {w : ℝ} (hw : w ≠ 0) :
    primalFlatLocation.valueIn (D + 2) m [w • conformalFlat x, e ℝ D, e ℝ (D + 1)]
      = some (e ℝ D + direction c + (∑ j, c j ^ 2) • e ℝ (D + 1)) ∧
    primalFlatDirection.valueIn (D + 2) m [w • conformalFlat x, e ℝ D, e ℝ (D + 1)]
      = some (w • conformalDirection fun i => x i.succ - x 0) := by
  have hD' : D ≤ 61 := by omega
  obtain ⟨e1, hs⟩ := map_flat hD x
  obtain ⟨e2, hs2⟩ := map_directionOf hD (fun i => x i.succ - x 0)
  have hX := Submodule.smul_mem _ w hs
  have hB : e ℝ D + direction c + (∑ j, c j ^ 2) • e ℝ (D + 1) ∈ space ℝ (D + 2) :=
    Submodule.add_mem _ (Submodule.add_mem _ (near_space hD) (dir_space hD c)) (Submodule.smul_mem _ _ (far_space hD))
  refine ⟨from_minkowski hD hm (by simp [primalFlatLocation, Rational.NoRegressive, Program.NoRegressive]) hX hB ?_,
    from_minkowski hD hm (by simp [primalFlatDirection, Rational.NoRegressive, Program.NoRegressive]) hX
      (Submodule.smul_mem _ w hs2) ?_⟩
  · have hc : minkowskiPointAt c + (dotp c c / 2) • infinity D = origin D + direction c + (∑ j, c j ^ 2) • infinity D := by
      rw [point_eq, ← dotp_sq]; module
    rw [map_smul, e1, map_add, map_add, map_smul, map_origin, map_direction, map_infinity, ← hc]
    exact cPrimalFlatLocation_value hD' (homog_smul _ (flat_homog hD' x))
      (homog_add (point_homog hD' c) (homog_smul _ (infinity_homog hD')))
      (flat_location hD' h.independent h.inside h.orthogonal hw)
  · rw [map_smul, e1, map_smul, e2]
    simp only [primalFlatDirection, Rational.valueIn, Program.valueIn, List.getD_cons_zero, List.getD_cons_succ,
      prod_neg_left, prod_smul_right, (flat_contraction hD' h.independent).1, smul_neg, neg_neg]

/-- **C69** The location of the dual of a flat, for every pseudoscalar `b I`: the same. -/
theorem C69_dual (hD : D ≤ 5) (hm : GeometricAlgebra (D + 2) (conformalMetric D) m)
    {x : Fin (k + 1) → Fin D → ℝ} {c : Fin D → ℝ} (h : FlatOf x c) {w b : ℝ} (hw : w ≠ 0) (hb : b ≠ 0) :
    ∃ Y, dual m (b • pseudoscalarOf ℝ (D + 2)) (w • conformalFlat x) = some Y ∧
    dualFlatLocation.valueIn (D + 2) m [Y, e ℝ D, e ℝ (D + 1)]
      = some (e ℝ D + direction c + (∑ j, c j ^ 2) • e ℝ (D + 1)) := by
  have hD' : D ≤ 61 := by omega
  obtain ⟨e1, hs⟩ := map_flat hD x
  obtain ⟨Y, I, ι, hY, hYs, hI, e2⟩ := conformal_dual hD hm hb (Submodule.smul_mem _ w hs)
  rw [map_smul, e1] at e2
  have hB : e ℝ D + direction c + (∑ j, c j ^ 2) • e ℝ (D + 1) ∈ space ℝ (D + 2) :=
    Submodule.add_mem _ (Submodule.add_mem _ (near_space hD) (dir_space hD c)) (Submodule.smul_mem _ _ (far_space hD))
  refine ⟨Y, hY,
    from_minkowski hD hm (by simp [dualFlatLocation, Rational.NoRegressive, Program.NoRegressive]) hYs hB ?_⟩
  have hc : minkowskiPointAt c + (dotp c c / 2) • infinity D = origin D + direction c + (∑ j, c j ^ 2) • infinity D := by
    rw [point_eq, ← dotp_sq]; module
  rw [e2, map_add, map_add, map_smul, map_origin, map_direction, map_infinity, ← hc]
  have hX : Homogeneous (k + 1 + 1) (w • flatThrough x) := homog_smul _ (flat_homog hD' x)
  exact cDualFlatLocation_value hD' (dual_homog (mq D) hI.homog hX (hI.lcont _ (Submodule.smul_mem _ w (flat_space hD' x))))
    (homog_add (point_homog hD' c) (homog_smul _ (infinity_homog hD')))
    (dual_flat_location hD' h.independent h.inside h.orthogonal hw hI)

/-- **C70** The location and the direction of the tangent at the point `x` with independent directions `d`, with any
weight `w ≠ 0`. -/
theorem C70_primal (hD : D ≤ 5) (hm : GeometricAlgebra (D + 2) (conformalMetric D) m) (x : Fin D → ℝ)
    {d : Fin k → Fin D → ℝ} (hd : LinearIndependent ℝ d) {w : ℝ} (hw : w ≠ 0) :
    tangentLocation.valueIn (D + 2) m [w • conformalTangent x d, e ℝ D, e ℝ (D + 1)] = some (conformalPointAt x) ∧
    primalDirection.valueIn (D + 2) m [w • conformalTangent x d, e ℝ D, e ℝ (D + 1)]
      = some (w • conformalDirection d) := by
  have hD' : D ≤ 61 := by omega
  obtain ⟨B, -, -, hL, hdir, -⟩ := tangent_parts hD' x hd
  obtain ⟨e1, hs⟩ := map_tangent hD x d
  obtain ⟨e2, hs2⟩ := map_directionOf hD d
  have hX := Submodule.smul_mem _ w hs
  refine ⟨from_minkowski hD hm (by simp [tangentLocation, Rational.NoRegressive, Program.NoRegressive]) hX
      (conformal_point_space x hD') ?_,
    from_minkowski hD hm (by simp [primalDirection, Rational.NoRegressive, Program.NoRegressive]) hX
      (Submodule.smul_mem _ w hs2) ?_⟩
  · rw [map_smul, e1, map_point]; exact cTangentLocation_value (tangent_location hD' x hd hw)
  · rw [map_smul, e1, map_smul, e2]
    refine cDirection_value (U := w • B) ?_ ?_
    · rw [prod_smul_right, hL, smul_neg]
    · rw [op_smul_left, hdir]

/-- **C70** The location of the dual of a tangent, for every pseudoscalar `b I`: the same. -/
theorem C70_dual (hD : D ≤ 5) (hm : GeometricAlgebra (D + 2) (conformalMetric D) m) (x : Fin D → ℝ)
    {d : Fin k → Fin D → ℝ} (hd : LinearIndependent ℝ d) {w b : ℝ} (hw : w ≠ 0) (hb : b ≠ 0) :
    ∃ Y, dual m (b • pseudoscalarOf ℝ (D + 2)) (w • conformalTangent x d) = some Y ∧
    tangentLocation.valueIn (D + 2) m [Y, e ℝ D, e ℝ (D + 1)] = some (conformalPointAt x) := by
  have hD' : D ≤ 61 := by omega
  obtain ⟨e1, hs⟩ := map_tangent hD x d
  obtain ⟨Y, I, ι, hY, hYs, hI, e2⟩ := conformal_dual hD hm hb (Submodule.smul_mem _ w hs)
  rw [map_smul, e1] at e2
  refine ⟨Y, hY, from_minkowski hD hm (by simp [tangentLocation, Rational.NoRegressive, Program.NoRegressive]) hYs
      (conformal_point_space x hD') ?_⟩
  rw [e2, map_point]
  exact cTangentLocation_value (dual_tangent_location hD' x hd hw hI)

/-! ### Objects -/

/-- A call with an argument that stands for `A` returns an object that stands for the value at `A`. -/
theorem conformal_call_stands (hD : D ≤ 5) (hm : GeometricAlgebra (D + 2) (conformalMetric D) m) {f : Rational} {M o : Object}
    {A B : MV ℝ} (hM : Stands ρ (D + 2) M A) (hv : f.valueIn (D + 2) m [A, e ℝ D, e ℝ (D + 1)] = some B)
    (hq : NoIntegerDivisionIn (conformalSpace D) n τ ρ
      [M, MinkowskiModel.basisObject (D + 1), MinkowskiModel.basisObject (D + 2)] f)
    (h : call D n τ ρ f M = some o) : Stands ρ (D + 2) o B :=
  C67_conformal_inverses_partial hD hm _ _
    (.cons hM (.cons (basis_stands (by omega) (by omega)) (.cons (basis_stands (by omega) (by omega)) .nil))) f o B hv hq h

/-- The call of `f` with the argument `M`, if it compiles, returns an object that stands for `B`, unless its type
contains a quotient of two integers. -/
def ConformalReturns (D n : Nat) (τ : Types) (ρ : Env) (f : Rational) (M : Object) (B : MV ℝ) : Prop :=
  NoIntegerDivisionIn (conformalSpace D) n τ ρ
    [M, MinkowskiModel.basisObject (D + 1), MinkowskiModel.basisObject (D + 2)] f →
    ∀ o, call D n τ ρ f M = some o → Stands ρ (D + 2) o B

/-- **C68** The functions of the library return the parameters of rounds, for every object that stands for a round or
for the dual of a round.

Missing: calls whose type contains a quotient of two integers, and spaces of more than five dimensions (see C18). -/
theorem C68_objects_partial (hD : D ≤ 5) (hm : GeometricAlgebra (D + 2) (conformalMetric D) m)
    {x : Fin (k + 1) → Fin D → ℝ} {c : Fin D → ℝ} {r : ℝ} (h : RoundOf x c r) {w b : ℝ} (hw : w ≠ 0) (hb : b ≠ 0)
    (M : Object) :
    (Stands ρ (D + 2) M (w • conformalRound x) →
      ConformalReturns D n τ ρ roundLocation M (conformalPointAt c) ∧
      ConformalReturns D n τ ρ primalRoundSizeSqr M (scalar r) ∧
      ConformalReturns D n τ ρ primalDirection M (w • conformalDirection fun i => x i.succ - x 0)) ∧
    (∀ Y, dual m (b • pseudoscalarOf ℝ (D + 2)) (w • conformalRound x) = some Y → Stands ρ (D + 2) M Y →
      ConformalReturns D n τ ρ roundLocation M (conformalPointAt c) ∧
      ConformalReturns D n τ ρ dualRoundSizeSqr M (scalar r)) := by
  obtain ⟨h1, h2, h3⟩ := C68_primal hD hm h hw
  obtain ⟨Y, hY, h4, h5⟩ := C68_dual hD hm h hw hb
  refine ⟨fun hM => ⟨fun hq o => conformal_call_stands hD hm hM h1 hq, fun hq o => conformal_call_stands hD hm hM h2 hq,
    fun hq o => conformal_call_stands hD hm hM h3 hq⟩, fun Z hZ hM => ?_⟩
  rw [hY, Option.some.injEq] at hZ
  subst hZ
  exact ⟨fun hq o => conformal_call_stands hD hm hM h4 hq, fun hq o => conformal_call_stands hD hm hM h5 hq⟩

/-- **C69** The functions of the library return the parameters of flats, for every object that stands for a flat or for
the dual of a flat.

Missing: as for C68. -/
theorem C69_objects_partial (hD : D ≤ 5) (hm : GeometricAlgebra (D + 2) (conformalMetric D) m)
    {x : Fin (k + 1) → Fin D → ℝ} {c : Fin D → ℝ} (h : FlatOf x c) {w b : ℝ} (hw : w ≠ 0) (hb : b ≠ 0) (M : Object) :
    (Stands ρ (D + 2) M (w • conformalFlat x) →
      ConformalReturns D n τ ρ primalFlatLocation M (e ℝ D + direction c + (∑ j, c j ^ 2) • e ℝ (D + 1)) ∧
      ConformalReturns D n τ ρ primalFlatDirection M (w • conformalDirection fun i => x i.succ - x 0)) ∧
    (∀ Y, dual m (b • pseudoscalarOf ℝ (D + 2)) (w • conformalFlat x) = some Y → Stands ρ (D + 2) M Y →
      ConformalReturns D n τ ρ dualFlatLocation M (e ℝ D + direction c + (∑ j, c j ^ 2) • e ℝ (D + 1))) := by
  obtain ⟨h1, h2⟩ := C69_primal hD hm h hw
  obtain ⟨Y, hY, h4⟩ := C69_dual hD hm h hw hb
  refine ⟨fun hM => ⟨fun hq o => conformal_call_stands hD hm hM h1 hq, fun hq o => conformal_call_stands hD hm hM h2 hq⟩,
    fun Z hZ hM => ?_⟩
  rw [hY, Option.some.injEq] at hZ
  subst hZ
  exact fun hq o => conformal_call_stands hD hm hM h4 hq

/-- **C70** The functions of the library return the parameters of tangents, for every object that stands for a tangent
or for the dual of a tangent.

Missing: as for C68. -/
theorem C70_objects_partial (hD : D ≤ 5) (hm : GeometricAlgebra (D + 2) (conformalMetric D) m) (x : Fin D → ℝ)
    {d : Fin k → Fin D → ℝ} (hd : LinearIndependent ℝ d) {w b : ℝ} (hw : w ≠ 0) (hb : b ≠ 0) (M : Object) :
    (Stands ρ (D + 2) M (w • conformalTangent x d) →
      ConformalReturns D n τ ρ tangentLocation M (conformalPointAt x) ∧
      ConformalReturns D n τ ρ primalDirection M (w • conformalDirection d)) ∧
    (∀ Y, dual m (b • pseudoscalarOf ℝ (D + 2)) (w • conformalTangent x d) = some Y → Stands ρ (D + 2) M Y →
      ConformalReturns D n τ ρ tangentLocation M (conformalPointAt x)) := by
  obtain ⟨h1, h2⟩ := C70_primal hD hm x hd hw
  obtain ⟨Y, hY, h4⟩ := C70_dual hD hm x hd hw hb
  refine ⟨fun hM => ⟨fun hq o => conformal_call_stands hD hm hM h1 hq, fun hq o => conformal_call_stands hD hm hM h2 hq⟩,
    fun Z hZ hM => ?_⟩
  rw [hY, Option.some.injEq] at hZ
  subst hZ
  exact fun hq o => conformal_call_stands hD hm hM h4 hq

/-! ### Pairs of points on the line -/

theorem conformal_line_point (v : ℝ) : conformalPointAt (D := 1) ![v]
    = Finsupp.single 1 v + Finsupp.single 2 1 + Finsupp.single 4 (v ^ 2 / 2) := by
  simp only [conformalPointAt, vectorOf, conformalCoords, Fin.sum_univ_succ, e]
  simp [Fin.snoc]
  rw [add_assoc]

theorem conformal_pair_value (w p q : ℝ) : w • conformalRound (D := 1) ![![p], ![q]]
    = Finsupp.single 3 (w * (p - q)) + Finsupp.single 5 (w * (q - p) * (p * q) / 2)
      + Finsupp.single 6 (w * (q - p) * (p + q) / 2) := by
  have e1 : conformalRound (D := 1) ![![p], ![q]]
      = op (conformalPointAt (D := 1) ![p]) (conformalPointAt (D := 1) ![q]) := by
    simp [conformalRound, outerOf, op_scalar_right]
  rw [e1, conformal_line_point, conformal_line_point]
  simp only [op_add_left, op_add_right, op_single_single]
  have t : ∀ a b z, extMul a b = z → extMul a b = z := fun _ _ _ h => h
  simp only [t 1 1 (0, 1) (by decide +kernel), t 1 2 (1, 3) (by decide +kernel), t 1 4 (1, 5) (by decide +kernel),
    t 2 1 (-1, 3) (by decide +kernel), t 2 2 (0, 2) (by decide +kernel), t 2 4 (1, 6) (by decide +kernel),
    t 4 1 (-1, 5) (by decide +kernel), t 4 2 (-1, 6) (by decide +kernel), t 4 4 (0, 4) (by decide +kernel)]
  simp only [Int.cast_zero, mul_zero, Finsupp.single_zero, Int.cast_one, mul_one, Int.cast_neg, zero_add, add_zero]
  ext b
  simp only [Finsupp.smul_apply, Finsupp.add_apply, Finsupp.single_apply, smul_eq_mul]
  split_ifs <;> first | (subst_vars; simp at *; done) | ring

/-! The pair of the points at `p` and `q = -1 / p`. -/

theorem conformal_location_type : roundLocation.typeOfIn (conformalSpace 1) 100 (pairArgs 2 1) =
    some [⟨.fn .mul [.const (-4), recip 8, .value 1 0], .const 1⟩, ⟨.const 1, .const 2⟩,
      ⟨.fn .mul [recip 8, powerOf (.value 1 0) (.const 2)], .const 4⟩] := by
  decide +kernel

theorem conformal_location_quotients (s : ℝ) : NoIntegerDivisionIn (conformalSpace 1) 100 τ ρ
    [pairObj 2 1 s, MinkowskiModel.basisObject 2, MinkowskiModel.basisObject 3] roundLocation := by
  intro e he
  rw [lazyTypeIn_pure (as := pairArgs 2 1) (by rfl) conformal_location_type] at he
  cases he
  intro c hc
  simp only [List.mem_cons, List.not_mem_nil, or_false] at hc
  rcases hc with rfl | rfl | rfl
  all_goals
    simp only [NoIntQuotient, NoIntQuotientAll, powerOf, recip, and_true, true_and]
  all_goals
    intro pre l r h
    rcases pre with _ | ⟨a, _ | ⟨b, _ | ⟨c, pre⟩⟩⟩ <;> simp at h

theorem conformal_location (s : ℝ) : ∃ o, call 1 100 τ ρ roundLocation (pairObj 2 1 s) = some o := by
  unfold call Rational.runLazyIn
  rw [lazyTypeIn_pure (as := pairArgs 2 1) (by rfl) conformal_location_type]
  exact ⟨_, contextObject_some (s' := [⟨.stored, .const 1⟩, ⟨.const 1, .const 2⟩, ⟨.stored, .const 4⟩])
    (vs := [-(4 * (8⁻¹ * s)), 8⁻¹ * (s * s)]) (ws := [])
    (by simp [storedInputs, hasStoredC, hasStored, pairObj]) (by rfl)
    (by simp [exec, eval, evalMul, evalPower, contextEnv, num2, asNumber, baseId, storedInputs, hasStoredC, hasStored,
      greaterIdC, greaterId, Blade.greaterId, pairObj, MinkowskiModel.basisObject, recip])⟩

-- the theorem applies: the location of the pair of the points at `p` and `q` with `p q = -1` is the point half way
example {m : Metric ℝ} (hm : GeometricAlgebra 3 (conformalMetric 1) m) (p q : ℝ) (h : p * q = -1) :
    ∃ o, call 1 100 τ ρ roundLocation (pairObj 2 1 (-(p + q))) = some o ∧
      Stands ρ 3 o (conformalPointAt ![(p + q) / 2]) := by
  have hpq : p ≠ q := by rintro rfl; nlinarith [mul_self_nonneg p]
  have hd : p - q ≠ 0 := sub_ne_zero.mpr hpq
  obtain ⟨o, ho⟩ := conformal_location (τ := τ) (ρ := ρ) (-(p + q))
  have hM := pair_stands (ρ := ρ) (a := 2) (b := 1) (by norm_num) (by norm_num) (-(p + q))
  have e1 := conformal_pair_value (2 / (p - q)) p q
  have e2 : (2 / (p - q)) * (p - q) = ((2 : ℤ) : ℝ) := by push_cast; field_simp
  have e3 : (2 / (p - q)) * (q - p) * (p * q) / 2 = ((1 : ℤ) : ℝ) := by rw [h]; push_cast; field_simp; ring
  have e4 : (2 / (p - q)) * (q - p) * (p + q) / 2 = -(p + q) := by field_simp; ring
  rw [e2, e3, e4] at e1
  rw [← e1] at hM
  exact ⟨o, ho, ((C68_objects_partial (D := 1) (by norm_num) hm (pair_round hpq) (div_ne_zero two_ne_zero hd)
    one_ne_zero _).1 hM).1 (conformal_location_quotients _) o ho⟩

-- the points at 1 and -1
example : (1 : ℝ) * -1 = -1 := by norm_num

/-! The pair of the points at `p` and `-3 / (2 p)`. -/

theorem conformal_size_type : primalRoundSizeSqr.typeOfIn (conformalSpace 1) 100 (pairArgs 4 3) =
    some [⟨.fn .add [.fn .mul [.const 3, recip 2], .fn .mul [recip 16, powerOf (.value 1 0) (.const 2)]], .const 0⟩] := by
  decide +kernel

/-- **C68 fails** where integers are divided: if the product of the positions is -3/2, the squared size that the
function returns for the pair of points is too small by 1/2. -/
theorem C68_integer_division_is_false (p q : ℝ) (h : p * q = -3 / 2) :
    RoundOf (D := 1) ![![p], ![q]] ![(p + q) / 2] ((p - q) ^ 2 / 4) ∧
    Stands ρ 3 (pairObj 4 3 (-2 * (p + q))) ((4 / (p - q)) • conformalRound (D := 1) ![![p], ![q]]) ∧
    ∃ o, call 1 100 τ ρ primalRoundSizeSqr (pairObj 4 3 (-2 * (p + q))) = some o ∧
      Stands ρ 3 o (scalar ((p - q) ^ 2 / 4 - 1 / 2)) := by
  have hpq : p ≠ q := by rintro rfl; nlinarith [mul_self_nonneg p]
  have hd : p - q ≠ 0 := sub_ne_zero.mpr hpq
  refine ⟨pair_round hpq, ?_, ?_⟩
  · have hM := pair_stands (ρ := ρ) (a := 4) (b := 3) (by norm_num) (by norm_num) (-2 * (p + q))
    have e1 := conformal_pair_value (4 / (p - q)) p q
    have e2 : (4 / (p - q)) * (p - q) = ((4 : ℤ) : ℝ) := by push_cast; field_simp
    have e3 : (4 / (p - q)) * (q - p) * (p * q) / 2 = ((3 : ℤ) : ℝ) := by rw [h]; push_cast; field_simp; ring
    have e4 : (4 / (p - q)) * (q - p) * (p + q) / 2 = -2 * (p + q) := by field_simp; ring
    rw [e2, e3, e4] at e1
    rwa [e1]
  · have hf : ⌊(3 / 2 : ℝ)⌋ = 1 := by rw [Int.floor_eq_iff]; norm_num
    have h0 : (0 : ℝ) ≤ 3 / 2 := by norm_num
    generalize hs : -2 * (p + q) = s
    have := contextObject_some (τ := τ) (ρ := ρ) (k := 100)
      (Ms := [pairObj 4 3 s, MinkowskiModel.basisObject 2, MinkowskiModel.basisObject 3])
      (e := [⟨.fn .add [.fn .mul [.const 3, recip 2], .fn .mul [recip 16, powerOf (.value 1 0) (.const 2)]], .const 0⟩])
      (s' := [⟨.stored, .const 0⟩]) (vs := [1 + 16⁻¹ * (s * s)]) (ws := [])
      (by simp [storedInputs, hasStoredC, hasStored, pairObj]) (by rfl)
      (by simp [exec, eval, evalAdd, evalMul, evalPower, contextEnv, num2, asNumber, baseId, storedInputs, hasStoredC,
        hasStored, greaterIdC, greaterId, Blade.greaterId, pairObj, MinkowskiModel.basisObject, recip, contextTypes, divide,
        floating, truncate, hf, h0])
    refine ⟨⟨_, _, _, _⟩, (by
      unfold call Rational.runLazyIn
      rw [lazyTypeIn_pure (as := pairArgs 4 3) (by rfl) conformal_size_type]
      exact this), ?_⟩
    have e1 : (p - q) ^ 2 / 4 - 1 / 2 = 1 + 16⁻¹ * (s * s) := by
      rw [← hs]; linear_combination -h
    rw [e1]
    exact represents_stands (scalarObj_value (ρ := ρ) 3 _).2

-- the points at 1 and -3/2
example : (1 : ℝ) * (-3 / 2) = -3 / 2 := by norm_num

-- the products of the conformal model exist
example : ∃ m, GeometricAlgebra (3 + 2) (conformalMetric 3) m := (C67_algebra (by norm_num) _).1

-- the circle around 0 through (1, 0), (-1, 0) and (0, 1), and its dual
example {m : Metric ℝ} (hm : GeometricAlgebra 4 (conformalMetric 2) m) :
    roundLocation.valueIn 4 m [(3 : ℝ) • conformalRound (D := 2) ![![1, 0], ![-1, 0], ![0, 1]], e ℝ 2, e ℝ 3]
      = some (conformalPointAt ![0, 0]) :=
  (C68_primal (D := 2) (by norm_num) hm circle_round (by norm_num)).1

example {m : Metric ℝ} (hm : GeometricAlgebra 4 (conformalMetric 2) m) :
    ∃ Y, dual m ((1 : ℝ) • pseudoscalarOf ℝ 4) ((3 : ℝ) • conformalRound (D := 2) ![![1, 0], ![-1, 0], ![0, 1]]) = some Y ∧
      dualRoundSizeSqr.valueIn 4 m [Y, e ℝ 2, e ℝ 3] = some (scalar 1) := by
  obtain ⟨Y, h1, -, h2⟩ := C68_dual (D := 2) (by norm_num) hm circle_round (w := 3) (by norm_num) one_ne_zero
  exact ⟨Y, h1, h2⟩

-- the line through (3, 1) and (-2, 1)
example {m : Metric ℝ} (hm : GeometricAlgebra 4 (conformalMetric 2) m) :
    primalFlatLocation.valueIn 4 m [(3 : ℝ) • conformalFlat (D := 2) ![![3, 1], ![-2, 1]], e ℝ 2, e ℝ 3]
      = some (e ℝ 2 + direction ![0, 1] + (1 : ℝ) • e ℝ 3) := by
  have := (C69_primal (D := 2) (by norm_num) hm line_flat (w := 3) (by norm_num)).1
  simpa [Fin.sum_univ_two] using this

-- the tangent at (5, 7) with the direction (2, 3)
example {m : Metric ℝ} (hm : GeometricAlgebra 4 (conformalMetric 2) m) :
    tangentLocation.valueIn 4 m [(3 : ℝ) • conformalTangent ![5, 7] ![![2, 3]], e ℝ 2, e ℝ 3]
      = some (conformalPointAt ![5, 7]) :=
  (C70_primal (D := 2) (by norm_num) hm _ slope_independent (by norm_num)).1

end GATL.Props
