import Verif.Model.Minkowski
import Verif.Proofs.Minkowski
import Verif.Props.Rational

/-!
# Rounds, flats and tangents of the Minkowski model

**C59**, **C60**, **C61**.  `f.value (D + 1) 1 0 [X, e ℝ D, e ℝ (D + 1)]` is the value of the function `f` of the model
(`Verif/Model/Minkowski.lean`) at the multivector `X`; `MinkowskiModel.call D k τ ρ f M = some o` says that the call with
the object `M` compiles and returns the object `o`.  The multivectors are described in `Verif/Spec/Minkowski.lean`.
-/

namespace GATL.Props

open Expr Spec MinkowskiModel

variable {τ : Types} {ρ : Env} {D k n : Nat}

/-! ### Values -/

local notation "L" => orthProd (diagFactor (mq D)) GradedProduct.lcont
local notation "G" => orthProd (diagFactor (mq D)) GradedProduct.gp
local notation "S" => orthProd (diagFactor (mq D)) GradedProduct.sp

theorem roundLocation_value (hD : D ≤ 61) {X c : MV ℝ} {r α : ℝ} (h : RoundFacts (mq D) (infinity D) X c r α) :
    roundLocation.value (D + 1) 1 0 [X, e ℝ D, e ℝ (D + 1)] = some c := by
  have ha : -(2 * α) ≠ 0 := neg_ne_zero.mpr (mul_ne_zero two_ne_zero h.ne)
  obtain ⟨h1, h2⟩ := inverse_scalar (mq D) ha
  have e1 : e ℝ D + e ℝ (D + 1) = infinity D := rfl
  have e2 : G (Finsupp.single 0 ((-2 : ℤ) : ℝ)) (scalar α) = scalar (-(2 * α)) := by
    rw [gp_scalar_right]; unfold scalar
    rw [Finsupp.smul_single, smul_eq_mul]; congr 1; push_cast; ring
  simp only [roundLocation, ni, Rational.value, Program.value, List.getD_cons_zero, List.getD_cons_succ, List.cons_append,
    List.nil_append, minkowski_eq hD, e1, h.aux, e2, if_neg h1, h2, h.loc]
  rw [gp_scalar_right, smul_smul, inv_mul_cancel₀ ha, one_smul]

theorem primalRoundSizeSqr_value (hD : D ≤ 61) {X c : MV ℝ} {r α : ℝ} (h : RoundFacts (mq D) (infinity D) X c r α) :
    primalRoundSizeSqr.value (D + 1) 1 0 [X, e ℝ D, e ℝ (D + 1)] = some (scalar r) := by
  obtain ⟨h1, h2⟩ := inverse_scalar (mq D) h.ne
  have e1 : e ℝ D + e ℝ (D + 1) = infinity D := rfl
  simp only [primalRoundSizeSqr, ni, Rational.value, Program.value, List.getD_cons_zero, List.getD_cons_succ,
    List.cons_append, List.nil_append, minkowski_eq hD, e1, h.aux, if_neg h1, h2, h.size]
  rw [Iso.sp_scalar, gp_scalar_right, Finsupp.smul_apply, scalar_zero_apply, smul_eq_mul, ← mul_assoc,
    inv_mul_cancel₀ h.ne, one_mul]

theorem dualRoundSizeSqr_value (hD : D ≤ 61) {X c : MV ℝ} {r α : ℝ} (h : RoundFacts (mq D) (infinity D) X c r α) :
    dualRoundSizeSqr.value (D + 1) 1 0 [X, e ℝ D, e ℝ (D + 1)] = some (scalar (-r)) := by
  obtain ⟨h1, h2⟩ := inverse_scalar (mq D) h.ne
  have e1 : e ℝ D + e ℝ (D + 1) = infinity D := rfl
  simp only [dualRoundSizeSqr, ni, Rational.value, Program.value, List.getD_cons_zero, List.getD_cons_succ,
    List.cons_append, List.nil_append, minkowski_eq hD, e1, h.aux, if_neg h1, h2, h.size]
  rw [Iso.sp_scalar, gp_scalar_right, Finsupp.smul_apply, scalar_zero_apply, smul_eq_mul, ← mul_assoc,
    inv_mul_cancel₀ h.ne, one_mul]
  unfold scalar
  rw [Finsupp.single_neg]

theorem direction_value (hD : D ≤ 61) {X U A : MV ℝ} (h : L (infinity D) X = -U) (hU : op U (infinity D) = A) :
    primalDirection.value (D + 1) 1 0 [X, e ℝ D, e ℝ (D + 1)] = some A := by
  have e1 : e ℝ D + e ℝ (D + 1) = infinity D := rfl
  simp only [primalDirection, ni, Rational.value, Program.value, List.getD_cons_zero, List.getD_cons_succ,
    List.cons_append, List.nil_append, minkowski_eq hD, e1, prod_neg_left, h, neg_neg, hU]

theorem withOrigin_value (hD : D ≤ 61) (rest : Rational) (X : MV ℝ) :
    (withOrigin rest).value (D + 1) 1 0 [X, e ℝ D, e ℝ (D + 1)]
      = rest.value (D + 1) 1 0 [X, e ℝ D, e ℝ (D + 1), scalar (1 / 2), origin D] := by
  obtain ⟨h1, h2⟩ := inverse_scalar (mq D) (two_ne_zero (α := ℝ))
  have e1 : (Finsupp.single 0 ((2 : ℤ) : ℝ) : MV ℝ) = scalar 2 := by unfold scalar; norm_num
  simp only [withOrigin, Rational.value, Program.value, List.getD_cons_zero, List.getD_cons_succ, List.cons_append,
    List.nil_append, minkowski_eq hD, e1, if_neg h1, h2]
  rw [gp_scalar_right, one_div]
  unfold origin
  rw [one_div]

theorem primalFlatLocation_value (hD : D ≤ 61) {X c : MV ℝ} (h : Divides (mq D) (L (origin D) X) X c) :
    primalFlatLocation.value (D + 1) 1 0 [X, e ℝ D, e ℝ (D + 1)] = some c := by
  unfold primalFlatLocation
  rw [withOrigin_value hD]
  simp only [Rational.value, Program.value, List.getD_cons_zero, List.getD_cons_succ, List.cons_append,
    List.nil_append, minkowski_eq hD, if_neg h.ne, h.quotient]

theorem dualFlatLocation_value (hD : D ≤ 61) {X c : MV ℝ} (h : Divides (mq D) (op (origin D) X) X c) :
    dualFlatLocation.value (D + 1) 1 0 [X, e ℝ D, e ℝ (D + 1)] = some c := by
  unfold dualFlatLocation
  rw [withOrigin_value hD]
  simp only [Rational.value, Program.value, List.getD_cons_zero, List.getD_cons_succ, List.cons_append,
    List.nil_append, minkowski_eq hD, if_neg h.ne, h.quotient]

theorem tangentLocation_value (hD : D ≤ 61) {X c : MV ℝ} (h : Divides (mq D) X (L (-infinity D) X) c) :
    tangentLocation.value (D + 1) 1 0 [X, e ℝ D, e ℝ (D + 1)] = some c := by
  have e1 : e ℝ D + e ℝ (D + 1) = infinity D := rfl
  simp only [tangentLocation, ni, Rational.value, Program.value, List.getD_cons_zero, List.getD_cons_succ,
    List.cons_append, List.nil_append, minkowski_eq hD, e1, if_neg h.ne, h.quotient]

/-- The dual is the product with a pseudoscalar. -/
theorem dual_pseudo (hD : D ≤ 61) {b : ℝ} (hb : b ≠ 0) {A : MV ℝ} (hA : A ∈ space ℝ (D + 2)) :
    ∃ I ι, Pseudo D I ι ∧ dual (signedProd (D + 1) 1 0) (b • pseudoscalarOf ℝ (D + 2)) A = some (G A I) := by
  obtain ⟨c, hc, hinv, h1, -⟩ := full_inv (K := ℝ) (D + 1) 1 (by omega) b hb
  have hl : ∀ A ∈ space ℝ (D + 2), L A (c • pseudoscalarOf ℝ (D + 2)) = G A (c • pseudoscalarOf ℝ (D + 2)) :=
    fun A hA => lcont_full (mq D) (D + 2) c hA
  have e : D + 1 + 1 = D + 2 := rfl
  rw [e] at hinv h1
  refine ⟨c • pseudoscalarOf ℝ (D + 2), c * b⁻¹, ⟨?_, hl, ?_, mul_ne_zero hc (inv_ne_zero hb)⟩, ?_⟩
  · exact homog_smul _ (homog_single _ (vecs_full (D + 2) (by omega)))
  · rw [minkowski_eq hD, prod_smul_left] at h1
    rw [prod_smul_left]
    have h2 := congrArg ((c * b⁻¹) • ·) h1
    simp only [smul_smul] at h2
    rw [mul_assoc, inv_mul_cancel₀ hb, mul_one] at h2
    rw [h2]
    unfold scalar
    rw [Finsupp.smul_single, smul_eq_mul, mul_one]
  · unfold dual
    rw [hinv, Option.map_some, minkowski_eq hD, hl A hA]

/-! ### C59 -/

/-- The hypotheses of C59: the points `x` are affinely independent, `c` is the point of their affine hull at the same
distance from all of them, and `r` is the square of that distance. -/
structure RoundOf (x : Fin (k + 1) → Fin D → ℝ) (c : Fin D → ℝ) (r : ℝ) : Prop where
  independent : AffineIndependent ℝ x
  inside : c ∈ affineSpan ℝ (Set.range x)
  distance : ∀ i, ∑ j, (x i j - c j) ^ 2 = r

theorem RoundOf.dist {x : Fin (k + 1) → Fin D → ℝ} {c : Fin D → ℝ} {r : ℝ} (h : RoundOf x c r) (i : Fin (k + 1)) :
    dotp (x i - c) (x i - c) = r := by
  rw [dotp_sq, ← h.distance i]; rfl

/-- **C59** The location, the squared size and the direction of the round through points, with any weight `w ≠ 0`: the
centre, the square of the radius, and the direction spanned by the differences of the points. -/
theorem C59_primal (hD : D ≤ 61) {x : Fin (k + 1) → Fin D → ℝ} {c : Fin D → ℝ} {r : ℝ} (h : RoundOf x c r) {w : ℝ}
    (hw : w ≠ 0) :
    roundLocation.value (D + 1) 1 0 [w • roundThrough x, e ℝ D, e ℝ (D + 1)] = some (minkowskiPointAt c) ∧
    primalRoundSizeSqr.value (D + 1) 1 0 [w • roundThrough x, e ℝ D, e ℝ (D + 1)] = some (scalar r) ∧
    primalDirection.value (D + 1) 1 0 [w • roundThrough x, e ℝ D, e ℝ (D + 1)]
      = some (w • directionOf fun i => x i.succ - x 0) := by
  obtain ⟨α, hf⟩ := round_values hD h.independent h.inside h.dist hw
  obtain ⟨U, -, hLU, -, hdir, -⟩ := round_contraction hD h.independent
  refine ⟨roundLocation_value hD hf, primalRoundSizeSqr_value hD hf, direction_value hD (U := w • U) ?_ ?_⟩
  · rw [prod_smul_right, hLU, smul_neg]
  · rw [op_smul_left, hdir]

/-- **C59** The location and the squared size of the dual of a round, for every pseudoscalar `b I`: the same. -/
theorem C59_dual (hD : D ≤ 61) {x : Fin (k + 1) → Fin D → ℝ} {c : Fin D → ℝ} {r : ℝ} (h : RoundOf x c r) {w b : ℝ}
    (hw : w ≠ 0) (hb : b ≠ 0) :
    ∃ Y, dual (signedProd (D + 1) 1 0) (b • pseudoscalarOf ℝ (D + 2)) (w • roundThrough x) = some Y ∧
    roundLocation.value (D + 1) 1 0 [Y, e ℝ D, e ℝ (D + 1)] = some (minkowskiPointAt c) ∧
    dualRoundSizeSqr.value (D + 1) 1 0 [Y, e ℝ D, e ℝ (D + 1)] = some (scalar r) := by
  obtain ⟨I, ι, hI, hY⟩ := dual_pseudo hD hb (Submodule.smul_mem _ w (round_space hD x))
  obtain ⟨α, hf⟩ := dual_round_values hD h.independent h.inside h.dist hw hI
  refine ⟨_, hY, roundLocation_value hD hf, ?_⟩
  have := dualRoundSizeSqr_value hD hf
  rwa [neg_neg] at this

/-! ### C60 -/

/-- The hypotheses of C60: the points `x` are affinely independent, and `c` is the point of their affine hull closest to
the origin, that is, the point of the hull whose vector is orthogonal to it. -/
structure FlatOf (x : Fin (k + 1) → Fin D → ℝ) (c : Fin D → ℝ) : Prop where
  independent : AffineIndependent ℝ x
  inside : c ∈ affineSpan ℝ (Set.range x)
  orthogonal : ∀ i, ∑ j, c j * (x i j - c j) = 0

/-- **C60** The location and the direction of the flat through points, with any weight `w ≠ 0`: the location is
`no + c + |c|² ni`, where `c` is the point of the flat closest to the origin. -/
theorem C60_primal (hD : D ≤ 61) {x : Fin (k + 1) → Fin D → ℝ} {c : Fin D → ℝ} (h : FlatOf x c) {w : ℝ} (hw : w ≠ 0) :
    primalFlatLocation.value (D + 1) 1 0 [w • flatThrough x, e ℝ D, e ℝ (D + 1)]
      = some (origin D + direction c + (∑ j, c j ^ 2) • infinity D) ∧
    primalFlatDirection.value (D + 1) 1 0 [w • flatThrough x, e ℝ D, e ℝ (D + 1)]
      = some (w • directionOf fun i => x i.succ - x 0) := by
  have hc : minkowskiPointAt c + (dotp c c / 2) • infinity D = origin D + direction c + (∑ j, c j ^ 2) • infinity D := by
    rw [point_eq, ← dotp_sq]; module
  rw [← hc]
  refine ⟨primalFlatLocation_value hD (flat_location hD h.independent h.inside h.orthogonal hw), ?_⟩
  have e1 : e ℝ D + e ℝ (D + 1) = infinity D := rfl
  simp only [primalFlatDirection, ni, Rational.value, Program.value, List.getD_cons_zero, List.getD_cons_succ,
    List.cons_append, List.nil_append, minkowski_eq hD, e1, prod_neg_left, prod_smul_right,
    (flat_contraction hD h.independent).1, smul_neg, neg_neg]

/-- **C60** The location of the dual of a flat, for every pseudoscalar `b I`: the same. -/
theorem C60_dual (hD : D ≤ 61) {x : Fin (k + 1) → Fin D → ℝ} {c : Fin D → ℝ} (h : FlatOf x c) {w b : ℝ} (hw : w ≠ 0)
    (hb : b ≠ 0) :
    ∃ Y, dual (signedProd (D + 1) 1 0) (b • pseudoscalarOf ℝ (D + 2)) (w • flatThrough x) = some Y ∧
    dualFlatLocation.value (D + 1) 1 0 [Y, e ℝ D, e ℝ (D + 1)]
      = some (origin D + direction c + (∑ j, c j ^ 2) • infinity D) := by
  have hc : minkowskiPointAt c + (dotp c c / 2) • infinity D = origin D + direction c + (∑ j, c j ^ 2) • infinity D := by
    rw [point_eq, ← dotp_sq]; module
  rw [← hc]
  obtain ⟨I, ι, hI, hY⟩ := dual_pseudo hD hb (Submodule.smul_mem _ w (flat_space hD x))
  exact ⟨_, hY, dualFlatLocation_value hD (dual_flat_location hD h.independent h.inside h.orthogonal hw hI)⟩

/-! ### C61 -/

/-- **C61** The location and the direction of the tangent at the point `x` with independent directions `d`, with any
weight `w ≠ 0`. -/
theorem C61_primal (hD : D ≤ 61) (x : Fin D → ℝ) {d : Fin k → Fin D → ℝ} (hd : LinearIndependent ℝ d) {w : ℝ}
    (hw : w ≠ 0) :
    tangentLocation.value (D + 1) 1 0 [w • tangentAt x d, e ℝ D, e ℝ (D + 1)] = some (minkowskiPointAt x) ∧
    primalDirection.value (D + 1) 1 0 [w • tangentAt x d, e ℝ D, e ℝ (D + 1)] = some (w • directionOf d) := by
  obtain ⟨B, -, -, hL, hdir, -⟩ := tangent_parts hD x hd
  refine ⟨tangentLocation_value hD (tangent_location hD x hd hw), direction_value hD (U := w • B) ?_ ?_⟩
  · rw [prod_smul_right, hL, smul_neg]
  · rw [op_smul_left, hdir]

/-- **C61** The location of the dual of a tangent, for every pseudoscalar `b I`: the same. -/
theorem C61_dual (hD : D ≤ 61) (x : Fin D → ℝ) {d : Fin k → Fin D → ℝ} (hd : LinearIndependent ℝ d) {w b : ℝ}
    (hw : w ≠ 0) (hb : b ≠ 0) :
    ∃ Y, dual (signedProd (D + 1) 1 0) (b • pseudoscalarOf ℝ (D + 2)) (w • tangentAt x d) = some Y ∧
    tangentLocation.value (D + 1) 1 0 [Y, e ℝ D, e ℝ (D + 1)] = some (minkowskiPointAt x) := by
  have hs : tangentAt x d ∈ space ℝ (D + 2) := by
    obtain ⟨-, -, -, -, -, -, -, hs, -⟩ := tangent_parts hD x hd
    exact hs
  obtain ⟨I, ι, hI, hY⟩ := dual_pseudo hD hb (Submodule.smul_mem _ w hs)
  exact ⟨_, hY, tangentLocation_value hD (dual_tangent_location hD x hd hw hI)⟩

/-! ### Objects -/

theorem basis_stands {j m : Nat} (hj : j < m) (hm : m ≤ 62) : Stands ρ m (basisObject (j + 1)) (e ℝ j) := by
  have hb : ∀ i ∈ vecs ((1 : Word) <<< j), i.val < m := by
    intro i hi; rw [vecs_shift (by omega) i hi]; exact hj
  apply represents_stands
  refine ⟨⟨canonical_single ⟨_, rfl, fun i hi => by have := hb i hi; omega⟩, ?_⟩, ?_⟩
  · intro c hc
    simp only [basisObject, List.mem_cons, List.not_mem_nil, or_false] at hc
    subst hc
    exact .inr ⟨1, rfl⟩
  · have h1 : WellTyped m ((1 : ℝ), TBlade.const ((1 : Word) <<< j)) := hb
    have := Reads.cons (ρ := ρ) (.symbolic (.const 1) 1 rfl (.const 1) (by simp [Denotes, den])) (.const _) h1 .nil
    simpa [TBlade.bits, basisObject, e] using this

/-- A call with an argument that stands for `A` returns an object that stands for the value at `A`. -/
theorem call_stands (hD : D ≤ 60) {f : Rational} {M o : Object} {A B : MV ℝ} (hM : Stands ρ (D + 2) M A)
    (hv : f.value (D + 1) 1 0 [A, e ℝ D, e ℝ (D + 1)] = some B)
    (hq : NoIntegerDivision (D + 1) 1 0 n τ ρ [M, basisObject (D + 1), basisObject (D + 2)] f)
    (h : call D n τ ρ f M = some o) : Stands ρ (D + 2) o B :=
  C58_program_partial (P := D + 1) (Q := 1) (R := 0) (by omega) f _ _ o B
    (.cons hM (.cons (basis_stands (by omega) (by omega)) (.cons (basis_stands (by omega) (by omega)) .nil))) hv hq h

/-- The call of `f` with the argument `M`, if it compiles, returns an object that stands for `B`, unless its type
contains a quotient of two integers. -/
def Returns (D n : Nat) (τ : Types) (ρ : Env) (f : Rational) (M : Object) (B : MV ℝ) : Prop :=
  NoIntegerDivision (D + 1) 1 0 n τ ρ [M, basisObject (D + 1), basisObject (D + 2)] f →
    ∀ o, call D n τ ρ f M = some o → Stands ρ (D + 2) o B

/-- **C59** The functions of the library return the parameters of rounds, for every object that stands for a round or
for the dual of a round.

Missing: calls whose type contains a quotient of two integers, for which the claim is false
(`C59_integer_division_is_false`), and spaces of 61 dimensions. -/
theorem C59_objects_partial (hD : D ≤ 60) {x : Fin (k + 1) → Fin D → ℝ} {c : Fin D → ℝ} {r : ℝ} (h : RoundOf x c r)
    {w b : ℝ} (hw : w ≠ 0) (hb : b ≠ 0) (M : Object) :
    (Stands ρ (D + 2) M (w • roundThrough x) →
      Returns D n τ ρ roundLocation M (minkowskiPointAt c) ∧ Returns D n τ ρ primalRoundSizeSqr M (scalar r) ∧
      Returns D n τ ρ primalDirection M (w • directionOf fun i => x i.succ - x 0)) ∧
    (∀ Y, dual (signedProd (D + 1) 1 0) (b • pseudoscalarOf ℝ (D + 2)) (w • roundThrough x) = some Y →
      Stands ρ (D + 2) M Y →
      Returns D n τ ρ roundLocation M (minkowskiPointAt c) ∧ Returns D n τ ρ dualRoundSizeSqr M (scalar r)) := by
  obtain ⟨h1, h2, h3⟩ := C59_primal (by omega) h hw
  obtain ⟨Y, hY, h4, h5⟩ := C59_dual (by omega) h hw hb
  refine ⟨fun hM => ⟨fun hq o => call_stands hD hM h1 hq, fun hq o => call_stands hD hM h2 hq,
    fun hq o => call_stands hD hM h3 hq⟩, fun Z hZ hM => ?_⟩
  rw [hY, Option.some.injEq] at hZ
  subst hZ
  exact ⟨fun hq o => call_stands hD hM h4 hq, fun hq o => call_stands hD hM h5 hq⟩

/-- **C60** The functions of the library return the parameters of flats, for every object that stands for a flat or for
the dual of a flat.

Missing: calls whose type contains a quotient of two integers, and spaces of 61 dimensions. -/
theorem C60_objects_partial (hD : D ≤ 60) {x : Fin (k + 1) → Fin D → ℝ} {c : Fin D → ℝ} (h : FlatOf x c)
    {w b : ℝ} (hw : w ≠ 0) (hb : b ≠ 0) (M : Object) :
    (Stands ρ (D + 2) M (w • flatThrough x) →
      Returns D n τ ρ primalFlatLocation M (origin D + direction c + (∑ j, c j ^ 2) • infinity D) ∧
      Returns D n τ ρ primalFlatDirection M (w • directionOf fun i => x i.succ - x 0)) ∧
    (∀ Y, dual (signedProd (D + 1) 1 0) (b • pseudoscalarOf ℝ (D + 2)) (w • flatThrough x) = some Y →
      Stands ρ (D + 2) M Y →
      Returns D n τ ρ dualFlatLocation M (origin D + direction c + (∑ j, c j ^ 2) • infinity D)) := by
  obtain ⟨h1, h2⟩ := C60_primal (by omega) h hw
  obtain ⟨Y, hY, h4⟩ := C60_dual (by omega) h hw hb
  refine ⟨fun hM => ⟨fun hq o => call_stands hD hM h1 hq, fun hq o => call_stands hD hM h2 hq⟩, fun Z hZ hM => ?_⟩
  rw [hY, Option.some.injEq] at hZ
  subst hZ
  exact fun hq o => call_stands hD hM h4 hq

/-- **C61** The functions of the library return the parameters of tangents, for every object that stands for a tangent
or for the dual of a tangent.

Missing: calls whose type contains a quotient of two integers, and spaces of 61 dimensions. -/
theorem C61_objects_partial (hD : D ≤ 60) (x : Fin D → ℝ) {d : Fin k → Fin D → ℝ} (hd : LinearIndependent ℝ d)
    {w b : ℝ} (hw : w ≠ 0) (hb : b ≠ 0) (M : Object) :
    (Stands ρ (D + 2) M (w • tangentAt x d) →
      Returns D n τ ρ tangentLocation M (minkowskiPointAt x) ∧
      Returns D n τ ρ primalDirection M (w • directionOf d)) ∧
    (∀ Y, dual (signedProd (D + 1) 1 0) (b • pseudoscalarOf ℝ (D + 2)) (w • tangentAt x d) = some Y →
      Stands ρ (D + 2) M Y → Returns D n τ ρ tangentLocation M (minkowskiPointAt x)) := by
  obtain ⟨h1, h2⟩ := C61_primal (by omega) x hd hw
  obtain ⟨Y, hY, h4⟩ := C61_dual (by omega) x hd hw hb
  refine ⟨fun hM => ⟨fun hq o => call_stands hD hM h1 hq, fun hq o => call_stands hD hM h2 hq⟩, fun Z hZ hM => ?_⟩
  rw [hY, Option.some.injEq] at hZ
  subst hZ
  exact fun hq o => call_stands hD hM h4 hq

/-! ### Pairs of points on the line -/

/-- `a e1 ^ e2 + b e1 ^ e3 + s e2 ^ e3`, with literal `a` and `b` and a stored floating-point number `s`. -/
def pairObj (a b : Int) (s : ℝ) : Object :=
  ⟨true, [⟨.const a, .const 3⟩, ⟨.const b, .const 5⟩, ⟨.stored, .const 6⟩], [s], []⟩

theorem pair_round {p q : ℝ} (h : p ≠ q) : RoundOf (D := 1) ![![p], ![q]] ![(p + q) / 2] ((p - q) ^ 2 / 4) where
  independent := affineIndependent_of_ne ℝ fun h' => h (by simpa using congrFun h' 0)
  inside := by
    have := AffineMap.lineMap_mem_affineSpan_pair (1 / 2 : ℝ) ![p] ![q]
    have e : AffineMap.lineMap ![p] ![q] (1 / 2 : ℝ) = ![(p + q) / 2] := by
      ext i; fin_cases i; simp [AffineMap.lineMap_apply]; ring
    rw [e] at this
    rwa [Matrix.range_cons, Matrix.range_cons, Matrix.range_empty, Set.union_empty]
  distance := by
    intro i
    fin_cases i <;> simp <;> ring

theorem op_single_single (a b : ℝ) (A B : Word) :
    op (Finsupp.single A a) (Finsupp.single B b) = Finsupp.single (extMul A B).2 (a * b * (extMul A B).1) := by
  unfold op
  rw [bilin_single]

theorem line_point (v : ℝ) : minkowskiPointAt (D := 1) ![v]
    = Finsupp.single 1 v + Finsupp.single 2 ((v ^ 2 - 1) / 2) + Finsupp.single 4 ((v ^ 2 + 1) / 2) := by
  simp only [minkowskiPointAt, vectorOf, minkowskiCoords, Fin.sum_univ_succ, e]
  simp [Fin.snoc]
  rw [add_assoc]

theorem pair_value (w p q : ℝ) : w • roundThrough (D := 1) ![![p], ![q]]
    = Finsupp.single 3 (w * (q - p) * (p * q + 1) / 2) + Finsupp.single 5 (w * (q - p) * (p * q - 1) / 2)
      + Finsupp.single 6 (w * (p - q) * (p + q) / 2) := by
  have e1 : roundThrough (D := 1) ![![p], ![q]] = op (minkowskiPointAt (D := 1) ![p]) (minkowskiPointAt (D := 1) ![q]) := by
    simp [roundThrough, outerOf, op_scalar_right]
  rw [e1, line_point, line_point]
  simp only [op_add_left, op_add_right, op_single_single]
  have t : ∀ a b z, extMul a b = z → extMul a b = z := fun _ _ _ h => h
  simp only [t 1 1 (0, 1) (by decide +kernel), t 1 2 (1, 3) (by decide +kernel), t 1 4 (1, 5) (by decide +kernel),
    t 2 1 (-1, 3) (by decide +kernel), t 2 2 (0, 2) (by decide +kernel), t 2 4 (1, 6) (by decide +kernel),
    t 4 1 (-1, 5) (by decide +kernel), t 4 2 (-1, 6) (by decide +kernel), t 4 4 (0, 4) (by decide +kernel)]
  simp only [Int.cast_zero, mul_zero, Finsupp.single_zero, Int.cast_one, mul_one, Int.cast_neg, zero_add, add_zero]
  ext b
  simp only [Finsupp.smul_apply, Finsupp.add_apply, Finsupp.single_apply, smul_eq_mul]
  split_ifs <;> first | (subst_vars; simp at *; done) | ring

theorem pair_stands {a b : Int} (ha : a ≠ 0) (hb : b ≠ 0) (s : ℝ) :
    Stands ρ 3 (pairObj a b s) (Finsupp.single 3 (a : ℝ) + Finsupp.single 5 (b : ℝ) + Finsupp.single 6 s) := by
  apply represents_stands
  refine ⟨⟨⟨by simp [pairObj], ?_, ?_, .inr ?_⟩, ?_⟩, ?_⟩
  · intro c hc
    simp only [pairObj, List.mem_cons, List.not_mem_nil, or_false] at hc
    rcases hc with rfl | rfl | rfl <;> exact ⟨_, rfl, by decide⟩
  · simp only [pairObj, List.pairwise_cons, List.mem_cons, List.not_mem_nil, or_false, forall_eq_or_imp, forall_eq,
      Blade.const.injEq, List.Pairwise.nil, and_true, IsEmpty.forall_iff, implies_true]
    refine ⟨⟨?_, ?_⟩, ?_⟩ <;> (rintro a b rfl rfl; unfold Before; decide +kernel)
  · intro c hc
    simp only [pairObj, List.mem_cons, List.not_mem_nil, or_false] at hc
    rcases hc with rfl | rfl | rfl <;> simp [ha, hb]
  · intro c hc
    simp only [pairObj, List.mem_cons, List.not_mem_nil, or_false] at hc
    rcases hc with rfl | rfl | rfl <;> simp
  · have h1 : WellTyped 3 ((a : ℝ), TBlade.const 3) := by simp only [WellTyped]; decide
    have h2 : WellTyped 3 ((b : ℝ), TBlade.const 5) := by simp only [WellTyped]; decide
    have h3 : WellTyped 3 (s, TBlade.const 6) := by simp only [WellTyped]; decide
    have := Reads.cons (ρ := ρ) (.symbolic (.const a) a rfl (.const a) (by simp [Denotes, den])) (.const 3) h1
      (Reads.cons (.symbolic (.const b) b rfl (.const b) (by simp [Denotes, den])) (.const 5) h2
        (Reads.cons (.stored s) (.const 6) h3 .nil))
    simpa [TBlade.bits, pairObj, add_assoc] using this

/-- The types of the arguments. -/
def pairArgs (a b : Int) : List CSum :=
  [[⟨.const a, .const 3⟩, ⟨.const b, .const 5⟩, ⟨.value 1 0, .const 6⟩], [⟨.const 1, .const 2⟩], [⟨.const 1, .const 4⟩]]

/-! The pair of the points at 0 and `v`. -/

theorem pair_size_type : primalRoundSizeSqr.typeOf 2 1 0 200 (pairArgs 1 (-1)) =
    some [⟨.fn .mul [recip 4, powerOf (.value 1 0) (.const 2)], .const 0⟩] := by
  decide +kernel

theorem pair_size_quotients (s : ℝ) :
    NoIntegerDivision 2 1 0 200 τ ρ [pairObj 1 (-1) s, basisObject 2, basisObject 3] primalRoundSizeSqr := by
  intro e he
  rw [lazyType_pure (as := pairArgs 1 (-1)) (by rfl) pair_size_type] at he
  cases he
  intro c hc
  simp only [List.mem_cons, List.not_mem_nil, or_false] at hc
  subst hc
  simp only [NoIntQuotient, NoIntQuotientAll, powerOf, recip, and_true, true_and]
  intro pre l r h
  rcases pre with _ | ⟨a, _ | ⟨b, pre⟩⟩ <;> simp at h

theorem pair_size (s : ℝ) : ∃ o, call 1 200 τ ρ primalRoundSizeSqr (pairObj 1 (-1) s) = some o := by
  unfold call Rational.runLazy
  rw [lazyType_pure (as := pairArgs 1 (-1)) (by rfl) pair_size_type]
  exact ⟨_, contextObject_some (s' := [⟨.stored, .const 0⟩]) (vs := [4⁻¹ * (s * s)]) (ws := [])
    (by simp [storedInputs, hasStoredC, hasStored, pairObj]) (by rfl)
    (by simp [exec, eval, evalMul, evalPower, contextEnv, num2, asNumber, baseId, storedInputs, hasStoredC, hasStored,
      greaterIdC, greaterId, Blade.greaterId, pairObj, basisObject, recip])⟩

-- the theorem applies: the squared size of the pair of the points at 0 and `v` is `v ^ 2 / 4`
example (v : ℝ) (hv : v ≠ 0) : ∃ o, call 1 200 τ ρ primalRoundSizeSqr (pairObj 1 (-1) (-v)) = some o ∧
    Stands ρ 3 o (scalar ((0 - v) ^ 2 / 4)) := by
  obtain ⟨o, ho⟩ := pair_size (τ := τ) (ρ := ρ) (-v)
  have hM := pair_stands (ρ := ρ) one_ne_zero (neg_ne_zero.mpr one_ne_zero) (a := 1) (b := -1) (-v)
  have e1 := pair_value (2 / v) 0 v
  have e2 : (2 / v) * (v - 0) * (0 * v + 1) / 2 = ((1 : ℤ) : ℝ) := by push_cast; field_simp; ring
  have e3 : (2 / v) * (v - 0) * (0 * v - 1) / 2 = ((-1 : ℤ) : ℝ) := by push_cast; field_simp; ring
  have e4 : (2 / v) * (0 - v) * (0 + v) / 2 = -v := by field_simp; ring
  rw [e2, e3, e4] at e1
  rw [← e1] at hM
  exact ⟨o, ho, ((C59_objects_partial (D := 1) (by norm_num) (pair_round (Ne.symm hv)) (div_ne_zero two_ne_zero hv)
    one_ne_zero _).1 hM).2.1 (pair_size_quotients _) o ho⟩

/-! The pair of the points at `p` and `-3 / (2 p)`. -/

theorem pair_size_type' : primalRoundSizeSqr.typeOf 2 1 0 200 (pairArgs (-1) (-5)) =
    some [⟨.fn .add [.fn .mul [.const 3, recip 2], .fn .mul [recip 16, powerOf (.value 1 0) (.const 2)]], .const 0⟩] := by
  decide +kernel

/-- **C59 fails** where integers are divided: if the product of the positions is -3/2, the squared size that the
function returns for the pair of points is too small by 1/2. -/
theorem C59_integer_division_is_false (p q : ℝ) (h : p * q = -3 / 2) :
    RoundOf (D := 1) ![![p], ![q]] ![(p + q) / 2] ((p - q) ^ 2 / 4) ∧
    Stands ρ 3 (pairObj (-1) (-5) (-2 * (p + q))) ((4 / (q - p)) • roundThrough (D := 1) ![![p], ![q]]) ∧
    ∃ o, call 1 200 τ ρ primalRoundSizeSqr (pairObj (-1) (-5) (-2 * (p + q))) = some o ∧
      Stands ρ 3 o (scalar ((p - q) ^ 2 / 4 - 1 / 2)) := by
  have hpq : p ≠ q := by rintro rfl; nlinarith [mul_self_nonneg p]
  have hd : q - p ≠ 0 := sub_ne_zero.mpr hpq.symm
  refine ⟨pair_round hpq, ?_, ?_⟩
  · have hM := pair_stands (ρ := ρ) (a := -1) (b := -5) (by norm_num) (by norm_num) (-2 * (p + q))
    have e1 := pair_value (4 / (q - p)) p q
    have e2 : (4 / (q - p)) * (q - p) * (p * q + 1) / 2 = ((-1 : ℤ) : ℝ) := by
      rw [h]; push_cast; field_simp; ring
    have e3 : (4 / (q - p)) * (q - p) * (p * q - 1) / 2 = ((-5 : ℤ) : ℝ) := by
      rw [h]; push_cast; field_simp; ring
    have e4 : (4 / (q - p)) * (p - q) * (p + q) / 2 = -2 * (p + q) := by field_simp; ring
    rw [e2, e3, e4] at e1
    rwa [e1]
  · have hf : ⌊(3 / 2 : ℝ)⌋ = 1 := by rw [Int.floor_eq_iff]; norm_num
    have h0 : (0 : ℝ) ≤ 3 / 2 := by norm_num
    generalize hs : -2 * (p + q) = s
    have := contextObject_some (τ := τ) (ρ := ρ) (k := 200) (Ms := [pairObj (-1) (-5) s, basisObject 2, basisObject 3])
      (e := [⟨.fn .add [.fn .mul [.const 3, recip 2], .fn .mul [recip 16, powerOf (.value 1 0) (.const 2)]], .const 0⟩])
      (s' := [⟨.stored, .const 0⟩]) (vs := [1 + 16⁻¹ * (s * s)]) (ws := [])
      (by simp [storedInputs, hasStoredC, hasStored, pairObj]) (by rfl)
      (by simp [exec, eval, evalAdd, evalMul, evalPower, contextEnv, num2, asNumber, baseId, storedInputs, hasStoredC,
        hasStored, greaterIdC, greaterId, Blade.greaterId, pairObj, basisObject, recip, contextTypes, divide, floating,
        truncate, hf, h0])
    refine ⟨⟨_, _, _, _⟩, (by
      unfold call Rational.runLazy
      rw [lazyType_pure (as := pairArgs (-1) (-5)) (by rfl) pair_size_type']
      exact this), ?_⟩
    have e1 : (p - q) ^ 2 / 4 - 1 / 2 = 1 + 16⁻¹ * (s * s) := by
      rw [← hs]; linear_combination -h
    rw [e1]
    exact represents_stands (scalarObj_value (ρ := ρ) 3 _).2

-- the points at 1 and -3/2
example : (1 : ℝ) * (-3 / 2) = -3 / 2 := by norm_num

/-! ### Examples of the hypotheses -/

-- the circle around 0 through (1, 0), (-1, 0) and (0, 1)
theorem circle_round : RoundOf (D := 2) ![![1, 0], ![-1, 0], ![0, 1]] ![0, 0] 1 where
  independent := by
    rw [affineIndependent_iff_linearIndependent_vsub ℝ _ (0 : Fin 3),
      ← linearIndependent_equiv (finSuccAboveEquiv (0 : Fin 3)), Fintype.linearIndependent_iff]
    intro g hg
    have h0 := congrFun hg 0
    have h1 := congrFun hg 1
    have e0 : ((finSuccAboveEquiv (0 : Fin 3) 0 : {y : Fin 3 // y ≠ 0}) : Fin 3) = 1 := rfl
    have e1 : ((finSuccAboveEquiv (0 : Fin 3) 1 : {y : Fin 3 // y ≠ 0}) : Fin 3) = 2 := rfl
    simp [Fin.sum_univ_succ, e0, e1] at h0 h1
    rw [Fin.forall_fin_two]
    constructor <;> linarith
  inside := by
    have := AffineMap.lineMap_mem_affineSpan_pair (1 / 2 : ℝ) ![(1 : ℝ), 0] ![-1, 0]
    have e : AffineMap.lineMap ![(1 : ℝ), 0] ![-1, 0] (1 / 2 : ℝ) = ![0, 0] := by
      ext i; fin_cases i <;> simp [AffineMap.lineMap_apply]; norm_num
    rw [e] at this
    refine affineSpan_mono ℝ ?_ this
    rintro y (rfl | rfl)
    · exact ⟨0, rfl⟩
    · exact ⟨1, rfl⟩
  distance := by
    intro i
    fin_cases i <;> simp [Fin.sum_univ_succ]

-- the line through (3, 1) and (-2, 1): the point closest to the origin is (0, 1)
theorem line_flat : FlatOf (D := 2) ![![3, 1], ![-2, 1]] ![0, 1] where
  independent := affineIndependent_of_ne ℝ fun h => by have := congrFun h 0; norm_num at this
  inside := by
    have := AffineMap.lineMap_mem_affineSpan_pair (3 / 5 : ℝ) ![(3 : ℝ), 1] ![-2, 1]
    have e : AffineMap.lineMap ![(3 : ℝ), 1] ![-2, 1] (3 / 5 : ℝ) = ![0, 1] := by
      ext i; fin_cases i <;> simp [AffineMap.lineMap_apply]; norm_num
    rw [e] at this
    rwa [Matrix.range_cons, Matrix.range_cons, Matrix.range_empty, Set.union_empty]
  orthogonal := by
    intro i
    fin_cases i <;> simp [Fin.sum_univ_succ]

-- a tangent with the direction (2, 3)
theorem slope_independent : LinearIndependent ℝ (![![2, 3]] : Fin 1 → Fin 2 → ℝ) := by
  rw [linearIndependent_unique_iff]
  intro h; have := congrFun h 0; norm_num at this

end GATL.Props
