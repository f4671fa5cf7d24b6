import Verif.Proofs.Minkowski
import Verif.Proofs.Rotor
import Verif.Model.Rotor
import Verif.Props.Compile
import Verif.Props.Exp
import Verif.Props.Versor

/-!
# Rotors

**C80**: exponentials of planes rotate, boost and translate.

`op u w` is the plane of the orthogonal vectors `u` and `w`, `IsExponential P Q R B E` says that the exponential series of
`B` converges to `E`; `C37_exponential` says when `exp` returns `E`.  `applyRotor` is `apply_rotor`.
-/

namespace GATL.Props

open Expr Spec

variable {τ : Types} {ρ : Env} {P Q R k k' D : Nat}

theorem isometry_orthogonal (h : P + Q + R ≤ 63) {F : MV ℝ →ₗ[ℝ] MV ℝ} (hF : Iso (sqs P Q R) F) : Orthogonal P Q R F := by
  have e := signed_sqs (P := P) (Q := Q) (R := R) h
  refine ⟨?_, hF.op, ?_, hF.scalar_fixed, hF.gradePart, fun k A hA => hF.homog hA, ?_⟩
  · rw [e]; exact hF.mul
  · rw [e]; exact hF.prod
  · rw [e]
    intro A B
    have := hF.prod .sp A B
    rw [← this, Iso.sp_scalar, hF.scalar_fixed]

/-- **C80** The exponential of a plane is a rotor: its reverse is its inverse, and applying it is an orthogonal
transformation. -/
theorem C80_rotor (hN : P + Q + R ≤ 63) {u w E : MV ℝ} (hu : Homogeneous 1 u) (hw : Homogeneous 1 w)
    (h : vecDot P Q R u w = 0) {t : ℝ} (hE : IsExponential P Q R (t • op u w) E) :
    signedProd P Q R .gp E (reverse E) = scalar 1 ∧ signedProd P Q R .gp (reverse E) E = scalar 1 ∧
    ∃ F : MV ℝ →ₗ[ℝ] MV ℝ, Orthogonal P Q R F ∧ ∀ A, applyRotor (signedProd P Q R) E A = F A := by
  obtain ⟨h1, h2, F, hF, he⟩ := rotor_isometry hN hu hw h hE
  exact ⟨h1, h2, F, isometry_orthogonal hN hF, fun A => (he A).symm⟩

/-- **C80** The exponential of `-θ/2 u^w` rotates by the angle `θ` from `u` to `w`, for orthogonal vectors of square
one. -/
theorem C80_rotation (hN : P + Q + R ≤ 63) {u w E x : MV ℝ} (hu : Homogeneous 1 u) (hw : Homogeneous 1 w)
    (hx : Homogeneous 1 x) (h : vecDot P Q R u w = 0) (h1 : vecDot P Q R u u = 1) (h2 : vecDot P Q R w w = 1) {θ : ℝ}
    (hE : IsExponential P Q R (-(θ / 2) • op u w) E) :
    applyRotor (signedProd P Q R) E x = rotated P Q R θ u w x :=
  applyRotor_rotated hN hu hw h h1 h2 hE hx

/-- **C80** The exponential of `-θ/2 u^w` is the boost with rapidity `θ`, for orthogonal vectors of squares one and minus
one. -/
theorem C80_boost (hN : P + Q + R ≤ 63) {u w E x : MV ℝ} (hu : Homogeneous 1 u) (hw : Homogeneous 1 w)
    (hx : Homogeneous 1 x) (h : vecDot P Q R u w = 0) (h1 : vecDot P Q R u u = 1) (h2 : vecDot P Q R w w = -1) {θ : ℝ}
    (hE : IsExponential P Q R (-(θ / 2) • op u w) E) :
    applyRotor (signedProd P Q R) E x = boosted P Q R θ u w x :=
  applyRotor_boosted hN hu hw h h1 h2 hE hx

/-- **C80** The exponential of `-θ/2 u^w` where `w` is a null vector orthogonal to `u`. -/
theorem C80_shear (hN : P + Q + R ≤ 63) {u w E x : MV ℝ} (hu : Homogeneous 1 u) (hw : Homogeneous 1 w)
    (hx : Homogeneous 1 x) (h : vecDot P Q R u w = 0) (h2 : vecDot P Q R w w = 0) {θ : ℝ}
    (hE : IsExponential P Q R (-(θ / 2) • op u w) E) :
    applyRotor (signedProd P Q R) E x = sheared P Q R θ u w x :=
  applyRotor_sheared hN hu hw h h2 hE hx

/-! ### The Minkowski model -/

theorem mq_eq : sqs (D + 1) 1 0 = mq D := rfl

/-- **C80** In the Minkowski model, the exponential of `-1/2 t^ni` translates points by the vector `t`. -/
theorem C80_translation (hD : D ≤ 61) (t x : Fin D → ℝ) {E : MV ℝ}
    (hE : IsExponential (D + 1) 1 0 (-(1 / 2 : ℝ) • op (direction t) (infinity D)) E) :
    applyRotor (signedProd (D + 1) 1 0) E (minkowskiPointAt x) = minkowskiPointAt (x + t) := by
  have ht := direction_homog (by omega : D ≤ 63) t
  have hn := infinity_homog hD
  have hx := point_homog hD x
  have hN : D + 1 + 1 + 0 ≤ 63 := by omega
  rw [C80_shear hN ht hn hx (by rw [vecDot_eq hN ht hn, mq_eq, vdot_comm _ ht hn, vdot_n_dir hD])
    (by rw [vecDot_eq hN hn hn, mq_eq, vdot_nn hD]) hE]
  unfold sheared
  rw [vecDot_eq hN ht hx, vecDot_eq hN hn hx, vecDot_eq hN ht ht, mq_eq, vdot_dir_point hD, vdot_n_point hD,
    show vdot (mq D) (direction t) (direction t) = dotp t t from vdot_dir_dir hD t t, point_eq, point_eq, direction_add,
    dotp_add_left, dotp_comm x (x + t), dotp_comm t (x + t), dotp_add_left, dotp_add_left, dotp_comm x t]
  module

/-- **C80** In the Minkowski model, the exponential of `-θ/2 u^w`, for orthogonal unit vectors of the Euclidean space,
rotates points about the origin. -/
theorem C80_point_rotation (hD : D ≤ 61) (u w x : Fin D → ℝ) (huw : ∑ i, u i * w i = 0) (hu1 : ∑ i, u i * u i = 1)
    (hw1 : ∑ i, w i * w i = 1) {θ : ℝ} {E : MV ℝ}
    (hE : IsExponential (D + 1) 1 0 (-(θ / 2) • op (direction u) (direction w)) E) :
    applyRotor (signedProd (D + 1) 1 0) E (minkowskiPointAt x) = minkowskiPointAt (turned θ u w x) := by
  have hu := direction_homog (by omega : D ≤ 63) u
  have hw := direction_homog (by omega : D ≤ 63) w
  have hx := point_homog hD x
  have hN : D + 1 + 1 + 0 ≤ 63 := by omega
  rw [C80_rotation hN hu hw hx (by rw [vecDot_eq hN hu hw, mq_eq, vdot_dir_dir hD, huw])
    (by rw [vecDot_eq hN hu hu, mq_eq, vdot_dir_dir hD, hu1]) (by rw [vecDot_eq hN hw hw, mq_eq, vdot_dir_dir hD, hw1]) hE]
  unfold rotated
  rw [vecDot_eq hN hu hx, vecDot_eq hN hw hx, mq_eq, vdot_dir_point hD, vdot_dir_point hD, point_eq x, point_eq (turned θ u w x)]
  have e : dotp (turned θ u w x) (turned θ u w x) = dotp x x := by
    unfold turned
    change dotp u w = 0 at huw
    change dotp u u = 1 at hu1
    change dotp w w = 1 at hw1
    simp only [show ∑ i, u i * x i = dotp u x from rfl, show ∑ i, w i * x i = dotp w x from rfl]
    have hr : ∀ x y z : Fin D → ℝ, dotp z (x + y) = dotp z x + dotp z y := fun x y z => by
      rw [dotp_comm, dotp_add_left, dotp_comm x, dotp_comm y]
    have hr' : ∀ (c : ℝ) (x z : Fin D → ℝ), dotp z (c • x) = c * dotp z x := fun c x z => by
      rw [dotp_comm, dotp_smul_left, dotp_comm]
    simp only [dotp_add_left, dotp_sub_left, dotp_sub_right, dotp_smul_left, hr, hr', dotp_comm w u, dotp_comm x u, dotp_comm x w,
      huw, hu1, hw1]
    linear_combination (dotp u x ^ 2 + dotp w x ^ 2) * Real.sin_sq_add_cos_sq θ
  rw [e]
  unfold turned
  simp only [show ∑ i, u i * x i = dotp u x from rfl, show ∑ i, w i * x i = dotp w x from rfl]
  rw [direction_add, direction_sub, direction_add, direction_add, direction_smul, direction_smul, direction_smul, direction_smul]
  module

/-- **C80** In the Minkowski model, the exponential of `-θ/2 e+^e-` scales the space by `exp θ`, up to the weight of the
points. -/
theorem C80_scaling (hD : D ≤ 61) (x : Fin D → ℝ) {θ : ℝ} {E : MV ℝ}
    (hE : IsExponential (D + 1) 1 0 (-(θ / 2) • op (e ℝ D) (e ℝ (D + 1))) E) :
    applyRotor (signedProd (D + 1) 1 0) E (minkowskiPointAt x) = Real.exp (-θ) • minkowskiPointAt (Real.exp θ • x) := by
  have hu : Homogeneous 1 (e ℝ D) := e_homog (by omega)
  have hw : Homogeneous 1 (e ℝ (D + 1)) := e_homog (by omega)
  have hx := point_homog hD x
  have hN : D + 1 + 1 + 0 ≤ 63 := by omega
  rw [C80_boost hN hu hw hx (by rw [vecDot_eq hN hu hw, mq_eq, vdot_ef hD])
    (by rw [vecDot_eq hN hu hu, mq_eq, vdot_ee hD]) (by rw [vecDot_eq hN hw hw, mq_eq, vdot_ff hD]) hE]
  unfold boosted
  have d1 : vdot (mq D) (e ℝ D) (direction x) = 0 := vdot_absent _ (by omega) (direction_space (by omega) x)
  have d2 : vdot (mq D) (e ℝ (D + 1)) (direction x) = 0 :=
    vdot_absent _ (by omega) (space_mono (Nat.le_succ D) (direction_space (by omega) x))
  have a1 : vdot (mq D) (e ℝ D) (minkowskiPointAt x) = dotp x x / 2 - 1 / 2 := by
    rw [point_eq, vdot_add_right, vdot_add_right, d1]
    unfold origin infinity
    simp only [vdot_smul_right, vdot_sub_right, vdot_add_right, vdot_ee hD, vdot_ef hD]
    ring
  have a2 : vdot (mq D) (e ℝ (D + 1)) (minkowskiPointAt x) = -(dotp x x / 2) - 1 / 2 := by
    rw [point_eq, vdot_add_right, vdot_add_right, d2]
    unfold origin infinity
    simp only [vdot_smul_right, vdot_sub_right, vdot_add_right, vdot_ff hD, vdot_fe hD]
    ring
  have h1 : Real.exp (-θ) * Real.exp θ = 1 := by rw [← Real.exp_add]; simp
  have e1 : dotp (Real.exp θ • x) (Real.exp θ • x) = Real.exp θ ^ 2 * dotp x x := by
    rw [dotp_smul_left, dotp_comm, dotp_smul_left]; ring
  rw [vecDot_eq hN hu hx, vecDot_eq hN hw hx, mq_eq, a1, a2, point_eq, point_eq, e1, direction_smul, Real.cosh_eq, Real.sinh_eq,
    smul_add, smul_add, smul_smul, smul_smul, h1, one_smul,
    show Real.exp (-θ) * (Real.exp θ ^ 2 * dotp x x / 2) = Real.exp θ * dotp x x / 2 by linear_combination (Real.exp θ * dotp x x / 2) * h1]
  unfold origin infinity
  module

/-! ### Calls of `exp` and `apply_rotor` -/

theorem rotorProgram_value (E x : MV ℝ) :
    rotorProgram.value P Q R [E, x] = applyRotor (signedProd P Q R) E x := rfl

/-- **C80** `apply_rotor` of stored multivectors. -/
theorem C80_call (hN : P + Q + R ≤ 62) (V X o : Object) (E x : MV ℝ) (hV : Represents ρ (P + Q + R) V E)
    (hX : Represents ρ (P + Q + R) X x) (h : rotorObject P Q R k τ ρ V X = some o) :
    Represents ρ (P + Q + R) o (applyRotor (signedProd P Q R) E x) :=
  C25_lazy P Q R hN k [V, X] [E, x] (.cons hV (.cons hX .nil)) rotorProgram o h

theorem plane_gp (hN : P + Q + R ≤ 63) {u w : MV ℝ} (hu : Homogeneous 1 u) (hw : Homogeneous 1 w) (h : vecDot P Q R u w = 0)
    (t : ℝ) : signedProd P Q R .gp (t • op u w) (t • op u w) =
      Finsupp.single 0 (-(t ^ 2 * (vecDot P Q R u u * vecDot P Q R w w))) := by
  rw [vecDot_eq hN hu hw] at h
  rw [signed_sqs hN, rotor_op hu hw h, prod_smul_left, prod_smul_right, rotor_square hu hw h, ← vecDot_eq hN hu hu,
    ← vecDot_eq hN hw hw]
  unfold scalar
  simp only [Finsupp.smul_single, smul_eq_mul]
  congr 1; ring

/-- Planes have exponentials. -/
theorem exponential_exists (hN : P + Q + R ≤ 63) {u w : MV ℝ} (hu : Homogeneous 1 u) (hw : Homogeneous 1 w)
    (h : vecDot P Q R u w = 0) (t : ℝ) : ∃ E, IsExponential P Q R (t • op u w) E := by
  have hd : ∀ x : ℝ, (0 : ℝ) < |x| ∨ x = 0 := fun x => by
    by_cases h0 : x = 0
    · exact .inr h0
    · exact .inl (abs_pos.2 h0)
  obtain ⟨h1, h2⟩ := series_coef (Real.sq_sqrt (abs_nonneg _)) (hd (-(t ^ 2 * (vecDot P Q R u u * vecDot P Q R w w)))) le_rfl
  exact ⟨_, exponential_of hN (plane_gp hN hu hw h t) h1 h2⟩

/-- **C80** `apply_rotor(exp(B, tol), X)` for `B = t u^w`, where `u` and `w` are orthogonal vectors, applies the exponential
of `B` if the square of `B` is zero or exceeds the tolerance. -/
theorem C80_exp_call (hN : P + Q + R ≤ 62) (M T X o o' : Object) (u w x : MV ℝ) (t tol : ℝ)
    (hu : Homogeneous 1 u) (hw : Homogeneous 1 w) (h0 : vecDot P Q R u w = 0)
    (hM : Represents ρ (P + Q + R) M (t • op u w)) (hs : ∀ c, M.expr ≠ [⟨c, .const 0⟩])
    (hT : ScalarValue ρ (P + Q + R) T tol) (hT' : T.expr = [⟨.stored, .const 0⟩]) (ht : 0 ≤ tol)
    (hq : tol < |t ^ 2 * (vecDot P Q R u u * vecDot P Q R w w)| ∨ t ^ 2 * (vecDot P Q R u u * vecDot P Q R w w) = 0)
    (hX : Represents ρ (P + Q + R) X x)
    (he : expObject P Q R k τ ρ M T = some o) (hr : rotorObject P Q R k' τ ρ o X = some o') :
    ∃ E, IsExponential P Q R (t • op u w) E ∧ Represents ρ (P + Q + R) o E ∧
      Represents ρ (P + Q + R) o' (applyRotor (signedProd P Q R) E x) := by
  obtain ⟨E, -, hE, -, hR⟩ := C37_exponential hN M T o _ _ tol hM hT ht (plane_gp (by omega) hu hw h0 t) he
  refine ⟨E, hE ?_, hR hs (.inl hT'), C80_call hN o X o' E x (hR hs (.inl hT')) hX hr⟩
  rcases hq with hq | hq
  · exact .inl (by rwa [abs_neg])
  · exact .inr (.inl (by rw [hq, neg_zero]))

/-- **C80** `apply_rotor(exp(-θ/2 u^w, tol), x)`, where `u` and `w` are orthogonal vectors of square one, is `x` rotated by
the angle `θ`, if the tolerance is less than `θ²/4`. -/
theorem C80_exp_rotation (hN : P + Q + R ≤ 62) (M T X o o' : Object) (u w x : MV ℝ) (θ tol : ℝ)
    (hu : Homogeneous 1 u) (hw : Homogeneous 1 w) (hx : Homogeneous 1 x)
    (h0 : vecDot P Q R u w = 0) (h1 : vecDot P Q R u u = 1) (h2 : vecDot P Q R w w = 1)
    (hM : Represents ρ (P + Q + R) M (-(θ / 2) • op u w)) (hs : ∀ c, M.expr ≠ [⟨c, .const 0⟩])
    (hT : ScalarValue ρ (P + Q + R) T tol) (hT' : T.expr = [⟨.stored, .const 0⟩]) (ht : 0 ≤ tol) (hθ : tol < θ ^ 2 / 4)
    (hX : Represents ρ (P + Q + R) X x)
    (he : expObject P Q R k τ ρ M T = some o) (hr : rotorObject P Q R k' τ ρ o X = some o') :
    Represents ρ (P + Q + R) o' (rotated P Q R θ u w x) := by
  have hq : (0 : ℝ) ≤ θ ^ 2 / 4 := by positivity
  obtain ⟨E, hE, -, hR⟩ := C80_exp_call hN M T X o o' u w x _ tol hu hw h0 hM hs hT hT' ht
    (.inl (by rw [h1, h2, show (-(θ / 2)) ^ 2 * (1 * 1 : ℝ) = θ ^ 2 / 4 by ring, abs_of_nonneg hq]; exact hθ)) hX he hr
  rwa [C80_rotation (by omega) hu hw hx h0 h1 h2 hE] at hR

/-- **C80** In the Minkowski model, `apply_rotor(exp(-t^ni/2, tol), point(x))` is the point translated by `t`, for every
tolerance. -/
theorem C80_exp_translation (hD : D + 2 ≤ 62) (M T X o o' : Object) (t x : Fin D → ℝ) (tol : ℝ)
    (hM : Represents ρ (D + 1 + 1 + 0) M (-(1 / 2 : ℝ) • op (direction t) (infinity D))) (hs : ∀ c, M.expr ≠ [⟨c, .const 0⟩])
    (hT : ScalarValue ρ (D + 1 + 1 + 0) T tol) (hT' : T.expr = [⟨.stored, .const 0⟩]) (ht : 0 ≤ tol)
    (hX : Represents ρ (D + 1 + 1 + 0) X (minkowskiPointAt x))
    (he : expObject (D + 1) 1 0 k τ ρ M T = some o) (hr : rotorObject (D + 1) 1 0 k' τ ρ o X = some o') :
    Represents ρ (D + 1 + 1 + 0) o' (minkowskiPointAt (x + t)) := by
  have hD' : D ≤ 61 := by omega
  have hu := direction_homog (by omega : D ≤ 63) t
  have hn := infinity_homog hD'
  have hN : D + 1 + 1 + 0 ≤ 63 := by omega
  obtain ⟨E, hE, -, hR⟩ := C80_exp_call (by omega) M T X o o' _ _ _ _ tol hu hn
    (by rw [vecDot_eq hN hu hn, mq_eq, vdot_comm _ hu hn, vdot_n_dir hD']) hM hs hT hT' ht
    (.inr (by rw [vecDot_eq hN hn hn, mq_eq, vdot_nn hD', mul_zero, mul_zero])) hX he hr
  rwa [C80_translation hD' t x hE] at hR

/-! ### Examples -/

theorem e_unit (i : Nat) (hi : i < 3) : vecDot 3 0 0 (e ℝ i) (e ℝ i) = 1 := by
  rw [vecDot_eq (by norm_num) (e_homog (by omega)) (e_homog (by omega)), vdot_e (by omega)]
  simp [sqs, signature, hi]

theorem e_orthogonal : vecDot 3 0 0 (e ℝ 0) (e ℝ 1) = 0 := by
  rw [vecDot_eq (by norm_num) (e_homog (by omega)) (e_homog (by omega)), vdot_comm _ (e_homog (by omega)) (e_homog (by omega)),
    vdot_absent _ (by omega) (e_space (by omega))]

theorem plane_value (c : ℝ) : c • op (e ℝ 0) (e ℝ 1) = Finsupp.single 3 c := by
  have h1 : (e ℝ 0) = Finsupp.single 1 1 := rfl
  have h2 : (e ℝ 1) = Finsupp.single 2 1 := rfl
  have h3 : par 1 2 = 0 := by decide +kernel
  have h4 : (1 : Word) &&& 2 = 0 := by decide
  have h5 : (1 : Word) ||| 2 = 3 := by decide
  rw [h1, h2, op_single, h3, h4, h5]
  simp [sg]

-- `apply_rotor(exp(-θ/2 e1^e2, 0), x e1 + y e2)` compiles, and is the rotated vector
example (x y θ : ℝ) (hθ : θ ≠ 0) : ∃ o o', ∃ k, expObject 3 0 0 40 τ ρ (planeObj (-(θ / 2))) (scalarObj 0) = some o ∧
    rotorObject 3 0 0 k τ ρ o (vecObj x y) = some o' ∧
    Represents ρ 3 o' (rotated 3 0 0 θ (e ℝ 0) (e ℝ 1) (Finsupp.single 1 x + Finsupp.single 2 y)) := by
  have hp : 0 < θ ^ 2 / 4 := by positivity
  obtain ⟨o, ho, hx⟩ := exp_plane (τ := τ) (ρ := ρ) (-(θ / 2)) 0 (by linarith) le_rfl
  have hsq := plane_square (-(θ / 2))
  obtain ⟨E, -, -, -, hR⟩ := C37_exponential (P := 3) (Q := 0) (R := 0) (by norm_num) _ _ o _ _ 0
    (plane_represents (-(θ / 2))) (scalarObj_value 3 0) le_rfl hsq ho
  obtain ⟨s, d, hd⟩ := C73_lazy (τ := τ) 3 0 0 (by norm_num) [o, vecObj x y] _
    (.cons (hR (by simp) (.inl rfl)) (.cons (vec_represents x y) .nil)) rotorProgram (by simp [Program.Uses, rotorProgram])
    (by simp [Program.weight, rotorProgram, weightC, coefWeight, hx]) (by simp [Program.degree, rotorProgram])
  obtain ⟨o', ho', -⟩ := hd d le_rfl
  refine ⟨o, o', d, ho, ho', ?_⟩
  refine C80_exp_rotation (P := 3) (Q := 0) (R := 0) (by norm_num) _ _ (vecObj x y) o o' _ _ _ θ 0 (e_homog (by omega))
    (e_homog (by omega)) ?_ e_orthogonal (e_unit 0 (by omega)) (e_unit 1 (by omega)) ?_ (by simp)
    (scalarObj_value 3 0) rfl le_rfl hp (vec_represents x y) ho ho'
  · exact homog_add (homog_single _ (by decide)) (homog_single _ (by decide))
  · rw [plane_value]; exact plane_represents _

-- a boost of the Minkowski model, a translation and a rotation
example (x : MV ℝ) (hx : Homogeneous 1 x) (θ : ℝ) : ∃ E, IsExponential 4 1 0 (-(θ / 2) • op (e ℝ 3) (e ℝ 4)) E ∧
    applyRotor (signedProd 4 1 0) E x = boosted 4 1 0 θ (e ℝ 3) (e ℝ 4) x := by
  have hu : Homogeneous 1 (e ℝ 3) := e_homog (by omega)
  have hw : Homogeneous 1 (e ℝ 4) := e_homog (by omega)
  have h0 : vecDot 4 1 0 (e ℝ 3) (e ℝ 4) = 0 := by
    rw [vecDot_eq (by norm_num) hu hw]; exact vdot_ef (D := 3) (by norm_num)
  have h1 : vecDot 4 1 0 (e ℝ 3) (e ℝ 3) = 1 := by
    rw [vecDot_eq (by norm_num) hu hu]; exact vdot_ee (D := 3) (by norm_num)
  have h2 : vecDot 4 1 0 (e ℝ 4) (e ℝ 4) = -1 := by
    rw [vecDot_eq (by norm_num) hw hw]; exact vdot_ff (D := 3) (by norm_num)
  obtain ⟨E, hE⟩ := exponential_exists (by norm_num) hu hw h0 (-(θ / 2))
  exact ⟨E, hE, C80_boost (by norm_num) hu hw hx h0 h1 h2 hE⟩

example (t x : Fin 3 → ℝ) : ∃ E, IsExponential 4 1 0 (-(1 / 2 : ℝ) • op (direction t) (infinity 3)) E ∧
    applyRotor (signedProd 4 1 0) E (minkowskiPointAt x) = minkowskiPointAt (x + t) := by
  have hu := direction_homog (by norm_num) t
  have hn := infinity_homog (D := 3) (by norm_num)
  obtain ⟨E, hE⟩ := exponential_exists (P := 4) (Q := 1) (R := 0) (by norm_num) hu hn
    (by rw [vecDot_eq (by norm_num) hu hn, vdot_comm _ hu hn]; exact vdot_n_dir (D := 3) (by norm_num) t) (-(1 / 2))
  exact ⟨E, hE, C80_translation (by norm_num) t x hE⟩

example (x : Fin 3 → ℝ) (θ : ℝ) : ∃ E,
    applyRotor (signedProd 4 1 0) E (minkowskiPointAt x) = minkowskiPointAt (turned θ ![1, 0, 0] ![0, 1, 0] x) := by
  have hu := direction_homog (by norm_num) (![1, 0, 0] : Fin 3 → ℝ)
  have hw := direction_homog (by norm_num) (![0, 1, 0] : Fin 3 → ℝ)
  obtain ⟨E, hE⟩ := exponential_exists (P := 4) (Q := 1) (R := 0) (by norm_num) hu hw
    (by rw [vecDot_eq (by norm_num) hu hw]; exact (vdot_dir_dir (D := 3) (by norm_num) _ _).trans (by simp [Fin.sum_univ_three]))
    (-(θ / 2))
  exact ⟨E, C80_point_rotation (by norm_num) _ _ x (by simp [Fin.sum_univ_three]) (by simp [Fin.sum_univ_three])
    (by simp [Fin.sum_univ_three]) hE⟩

-- the point `(x, y, z)` turned by `θ` about the third axis
example (x y z θ : ℝ) : turned θ ![1, 0, 0] ![0, 1, 0] ![x, y, z] =
    ![x * Real.cos θ - y * Real.sin θ, x * Real.sin θ + y * Real.cos θ, z] := by
  ext i; fin_cases i <;> simp [turned, Fin.sum_univ_three]

end GATL.Props
