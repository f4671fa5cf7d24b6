import Verif.Proofs.Algebras
import Verif.Props.Metric
import Verif.Props.Minkowski

/-!
# Depth of the compiler; constants of the predefined algebras

**C74**, **C75**.  `k` is the depth to which the compiler instantiates the templates of the simplifier; `none` is a program
that does not compile at that depth.
-/

namespace GATL.Props

open Expr Spec MinkowskiModel

variable {τ : Types} {ρ : Env} {j k D : Nat}

/-! ### C74 -/

/-- **C74** A program that compiles keeps its result, storage included, at every greater depth: in every space with a
signature, in the conformal space and in every space with a metric matrix, for any inputs. -/
theorem C74_programs (S : SpaceType) (hS : (∃ P Q R, S = signedSpace P Q R) ∨ (∃ D, S = conformalSpace D) ∨
      ∃ n entries, S = matrixSpace n entries) (Ms : List Object) (t : Program) (h : j ≤ k) (o : Object) :
    (t.runIn S j τ ρ Ms = some o → t.runIn S k τ ρ Ms = some o) ∧
    (t.runLazyIn S j τ ρ Ms = some o → t.runLazyIn S k τ ρ Ms = some o) := by
  have hm : SpaceMono S := by
    rcases hS with ⟨P, Q, R, rfl⟩ | ⟨D, rfl⟩ | ⟨n, es, rfl⟩
    · exact signedSpace_mono P Q R
    · exact conformalSpace_mono D
    · exact matrixSpace_mono n es
  exact ⟨runIn_mono hm h Ms t o, runLazyIn_mono hm h Ms t o⟩

/-- **C74** The same for programs with inverses and quotients. -/
theorem C74_inverses (S : SpaceType) (hS : (∃ P Q R, S = signedSpace P Q R) ∨ (∃ D, S = conformalSpace D) ∨
      ∃ n entries, S = matrixSpace n entries) (Ms : List Object) (t : Rational) (h : j ≤ k) (o : Object) :
    (t.runIn S j τ ρ Ms = some o → t.runIn S k τ ρ Ms = some o) ∧
    (t.runLazyIn S j τ ρ Ms = some o → t.runLazyIn S k τ ρ Ms = some o) := by
  have hm : SpaceMono S := by
    rcases hS with ⟨P, Q, R, rfl⟩ | ⟨D, rfl⟩ | ⟨n, es, rfl⟩
    · exact signedSpace_mono P Q R
    · exact conformalSpace_mono D
    · exact matrixSpace_mono n es
  exact ⟨rationalIn_mono hm h Ms t o, rationalLazyIn_mono hm h Ms t o⟩

/-- **C74** So two compilers that accept a program give the same result, whatever their limits. -/
theorem C74_unique (P Q R : Nat) (Ms : List Object) (t : Rational) (o o' : Object)
    (h : t.runLazy P Q R j τ ρ Ms = some o) (h' : t.runLazy P Q R k τ ρ Ms = some o') : o = o' := by
  rw [← (C67_signed P Q R Ms).2] at h h'
  have h1 := rationalLazyIn_mono (signedSpace_mono P Q R) (le_max_left j k) Ms t _ h
  have h2 := rationalLazyIn_mono (signedSpace_mono P Q R) (le_max_right j k) Ms t _ h'
  exact Option.some_inj.1 (h1.symm.trans h2)

-- the inverse of `3 e1 - 4 e2` at every depth from 40
example (h : 40 ≤ k) : ∃ o, Rational.inverseProgram.runLazy 3 0 0 k τ ρ [vecObj 3 (-4)] = some o ∧
    Stands ρ 3 o ((25 : ℝ)⁻¹ • (Finsupp.single 1 3 + Finsupp.single 2 (-4))) := by
  obtain ⟨o, ho⟩ := inverse_vec (τ := τ) (ρ := ρ) 3 (-4) (by norm_num)
  refine ⟨o, ?_, C58_program_partial (P := 3) (Q := 0) (R := 0) (by norm_num) _ _ _ o _
    (.cons (represents_stands (vec_represents 3 (-4))) .nil) ?_ (inverse_vec_quotients 3 (-4)) ho⟩
  · rw [← (C67_signed 3 0 0 _).2] at ho ⊢
    exact (C74_inverses _ (.inl ⟨3, 0, 0, rfl⟩) _ _ h o).2 ho
  · simp only [Rational.inverseProgram, Rational.value, Program.value, List.getD_cons_zero, norm_vec]
    norm_num
    rw [← Finsupp.single_neg, reverse_add, reverse_single, reverse_single]
    have h1 : par (1 : Word) 1 = 0 := by decide +kernel
    have h2 : par (2 : Word) 2 = 0 := by decide +kernel
    rw [h1, h2]
    simp only [sg, ZMod.val_zero, pow_zero, one_mul, smul_add, Finsupp.smul_single, smul_eq_mul]
    norm_num

/-! ### C75 -/

/-- **C75** The pseudoscalar of a space with `n` dimensions is the outer product of the basis vectors. -/
theorem C75_pseudoscalar {n : Nat} (hn : n ≤ 62) : ∃ o, pseudoscalarObject n = some o ∧ Stands ρ n o (pseudoscalarOf ℝ n) := by
  refine ⟨⟨false, Algebra.pseudoType n, [], []⟩, ?_, Algebra.stands_pseudo le_rfl (by omega)⟩
  unfold pseudoscalarObject
  rw [Algebra.pseudo_blade ⟨n, by omega⟩]
  rfl

/-- **C75** The constants `no`, `ni` and `Ie` of the Minkowski model compile, and are the point at the origin, the point at
infinity and the pseudoscalar of the Euclidean space. -/
theorem C75_minkowski (h : 40 ≤ k) (hD : D ≤ 60) :
    (∃ o, Algebra.minkowskiNo D k τ ρ = some o ∧ Stands ρ (D + 2) o (origin D)) ∧
    (∃ o, Algebra.minkowskiNi D k τ ρ = some o ∧ Stands ρ (D + 2) o (infinity D)) ∧
    ∃ o, Algebra.minkowskiIe D k τ ρ = some o ∧ Stands ρ (D + 2) o (pseudoscalarOf ℝ D) := by
  refine ⟨⟨_, Algebra.minkowskiNo_eq h hD, ?_⟩, ⟨_, Algebra.minkowskiNi_eq h hD, ?_⟩, ⟨_, Algebra.minkowskiIe_eq h hD,
    Algebra.stands_pseudo (by omega) (by omega)⟩⟩
  · have := Algebra.stands_two (ρ := ρ) (n := D + 2) (by omega) .minusHalf .half (Algebra.shift_lt (i := D) (by omega) (by omega))
      (Algebra.shift_lt (i := D + 1) (by omega) (by omega)) (before_shift (by omega) (by omega))
    convert this using 1
    unfold origin e
    rw [smul_sub, Finsupp.smul_single, Finsupp.smul_single, sub_eq_neg_add, ← Finsupp.single_neg]
    norm_num
  · have := Algebra.stands_two (ρ := ρ) (n := D + 2) (by omega) (.int 1 one_ne_zero) (.int 1 one_ne_zero)
      (Algebra.shift_lt (i := D) (by omega) (by omega))
      (Algebra.shift_lt (i := D + 1) (by omega) (by omega)) (before_shift (by omega) (by omega))
    convert this using 1
    unfold infinity e
    norm_num

/-- **C75** The metric of the Minkowski model gives these constants, `ep = e(c<D + 1>)` and `em = e(c<D + 2>)` their usual
products: `no` and `ni` are null with product `-1`, `ep` has square 1, `em` has square -1, and they are orthogonal; `no` is
the point at the origin of the Euclidean space. -/
theorem C75_minkowski_products (hD : D ≤ 60) : let m : Metric ℝ := signedProd (D + 1) 1 0
    m .sp (origin D) (origin D) = scalar 0 ∧ m .sp (infinity D) (infinity D) = scalar 0 ∧
    m .sp (origin D) (infinity D) = scalar (-1) ∧ m .sp (infinity D) (origin D) = scalar (-1) ∧
    m .sp (e ℝ D) (e ℝ D) = scalar 1 ∧ m .sp (e ℝ (D + 1)) (e ℝ (D + 1)) = scalar (-1) ∧
    m .sp (e ℝ D) (e ℝ (D + 1)) = scalar 0 ∧ m .sp (e ℝ (D + 1)) (e ℝ D) = scalar 0 ∧
    minkowskiPointAt (0 : Fin D → ℝ) = origin D := by
  have hD' : D ≤ 61 := by omega
  have key : ∀ {A B : MV ℝ}, Homogeneous 1 A → Homogeneous 1 B →
      (signedProd (D + 1) 1 0 : Metric ℝ) .sp A B = scalar (vdot (mq D) A B) := by
    intro A B hA hB
    unfold vdot
    rw [minkowski_eq hD', Iso.sp_scalar, lcont_same _ hA hB, scalar_zero_apply]
  have ho := origin_homog hD'
  have hi := infinity_homog hD'
  have he : Homogeneous 1 (e ℝ D) := e_homog (by omega)
  have hf : Homogeneous 1 (e ℝ (D + 1)) := e_homog (by omega)
  refine ⟨?_, ?_, ?_, ?_, ?_, ?_, ?_, ?_, ?_⟩
  · rw [key ho ho, vdot_oo hD']
  · rw [key hi hi, vdot_nn hD']
  · rw [key ho hi, vdot_on hD']
  · rw [key hi ho, vdot_no hD']
  · rw [key he he, vdot_ee hD']
  · rw [key hf hf, vdot_ff hD']
  · rw [key he hf, vdot_ef hD']
  · rw [key hf he, vdot_fe hD']
  · have h0 : direction (0 : Fin D → ℝ) = 0 := by unfold direction vectorOf; simp
    rw [point_eq, h0]
    simp [dotp]

/-- **C75** The constant `Ie` of the homogeneous model is the pseudoscalar of the Euclidean space. -/
theorem C75_homogeneous (h : 40 ≤ k) (hD : D ≤ 61) :
    ∃ o, Algebra.homogeneousIe D k τ ρ = some o ∧ Stands ρ (D + 1) o (pseudoscalarOf ℝ D) :=
  ⟨_, Algebra.homogeneousIe_eq h hD, Algebra.stands_pseudo (by omega) (by omega)⟩

/-- **C75** The constants `ep` and `em` of the conformal model compile and are `ni / 2 - no` and `ni / 2 + no`. -/
theorem C75_conformal (h : 40 ≤ k) (hD : D ≤ 60) :
    (∃ o, Algebra.conformalEp D k τ ρ = some o ∧ Stands ρ (D + 2) o ((1 / 2 : ℝ) • e ℝ (D + 1) - e ℝ D)) ∧
    ∃ o, Algebra.conformalEm D k τ ρ = some o ∧ Stands ρ (D + 2) o ((1 / 2 : ℝ) • e ℝ (D + 1) + e ℝ D) := by
  refine ⟨⟨_, Algebra.conformalEp_eq h hD, ?_⟩, ⟨_, Algebra.conformalEm_eq h hD, ?_⟩⟩
  · have := Algebra.stands_two (ρ := ρ) (n := D + 2) (by omega) (.int (-1) (by decide)) .half
      (Algebra.shift_lt (i := D) (by omega) (by omega))
      (Algebra.shift_lt (i := D + 1) (by omega) (by omega)) (before_shift (by omega) (by omega))
    convert this using 1
    unfold e
    rw [Finsupp.smul_single, sub_eq_neg_add, ← Finsupp.single_neg]
    norm_num
  · have := Algebra.stands_two (ρ := ρ) (n := D + 2) (by omega) (.int 1 one_ne_zero) .half
      (Algebra.shift_lt (i := D) (by omega) (by omega))
      (Algebra.shift_lt (i := D + 1) (by omega) (by omega)) (before_shift (by omega) (by omega))
    convert this using 1
    unfold e
    rw [Finsupp.smul_single, add_comm]
    norm_num

/-- **C75** The constant `Ie` of the conformal model is the pseudoscalar of the Euclidean space (up to `D = 7`; the
headers of the library go to 3). -/
theorem C75_conformal_pseudoscalar (h : 40 ≤ k) (hD : D ≤ 7) :
    ∃ o, Algebra.conformalIe D k τ ρ = some o ∧ Stands ρ (D + 2) o (pseudoscalarOf ℝ D) :=
  ⟨_, Algebra.conformalIe_eq h hD, Algebra.stands_pseudo (by omega) (by omega)⟩

theorem last_two (a b : ℝ) : vectorOf (fun i : Fin (D + 2) => if i.val = D then a else if i.val = D + 1 then b else 0)
    = a • e ℝ D + b • e ℝ (D + 1) := by
  unfold vectorOf
  rw [Fin.sum_univ_castSucc, Fin.sum_univ_castSucc, Finset.sum_eq_zero]
  · simp
  · intro i _
    have := i.isLt
    simp only [Fin.val_castSucc]
    rw [if_neg (by omega), if_neg (by omega), zero_smul]

theorem last_two_metric (a b c d : ℝ) :
    (∑ i : Fin (D + 2), ∑ j : Fin (D + 2), (if i.val = D then c else if i.val = D + 1 then d else 0) * conformalMetric D i j *
      (if j.val = D then a else if j.val = D + 1 then b else 0)) = -(c * b + d * a) := by
  have inner : ∀ i : Fin (D + 2), (∑ j : Fin (D + 2), (if i.val = D then c else if i.val = D + 1 then d else 0) *
      conformalMetric D i j * (if j.val = D then a else if j.val = D + 1 then b else 0))
      = (if i.val = D then -(c * b) else if i.val = D + 1 then -(d * a) else 0) := by
    intro i
    rw [Fin.sum_univ_castSucc, Fin.sum_univ_castSucc, Finset.sum_eq_zero]
    · have hi := i.isLt
      by_cases h1 : i.val = D
      · have : i = (Fin.last D).castSucc := Fin.ext h1
        subst this
        simp [conformalMetric, Fin.ext_iff]
      · by_cases h2 : i.val = D + 1
        · have : i = Fin.last (D + 1) := Fin.ext h2
          subst this
          simp [conformalMetric, Fin.ext_iff]
        · rw [if_neg h1, if_neg h2, if_neg h1, if_neg h2]
          ring
    · intro j _
      have := j.isLt
      simp only [Fin.val_castSucc]
      rw [if_neg (show ¬ j.val = D by omega), if_neg (show ¬ j.val = D + 1 by omega), mul_zero]
  rw [Finset.sum_congr rfl fun i _ => inner i, Fin.sum_univ_castSucc, Fin.sum_univ_castSucc, Finset.sum_eq_zero]
  · simp
    ring
  · intro i _
    have := i.isLt
    simp only [Fin.val_castSucc]
    rw [if_neg (by omega), if_neg (by omega)]

/-- The scalar product of vectors of a geometric algebra is that of its metric. -/
theorem sp_metric {n : Nat} {M : Matrix (Fin n) (Fin n) ℝ} {m : Metric ℝ} (hm : GeometricAlgebra n M m) (hn : n ≤ 63)
    (v w : Fin n → ℝ) : m .sp (vectorOf v) (vectorOf w) = scalar (∑ i, ∑ j, w i * M i j * v j) := by
  have hv := vectorOf_space v (by omega)
  have hw := vectorOf_space w (by omega)
  obtain ⟨h1, -, -, -, h2⟩ := hm.parts 1 1 _ _ hv hw (vectorOf_homog v (by omega)) (vectorOf_homog w (by omega))
  rw [h2]
  have h3 := hm.contract_op v w (scalar 1) (scalar_space 1)
  rw [hm.contract_scalar, op_scalar_right, one_smul, h1] at h3
  rw [show (((1 : ℕ) : Int) - (1 : ℕ)) = 0 by norm_num] at h3
  have h4 : op (vectorOf w) (0 : MV ℝ) = 0 := by
    have := op_scalar_right (0 : ℝ) (vectorOf w)
    rwa [zero_smul, show (scalar 0 : MV ℝ) = 0 from Finsupp.single_zero 0] at this
  rw [h3, h4]
  simp [scalar]

/-- **C75** In the geometric algebra of the metric of the conformal model, `no = e(c<D + 1>)` and `ni = e(c<D + 2>)` are null
with product `-1`, `ep` has square 1, `em` has square -1, and they are orthogonal. -/
theorem C75_conformal_products {m : Metric ℝ} (hD : D ≤ 61) (hm : GeometricAlgebra (D + 2) (conformalMetric D) m) :
    let no := e ℝ D; let ni := e ℝ (D + 1); let ep := (1 / 2 : ℝ) • ni - no; let em := (1 / 2 : ℝ) • ni + no
    m .sp no no = scalar 0 ∧ m .sp ni ni = scalar 0 ∧ m .sp no ni = scalar (-1) ∧ m .sp ni no = scalar (-1) ∧
    m .sp ep ep = scalar 1 ∧ m .sp em em = scalar (-1) ∧ m .sp ep em = scalar 0 ∧ m .sp em ep = scalar 0 := by
  have key : ∀ (a b c d : ℝ), m .sp (a • e ℝ D + b • e ℝ (D + 1)) (c • e ℝ D + d • e ℝ (D + 1)) = scalar (-(c * b + d * a)) := by
    intro a b c d
    rw [← last_two, ← last_two, sp_metric hm (by omega), last_two_metric]
  have e1 : e ℝ D = (1 : ℝ) • e ℝ D + (0 : ℝ) • e ℝ (D + 1) := by simp
  have e2 : e ℝ (D + 1) = (0 : ℝ) • e ℝ D + (1 : ℝ) • e ℝ (D + 1) := by simp
  have e3 : (1 / 2 : ℝ) • e ℝ (D + 1) - e ℝ D = (-1 : ℝ) • e ℝ D + (1 / 2 : ℝ) • e ℝ (D + 1) := by
    rw [neg_one_smul, sub_eq_neg_add]
  have e4 : (1 / 2 : ℝ) • e ℝ (D + 1) + e ℝ D = (1 : ℝ) • e ℝ D + (1 / 2 : ℝ) • e ℝ (D + 1) := by
    rw [one_smul, add_comm]
  have k1 := key 1 0 1 0
  have k2 := key 0 1 0 1
  have k3 := key 1 0 0 1
  have k4 := key 0 1 1 0
  rw [← e1] at k1
  rw [← e2] at k2
  rw [← e1, ← e2] at k3 k4
  intro no ni ep em
  refine ⟨?_, ?_, ?_, ?_, ?_, ?_, ?_, ?_⟩
  · rw [k1]; norm_num
  · rw [k2]; norm_num
  · rw [k3]; norm_num
  · rw [k4]; norm_num
  · change m .sp ((1 / 2 : ℝ) • e ℝ (D + 1) - e ℝ D) ((1 / 2 : ℝ) • e ℝ (D + 1) - e ℝ D) = _
    rw [e3, key]; norm_num
  · change m .sp ((1 / 2 : ℝ) • e ℝ (D + 1) + e ℝ D) ((1 / 2 : ℝ) • e ℝ (D + 1) + e ℝ D) = _
    rw [e4, key]; norm_num
  · change m .sp ((1 / 2 : ℝ) • e ℝ (D + 1) - e ℝ D) ((1 / 2 : ℝ) • e ℝ (D + 1) + e ℝ D) = _
    rw [e3, e4, key]; norm_num
  · change m .sp ((1 / 2 : ℝ) • e ℝ (D + 1) + e ℝ D) ((1 / 2 : ℝ) • e ℝ (D + 1) - e ℝ D) = _
    rw [e3, e4, key]; norm_num

-- the constants of `ga3m.hpp` and `ga3c.hpp`; the metric of the latter has a geometric algebra
example : (∃ o, Algebra.minkowskiNo 3 40 τ ρ = some o ∧ Stands ρ 5 o (origin 3)) ∧
    (∃ o, Algebra.conformalIe 3 40 τ ρ = some o ∧ Stands ρ 5 o (pseudoscalarOf ℝ 3)) ∧
    ∃ m, GeometricAlgebra 5 (conformalMetric 3) m :=
  ⟨(C75_minkowski (D := 3) le_rfl (by norm_num)).1, C75_conformal_pseudoscalar (D := 3) le_rfl (by norm_num),
    (C67_algebra (by norm_num) _).1⟩

end GATL.Props
