import Verif.Props.Meet
import Verif.Proofs.DeltaMetric
import Verif.Spec.Metric
import Verif.Props.GeneralTypes

/-!
# C65, C66: plunge and delta product of blades in spaces with any metric

The products of `plunge` are those of the metric space of the caller: `GeometricAlgebra n M m` says that `m` are the products
of the space in which the basis vectors have the metric products `M` (`Spec/Programs.lean`); `C65_signed_spaces` says that
those of the signed metric spaces are such products.  `orthogonalIn M W` are the vectors that are orthogonal to `W` in the
metric `M` and `Regular M S` says that no vector of `S` but zero is orthogonal to all of `S` (`Spec/Meet.lean`).
-/

namespace GATL.Props

open Spec

variable {n : Nat} {M : Matrix (Fin n) (Fin n) ℝ} {m : Metric ℝ}

/-- **C65** The products of `signed_metric_space<P,Q,R>` are those of the metric with the squares of the basis vectors on the
diagonal. -/
theorem C65_signed_spaces {P Q R : Nat} (hn : P + Q + R ≤ 63) :
    GeometricAlgebra (P + Q + R)
      (Matrix.diagonal fun i : Fin (P + Q + R) => ((signature P Q R ⟨i, by omega⟩ : Int) : ℝ)) (signedProd P Q R) :=
  geometricAlgebra_signed hn

/-- **C65** (partial: that `plunge` has a result at all is subject to `C62`). If the plunge of two blades has a result, then
the sum of their subspaces is regular, and the result is a blade of the directions in the sum that are orthogonal, in the
metric of the space, to all that the two have in common. -/
theorem C65_plunge_partial (hn : n ≤ 63) (hm : GeometricAlgebra n M m) (hM : M.IsSymm) {tol dtol : ℝ} {bs : MV ℝ → List Word}
    (hbs : ∀ X b, X b ≠ 0 → b ∈ bs X) {A B : MV ℝ} {U V : Submodule ℝ (EuclideanSpace ℝ (Fin n))} (hA : Spans A U)
    (hB : Spans B V) (ht : Visible tol dtol A B (realProd .gp A B) U V) {P : MV ℝ}
    (h : plunge m n tol dtol bs A B = some P) : Regular M (U ⊔ V) ∧ Spans P ((U ⊔ V) ⊓ orthogonalIn M (U ⊓ V)) := by
  unfold plunge at h
  simp only [Option.bind_eq_bind, Option.bind_eq_some_iff] at h
  obtain ⟨⟨M', J⟩, h1, h⟩ := h
  have hJ := (C62_meet_and_join_partial hn hbs hA hB ht h1).2
  obtain ⟨r, hr, l, hl, h⟩ := h
  have hS : Regular M (U ⊔ V) := by
    rw [← invertible_iff hn hm hM hJ]
    intro h0
    unfold dual at hr
    rw [inv_value, if_pos h0] at hr
    cases hr
  obtain ⟨a, b, ha, hb, hs⟩ := plunge_spans hn hm hM hS hA hB hJ
  rw [hb] at hr; cases hr
  rw [ha] at hl; cases hl
  cases h
  exact ⟨hS, hs⟩

/-- **C65** The plunge has a result if the sum of the subspaces is regular and the blades have at most one direction in common
or together fill the space. -/
theorem C65_plunge_line_or_all_partial (hn : n ≤ 63) (hm : GeometricAlgebra n M m) (hM : M.IsSymm) {tol dtol : ℝ}
    {bs : MV ℝ → List Word} (hbs : ∀ X b, X b ≠ 0 → b ∈ bs X) {A B : MV ℝ} {U V : Submodule ℝ (EuclideanSpace ℝ (Fin n))}
    (hA : Spans A U) (hB : Spans B V) (ht : Visible tol dtol A B (realProd .gp A B) U V) (hS : Regular M (U ⊔ V))
    (h : Module.finrank ℝ (U ⊓ V : Submodule ℝ (EuclideanSpace ℝ (Fin n))) ≤ 1 ∨ U ⊔ V = ⊤) :
    ∃ P, plunge m n tol dtol bs A B = some P ∧ Spans P ((U ⊔ V) ⊓ orthogonalIn M (U ⊓ V)) := by
  obtain ⟨M', J, h1, -, h2⟩ := C62_line_or_all_partial hn hbs hA hB ht h
  obtain ⟨a, b, ha, hb, hs⟩ := plunge_spans hn hm hM hS hA hB h2
  refine ⟨_, ?_, hs⟩
  unfold plunge
  rw [h1]
  simp only [Option.bind_eq_bind, Option.bind_some, ha, hb]

/-- **C65** With a tolerance of zero `fast_plunge` of two blades returns a blade of the directions in the sum of their
subspaces that are orthogonal, in the metric of the space, to all that they have in common, if the sum is regular. -/
theorem C65_fast_plunge (hn : n ≤ 63) (hm : GeometricAlgebra n M m) (hM : M.IsSymm) {bs : MV ℝ → List Word}
    (hbs : ∀ X b, X b ≠ 0 → b ∈ bs X) {A B : MV ℝ} {U V : Submodule ℝ (EuclideanSpace ℝ (Fin n))} (hA : Spans A U)
    (hB : Spans B V) (hS : Regular M (U ⊔ V)) :
    ∃ P, fastPlunge m n 0 bs A B = some P ∧ Spans P ((U ⊔ V) ⊓ orthogonalIn M (U ⊓ V)) := by
  obtain ⟨J, h1, h2, -⟩ := C64_fast_join hn hbs hA hB
  obtain ⟨a, b, ha, hb, hs⟩ := plunge_spans hn hm hM hS hA hB h2
  refine ⟨_, ?_, hs⟩
  unfold fastPlunge
  rw [h1]
  simp only [Option.bind_eq_bind, Option.bind_some, ha, hb]

/-- **C65** If the sum is not regular, `fast_plunge` divides by zero. -/
theorem C65_fast_plunge_null (hn : n ≤ 63) (hm : GeometricAlgebra n M m) (hM : M.IsSymm) {bs : MV ℝ → List Word}
    (hbs : ∀ X b, X b ≠ 0 → b ∈ bs X) {A B : MV ℝ} {U V : Submodule ℝ (EuclideanSpace ℝ (Fin n))} (hA : Spans A U)
    (hB : Spans B V) (hS : ¬ Regular M (U ⊔ V)) : fastPlunge m n 0 bs A B = none := by
  obtain ⟨J, h1, h2, -⟩ := C64_fast_join hn hbs hA hB
  unfold fastPlunge dual
  rw [h1]
  simp only [Option.bind_eq_bind, Option.bind_some]
  rw [inv_value, if_pos (by_contra fun h0 => hS ((invertible_iff hn hm hM h2).mp h0))]
  rfl

/-- **C65** The plunge of two blades does not always come out, whatever the metric: for the plane `(e1 + e2) ∧ (e3 + e4)` and
itself it divides by zero. -/
theorem C65_division_by_zero_is_false (m : Metric ℝ) {bs : MV ℝ → List Word} (hbs : ∀ X b, X b ≠ 0 → b ∈ bs X)
    {A : MV ℝ} (hA : A = op (vectorOf (EuclideanSpace.single 0 1 + EuclideanSpace.single 1 1 : EuclideanSpace ℝ (Fin 4)))
      (vectorOf (EuclideanSpace.single 2 1 + EuclideanSpace.single 3 1 : EuclideanSpace ℝ (Fin 4)))) :
    plunge m 4 0 0 bs A A = none := by
  subst hA
  unfold plunge
  rw [C62_division_by_zero_is_false hbs]
  rfl

/-- **C66** In a space with any symmetric metric: if what two blades have in common is regular and the tolerance separates
the coefficients of the geometric product from zero, the delta product is a blade of the directions in the sum of their
subspaces that are orthogonal, in the metric of the space, to all that they have in common; its grade is the number of
factors of the two that are not in common. -/
theorem C66_delta_product_metric (hn : n ≤ 63) (hm : GeometricAlgebra n M m) (hM : M.IsSymm) {tol : ℝ} (h0 : 0 ≤ tol)
    {A B : MV ℝ} {U V : Submodule ℝ (EuclideanSpace ℝ (Fin n))} (hA : Spans A U) (hB : Spans B V) (hR : Regular M (U ⊓ V))
    (hs : Sharp tol (m .gp A B)) :
    Spans (deltaValue m tol A B) ((U ⊔ V) ⊓ orthogonalIn M (U ⊓ V)) ∧
      gradeValue tol (deltaValue m tol A B) + 2 * Module.finrank ℝ (U ⊓ V : Submodule ℝ (EuclideanSpace ℝ (Fin n))) =
        Module.finrank ℝ U + Module.finrank ℝ V := by
  obtain ⟨g, h1, h2, h3⟩ := delta_metric hn hm hM hA hB hR
  rw [deltaValue_metric hs h2 h3.ne]
  refine ⟨h3, ?_⟩
  have e : Module.finrank ℝ ((U ⊔ V) ⊓ orthogonalIn M (U ⊓ V) : Submodule ℝ (EuclideanSpace ℝ (Fin n))) = g := by
    obtain ⟨b, hb⟩ := Finsupp.ne_iff.mp h3.ne
    exact (h3.homog hn b hb).symm.trans (gradePart_homog g _ b hb)
  rw [gradeValue_of h0 (sharp_gradePart hs _) (h3.homog hn) h3.ne, e]
  omega

/-- **C66** If what they have in common is not regular this need not be so: the delta product of a vector that squares to zero
and itself is zero. -/
theorem C66_null_vector (hn : n ≤ 63) (hm : GeometricAlgebra n M m) {tol : ℝ} (v : Fin n → ℝ)
    (hv : ∑ i, ∑ j, v i * M i j * v j = 0) : deltaValue m tol (vectorOf v) (vectorOf v) = 0 := by
  have h1 : m .gp (vectorOf v) (vectorOf v) = 0 := by
    have s1 : (scalar 1 : MV ℝ) ∈ space ℝ n := scalar_space 1
    have h3 := hm.contract_op v v _ s1
    rw [hm.contract_scalar, op_scalar_right, one_smul, hv, zero_smul, op_zero_right, sub_zero] at h3
    rw [hm.vector v _ (vectorOf_space v (by omega)), h3, add_zero]
    exact C04_op_alternating (vectorOf_homog v (by omega))
  unfold deltaValue
  rw [h1]
  exact Finsupp.filter_zero _

/-! ### Euclidean spaces and examples -/

theorem orthogonalIn_one (W : Submodule ℝ (EuclideanSpace ℝ (Fin n))) : orthogonalIn 1 W = Wᗮ := by
  rw [orthogonalIn_eq]
  have : metricMap (1 : Matrix (Fin n) (Fin n) ℝ) = LinearMap.id := by
    ext x i; simp [metricMap]
  rw [this, Submodule.map_id]

theorem regular_one (S : Submodule ℝ (EuclideanSpace ℝ (Fin n))) : Regular 1 S := by
  unfold Regular
  rw [orthogonalIn_one, Submodule.inf_orthogonal_eq_bot]

/-- **C65** In Euclidean spaces `fast_plunge` with a tolerance of zero always has a result: a blade of the directions in the
sum that are orthogonal to the intersection. -/
theorem C65_fast_plunge_euclidean (hn : n ≤ 63) {bs : MV ℝ → List Word} (hbs : ∀ X b, X b ≠ 0 → b ∈ bs X) {A B : MV ℝ}
    {U V : Submodule ℝ (EuclideanSpace ℝ (Fin n))} (hA : Spans A U) (hB : Spans B V) :
    ∃ P, fastPlunge (signedProd n 0 0) n 0 bs A B = some P ∧ Spans P ((U ⊔ V) ⊓ (U ⊓ V)ᗮ) := by
  have hm : GeometricAlgebra n (1 : Matrix (Fin n) (Fin n) ℝ) (signedProd n 0 0) := by
    have h := C65_signed_spaces (P := n) (Q := 0) (R := 0) hn
    have e : (Matrix.diagonal fun i : Fin (n + 0 + 0) => ((signature n 0 0 ⟨i, by omega⟩ : Int) : ℝ)) = 1 := by
      rw [← Matrix.diagonal_one]
      congr 1
      funext i
      have hi : (i : Nat) < n := i.2
      simp [signature, hi]
    rw [e] at h
    exact h
  have := C65_fast_plunge hn hm Matrix.isSymm_one hbs hA hB (regular_one _)
  rwa [orthogonalIn_one] at this

local notation "ε" => fun i : Fin 2 => (EuclideanSpace.single i 1 : EuclideanSpace ℝ (Fin 2))

private abbrev plane : Matrix (Fin 2) (Fin 2) ℝ := Matrix.diagonal ![1, -1]

private theorem plane_algebra : GeometricAlgebra 2 plane (signedProd 1 1 0) := by
  have h := C65_signed_spaces (P := 1) (Q := 1) (R := 0) (by norm_num)
  have e : (Matrix.diagonal fun i : Fin (1 + 1 + 0) => ((signature 1 1 0 ⟨i, by omega⟩ : Int) : ℝ)) = plane := by
    congr 1
    funext i
    fin_cases i <;> simp [signature]
  rw [e] at h
  exact h

/-- In the Minkowski plane the two basis vectors span a regular subspace: their plunge is a blade of the plane. -/
example {bs : MV ℝ → List Word} (hbs : ∀ X b, X b ≠ 0 → b ∈ bs X) :
    ∃ P, fastPlunge (signedProd 1 1 0) 2 0 bs (vectorOf (ε 0)) (vectorOf (ε 1)) = some P ∧
      Spans P ((Submodule.span ℝ {ε 0} ⊔ Submodule.span ℝ {ε 1}) ⊓
        orthogonalIn plane (Submodule.span ℝ {ε 0} ⊓ Submodule.span ℝ {ε 1})) := by
  refine C65_fast_plunge (by norm_num) plane_algebra (Matrix.isSymm_diagonal _) hbs (vec_spans (by norm_num) (by simp))
    (vec_spans (by norm_num) (by simp)) ?_
  unfold Regular
  rw [eq_bot_iff]
  rintro x ⟨-, hx⟩
  have h0 := hx (ε 0) (Submodule.mem_sup_left (Submodule.mem_span_singleton_self _))
  have h1 := hx (ε 1) (Submodule.mem_sup_right (Submodule.mem_span_singleton_self _))
  simp [Fin.sum_univ_two, plane, EuclideanSpace.single_apply] at h0 h1
  rw [Submodule.mem_bot]
  ext i
  fin_cases i
  · exact h0
  · exact h1

/-- The delta product of the plane and a vector in it. -/
example : Spans (deltaValue (signedProd 1 1 0) 0 (op (vectorOf (ε 0)) (vectorOf (ε 1))) (vectorOf (ε 1)))
    ((Submodule.span ℝ {ε 0} ⊔ Submodule.span ℝ {ε 1} ⊔ Submodule.span ℝ {ε 1}) ⊓
      orthogonalIn plane ((Submodule.span ℝ {ε 0} ⊔ Submodule.span ℝ {ε 1}) ⊓ Submodule.span ℝ {ε 1})) := by
  have h1 := vec_spans (n := 2) (x := ε 1) (by norm_num) (by simp)
  have h0 := h1.cons (by norm_num) (x := ε 0) fun hx => by
    obtain ⟨c, hc⟩ := Submodule.mem_span_singleton.mp hx
    have := congrArg (fun x : EuclideanSpace ℝ (Fin 2) => x 0) hc
    simp [EuclideanSpace.single_apply] at this
  refine (C66_delta_product_metric (by norm_num) plane_algebra (Matrix.isSymm_diagonal _) le_rfl h0 h1 ?_ (sharp_zero _)).1
  rw [inf_eq_right.mpr le_sup_right]
  unfold Regular
  rw [eq_bot_iff]
  rintro x ⟨hx, hx'⟩
  obtain ⟨c, rfl⟩ := Submodule.mem_span_singleton.mp hx
  have h2 := hx' (ε 1) (Submodule.mem_span_singleton_self _)
  simp [Fin.sum_univ_two, plane, EuclideanSpace.single_apply] at h2
  rw [h2]
  simp

/-- A null vector spans a subspace that is not regular: the plunge of the vector and itself divides by zero. -/
example {bs : MV ℝ → List Word} (hbs : ∀ X b, X b ≠ 0 → b ∈ bs X) :
    fastPlunge (signedProd 1 1 0) 2 0 bs (vectorOf (ε 0 + ε 1)) (vectorOf (ε 0 + ε 1)) = none := by
  have hne : (ε 0 + ε 1) ≠ 0 := fun h => by
    have := congrFun (congrArg (fun x : EuclideanSpace ℝ (Fin 2) => (x : Fin 2 → ℝ)) h) 0
    simp [EuclideanSpace.single_apply] at this
  have hs := vec_spans (n := 2) (by norm_num) hne
  refine C65_fast_plunge_null (by norm_num) plane_algebra (Matrix.isSymm_diagonal _) hbs hs hs fun hr => ?_
  rw [sup_idem] at hr
  have h1 : ε 0 + ε 1 ∈ Submodule.span ℝ {ε 0 + ε 1} ⊓ orthogonalIn plane (Submodule.span ℝ {ε 0 + ε 1}) := by
    refine ⟨Submodule.mem_span_singleton_self _, fun y hy => ?_⟩
    obtain ⟨c, rfl⟩ := Submodule.mem_span_singleton.mp hy
    simp [Fin.sum_univ_two, plane, EuclideanSpace.single_apply]
  rw [hr, Submodule.mem_bot] at h1
  exact hne h1

/-- The metric of the conformal model is one of those. -/
example : (conformalMetric 3).IsSymm := by
  ext i j
  fin_cases i <;> fin_cases j <;> simp [conformalMetric]

end GATL.Props
