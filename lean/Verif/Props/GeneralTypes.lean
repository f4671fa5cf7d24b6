import Verif.Proofs.GeneralTypes
import Verif.Proofs.IntegerValues
import Verif.Props.General
import Verif.Props.Components

/-!
Property C23 in metric spaces that are not orthogonal: `general_metric_space<Entries...>` and
`conformal_metric_space<D>`.

`genMapping n entry g` is the compile-time computation of the product `g` of two basis blades, `entry k r c` the type of
the metric coefficient of `e(r)` and `e(c)`.  The theorems are `_partial` for two reasons: the blades of the operands have
to be constants (the code does not support run-time blades in `general_metric_space` at all, see the comment "TODO" in
`model/general/metric_space.hpp:33`), and the algebra is the Clifford algebra only in spaces of up to seven dimensions, or
for the grades of C18.
-/

namespace GATL.Props

open Expr Spec

variable (ρ : Env)

/-- Every component of the multivector has a constant basis blade. -/
abbrev ConstBlades (s : CSum) : Prop := ∀ c ∈ s, ∃ b, c.blade = .const b

/-- The types of the metric coefficients denote `q`. -/
abbrev EntriesDenote (entry : MetricEntry) (q : Nat → Nat → ℝ) : Prop :=
  ∀ (k i j : Nat) (e : Expr), 1 ≤ i → 1 ≤ j → entry k (.const i) (.const j) = some e → Built e ∧ Denotes ρ e (q i j)

/-- **C23** In a space with any metric, the type computed for a product denotes the sum of components that
`general_metric_mapping` stands for (the subject of C18), whatever the grades are. -/
theorem C23_general_products_partial {n : Nat} (hn : n ≤ 62) {entry : MetricEntry} {q : Nat → Nat → ℝ}
    (hq : EntriesDenote ρ entry q) (g : GradedProduct) {k fuel : Nat} (hk : k ≤ fuel) (s t e : CSum) (A B : MV ℝ)
    (hs : ConstBlades s) (ht : ConstBlades t) (hA : SumDenotes ρ n s A) (hB : SumDenotes ρ n t B)
    (he : mulC (genMapping n entry g) k s t = some e) : SumDenotes ρ n e (genProd fuel q n g A B) :=
  mulC_general hn hq g hk hs ht hA hB he

/-- **C23** In spaces of up to seven dimensions with any metric, the type computed for `gp` denotes the product of the
Clifford algebra of the metric. -/
theorem C23_general_clifford_partial {n : Nat} (hn : n ≤ 7) {entry : MetricEntry} {q : Nat → Nat → ℝ}
    (hq : EntriesDenote ρ entry q) :
    ∃ Φ : CliffordAlgebra (metricMatrix q n).toQuadraticForm' ≃ₗ[ℝ] space ℝ n,
      (Φ 1 : MV ℝ) = scalar 1 ∧
      (∀ v, (Φ (CliffordAlgebra.ι _ v) : MV ℝ) = vectorOf v) ∧
      ∀ (k : Nat) (s t e : CSum) x y, ConstBlades s → ConstBlades t → SumDenotes ρ n s (Φ x) →
        SumDenotes ρ n t (Φ y) → mulC (genMapping n entry .gp) k s t = some e → SumDenotes ρ n e (Φ (x * y)) := by
  obtain ⟨Φ, h1, h2, h3⟩ := C18_clifford_small_partial (K := ℝ) q hn
  refine ⟨Φ, h1, h2, fun k s t e x y hs ht hA hB he => ?_⟩
  rw [h3 (max k (2 ^ n + 1)) (by omega) x y]
  exact C23_general_products_partial ρ (by omega) hq .gp (by omega) s t e _ _ hs ht hA hB he

/-- **C23** The other products are the parts of it that they should be, for homogeneous operands. -/
theorem C23_general_grade_parts_partial {n : Nat} (hn : n ≤ 62) {entry : MetricEntry} {q : Nat → Nat → ℝ}
    (hq : EntriesDenote ρ entry q) (g : GradedProduct) {k : Nat} (s t e e' : CSum) (A B C : MV ℝ) (a b : Nat)
    (hs : ConstBlades s) (ht : ConstBlades t) (hA : SumDenotes ρ n s A) (hB : SumDenotes ρ n t B)
    (ha : Homogeneous a A) (hb : Homogeneous b B) (h7 : min a b ≤ 7) (h8 : b ≤ 8)
    (he : mulC (genMapping n entry .gp) k s t = some e) (heC : SumDenotes ρ n e C)
    (he' : mulC (genMapping n entry g) k s t = some e') :
    SumDenotes ρ n e' (match g with
      | .gp => C
      | .lcont => gradePart ((b : Int) - a) C
      | .rcont => gradePart ((a : Int) - b) C
      | .dot => gradePart |(a : Int) - b| C
      | .hip => if a = 0 ∨ b = 0 then 0 else gradePart |(a : Int) - b| C
      | .sp => gradePart 0 C) := by
  have hC : C = genProd (max k (2 ^ n + 1)) q n .gp A B :=
    C23_value_unique ρ n e _ _ heC
      (C23_general_products_partial ρ (by omega) hq .gp (by omega) s t e A B hs ht hA hB he)
  have hsA : A ∈ space ℝ n := sumDenotes_space hA
  have hsB : B ∈ space ℝ n := sumDenotes_space hB
  have key := C23_general_products_partial ρ (by omega) hq g (fuel := max k (2 ^ n + 1)) (by omega) s t e' A B hs ht
    hA hB he'
  obtain ⟨h1, h2, h3, h4, h5, -⟩ := C18_grade_parts_partial q hn hsA hsB ha hb h7 h8 (max k (2 ^ n + 1)) (by omega)
  rw [hC]
  cases g
  · exact key
  · rwa [← h1]
  · rwa [← h2]
  · rwa [← h3]
  · rwa [← h4]
  · rwa [← h5]

-- the products of vectors `x₀ e1 + x₁ e2` in the space with the metric `e1·e1 = 2`, `e1·e2 = 1`, `e2·e2 = 3` compile
example : ConstBlades vec₂ ∧ EntriesDenote ρ (mkMatrixEntry 2 [.const 2, .const 1, .const 1, .const 3])
      (fun i j => ([2, 1, 1, 3] : List ℝ).getD (2 * (i - 1) + (j - 1)) 0) ∧
    mulC (genMapping 2 (mkMatrixEntry 2 [.const 2, .const 1, .const 1, .const 3]) .sp) 60
      [⟨.value 1 0, .const 1⟩] [⟨.value 1 1, .const 2⟩]
        = some [⟨.fn .mul [.value 1 0, .value 1 1], .const 0⟩] := by
  refine ⟨?_, ?_, by decide +kernel⟩
  · intro c hc
    simp only [List.mem_cons, List.not_mem_nil, or_false] at hc
    rcases hc with rfl | rfl <;> exact ⟨_, rfl⟩
  refine matrix_ok (n := 2) (v := fun i => ([2, 1, 1, 3] : List ℝ).getD i 0) fun i e h => ?_
  match i, h with
  | 0, h => obtain rfl := Option.some.inj h; simpa using V.const (ρ := ρ) 2
  | 1, h => obtain rfl := Option.some.inj h; simpa using V.const (ρ := ρ) 1
  | 2, h => obtain rfl := Option.some.inj h; simpa using V.const (ρ := ρ) 1
  | 3, h => obtain rfl := Option.some.inj h; simpa using V.const (ρ := ρ) 3
  | i + 4, h => simp at h

/-- **C23** In `general_metric_space<Entries...>` with up to seven dimensions, whose entries denote the matrix `m` in
row-major order, the type computed for `gp` denotes the product of the Clifford algebra of `m`. -/
theorem C23_matrix_clifford_partial {n : Nat} (hn : n ≤ 7) (entries : List Expr) (hlen : entries.length = n * n)
    (m : Matrix (Fin n) (Fin n) ℝ)
    (h : ∀ i j : Fin n, ∃ e, entries[n * i.val + j.val]? = some e ∧ Built e ∧ Denotes ρ e (m i j)) :
    ∃ Φ : CliffordAlgebra m.toQuadraticForm' ≃ₗ[ℝ] space ℝ n,
      (Φ 1 : MV ℝ) = scalar 1 ∧
      (∀ v, (Φ (CliffordAlgebra.ι _ v) : MV ℝ) = vectorOf v) ∧
      ∀ (k : Nat) (s t e : CSum) x y, ConstBlades s → ConstBlades t → SumDenotes ρ n s (Φ x) →
        SumDenotes ρ n t (Φ y) → mulC (genMapping n (mkMatrixEntry n entries) .gp) k s t = some e →
        SumDenotes ρ n e (Φ (x * y)) := by
  let v : Nat → ℝ := fun p => if hp : p < n * n then
    m ⟨p / n, Nat.div_lt_of_lt_mul hp⟩ ⟨p % n, Nat.mod_lt _ (by by_contra h0; simp at h0; simp [h0] at hp)⟩ else 0
  have hv : ∀ i j : Fin n, v (n * i.val + j.val) = m i j := by
    intro i j
    have h0 : n * i.val + j.val < n * n := by
      calc n * i.val + j.val < n * i.val + n := by omega
        _ = n * (i.val + 1) := by ring
        _ ≤ n * n := Nat.mul_le_mul_left _ i.2
    simp only [v, dif_pos h0]
    congr 1
    · apply Fin.ext
      simp only
      rw [Nat.mul_add_div (by omega), Nat.div_eq_of_lt j.2, add_zero]
    · apply Fin.ext
      simp only
      rw [Nat.mul_add_mod, Nat.mod_eq_of_lt j.2]
  have hd : EntriesDenote ρ (mkMatrixEntry n entries) (fun i j => v (n * (i - 1) + (j - 1))) := by
    refine matrix_ok (ρ := ρ) (n := n) (v := v) fun p e he => ?_
    have hp : p < n * n := by
      rw [← hlen]; exact (List.getElem?_eq_some_iff.1 he).1
    have hn0 : 0 < n := by by_contra h0; simp at h0; simp [h0] at hp
    obtain ⟨e', he', hb, hde⟩ := h ⟨p / n, Nat.div_lt_of_lt_mul hp⟩ ⟨p % n, Nat.mod_lt _ hn0⟩
    simp only [Nat.div_add_mod] at he'
    rw [he, Option.some.injEq] at he'
    subst he'
    refine ⟨hb, ?_⟩
    simpa only [v, dif_pos hp] using hde
  have hm : metricMatrix (fun i j => v (n * (i - 1) + (j - 1))) n = m := by
    ext i j
    exact hv i j
  have := C23_general_clifford_partial ρ hn hd
  rwa [hm] at this

-- a matrix as in the theorem: the metric above
example : ∀ i j : Fin 2, ∃ e, ([.const 2, .const 1, .const 1, .const 3] : List Expr)[2 * i.val + j.val]? = some e ∧
    Built e ∧ Denotes ρ e ((!![2, 1; 1, 3] : Matrix (Fin 2) (Fin 2) ℝ) i j) := by
  intro i j
  fin_cases i <;> fin_cases j
  · exact ⟨.const 2, rfl, .const 2, by simp [Denotes, den]⟩
  · exact ⟨.const 1, rfl, .const 1, by simp [Denotes, den]⟩
  · exact ⟨.const 1, rfl, .const 1, by simp [Denotes, den]⟩
  · exact ⟨.const 3, rfl, .const 3, by simp [Denotes, den]⟩

/-- The metric of the conformal model: `1` for each of the `D` Euclidean directions, `-1` for the origin with infinity. -/
def conformalMetric (D : Nat) : Matrix (Fin (D + 2)) (Fin (D + 2)) ℝ := Matrix.of fun i j =>
  if i.val < D ∧ i = j then 1 else if D ≤ i.val ∧ D ≤ j.val ∧ i ≠ j then -1 else 0

/-- **C23** In `conformal_metric_space<D>` with `D ≤ 5`, the type computed for `gp` denotes the product of the Clifford
algebra of the conformal metric. -/
theorem C23_conformal_clifford_partial {D : Nat} (hD : D ≤ 5) :
    ∃ Φ : CliffordAlgebra (conformalMetric D).toQuadraticForm' ≃ₗ[ℝ] space ℝ (D + 2),
      (Φ 1 : MV ℝ) = scalar 1 ∧
      (∀ v, (Φ (CliffordAlgebra.ι _ v) : MV ℝ) = vectorOf v) ∧
      ∀ (k : Nat) (s t e : CSum) x y, ConstBlades s → ConstBlades t → SumDenotes ρ (D + 2) s (Φ x) →
        SumDenotes ρ (D + 2) t (Φ y) → mulC (genMapping (D + 2) (mkConformalEntry D) .gp) k s t = some e →
        SumDenotes ρ (D + 2) e (Φ (x * y)) := by
  have hm : metricMatrix (conformalEntry D) (D + 2) = conformalMetric D := by
    ext i j
    simp only [metricMatrix, conformalMetric, Matrix.of_apply, conformalEntry, ne_eq, Fin.ext_iff]
    split_ifs <;> first | rfl | (exfalso; omega)
  have := C23_general_clifford_partial ρ (n := D + 2) (by omega) (conformal_ok (ρ := ρ) D)
  rwa [hm] at this

-- the product of the origin and infinity in the conformal space of the line: `e2 e3 = -1 + e2∧e3`
example : mulC (genMapping 3 (mkConformalEntry 1) .gp) 60 [⟨.const 1, .const 2⟩] [⟨.const 1, .const 4⟩]
    = some [⟨.const (-1), .const 0⟩, ⟨.const 1, .const 6⟩] := by decide +kernel

/-- The values of the variables in the theorem below: the number is one, the run-time blade is `e1`. -/
noncomputable def runtimeEnv : Env := ⟨fun _ _ => ((1 : Int) : ℝ), fun _ _ => 1⟩

/-- **C23 (defect)** In the conformal model, `gp` is wrong when an operand is a run-time blade that may have several
grades.  In `conformal_metric_space<1>`, let the second operand be declared to be a vector or a 2-blade, and let it be the
vector `e1` at run time.  The program compiles, and the value of `gp(e2, e1)` is `-e1 - e1∧e2` instead of `-e1∧e2`: for the
second vector of the supposed 2-blade the code uses the metric coefficient of `e65`. -/
theorem C23_conformal_runtime_blade_is_false :
    let s : CSum := [⟨.const 1, .const 2⟩]
    let t : CSum := [⟨.value 1 0, .dyn 6 (.bitset 1 0)⟩]
    SumDenotes runtimeEnv 3 s (blade ℝ 2) ∧ SumDenotes runtimeEnv 3 t (blade ℝ 1) ∧
    ∃ (e : CSum) (A : List (ℝ × TBlade)), mulC (genMapping 3 (mkConformalEntry 1) .gp) 60 s t = some e ∧
      List.Forall₂ (CompDenotes runtimeEnv) e A ∧
      (A.map fun a => (Finsupp.single a.2.bits a.1 : MV ℝ)).sum = - blade ℝ 1 - blade ℝ 3 ∧
      ∀ fuel > 2 ^ 3, genProd fuel (conformalEntry 1) 3 .gp (blade ℝ 2) (blade ℝ 1) = - blade ℝ 3 := by
  intro s t
  refine ⟨?_, ?_, ?_⟩
  · refine SumDenotes.single_iff.2 ⟨⟨.const 1, by simp⟩, (1, .const 2), ⟨by simp [Denotes, den], rfl⟩, ?_, rfl⟩
    show ∀ i ∈ vecs 2, i.val < 3
    decide
  · refine SumDenotes.single_iff.2 ⟨⟨.value 1 0, ?_⟩, (1, .dyn 6 1), ⟨by simp [Denotes, den, runtimeEnv], ?_⟩, ?_, rfl⟩
    · simp [Built.bitset, isConstant]
    · exact ⟨1, by simp [den, runtimeEnv], rfl⟩
    · exact ⟨by decide, by decide, fun _ => ⟨1, by decide, by decide⟩⟩
  · have key : (mulC (genMapping 3 (mkConformalEntry 1) .gp) 60 s t).bind
        (IntVal.components (fun _ _ => 1) (fun _ _ => 1)) = some [(0, 0), (-1, 1), (-1, 3)] := by decide +kernel
    obtain ⟨e, he, hl⟩ := Option.bind_eq_some_iff.1 key
    obtain ⟨A, hA, hs⟩ := IntVal.components_ok _ _ e _ hl
    refine ⟨e, A, he, hA, ?_, fun fuel hf => ?_⟩
    · rw [hs]
      simp [blade, sub_eq_add_neg]
    · have h2 : blade ℝ 2 = vectorOf (![0, 1, 0] : Fin 3 → ℝ) := by
        unfold vectorOf
        rw [Fin.sum_univ_three]
        simp [Spec.e, blade]
      have h1 : blade ℝ 1 = vectorOf (![1, 0, 0] : Fin 3 → ℝ) := by
        unfold vectorOf
        rw [Fin.sum_univ_three]
        simp [Spec.e, blade]
      have hs1 : blade ℝ 1 ∈ space ℝ 3 := single_mem_space _ (by decide)
      have hh : Homogeneous 1 (blade ℝ 1) := homog_single _ (by decide)
      have hop : op (blade ℝ 2) (blade ℝ 1) = - blade ℝ 3 := by
        unfold blade op
        rw [bilin_single]
        have hm : extMul 2 1 = (-1, 3) := by decide +kernel
        rw [hm]
        simp
      obtain ⟨hg, -, hl, -⟩ := C18_vector_partial (conformalEntry (K := ℝ) 1) (n := 3) (by omega) ![0, 1, 0] ![1, 0, 0]
        hs1 hh (by omega) 0 fuel hf
      rw [← h2, ← h1] at hl
      rw [← h2] at hg
      rw [hg, hl, hop]
      have hz : (∑ i, ∑ j, (![1, 0, 0] : Fin 3 → ℝ) i * metricMatrix (conformalEntry 1) 3 i j * ![0, 1, 0] j) = 0 := by
        simp [Fin.sum_univ_three, metricMatrix, conformalEntry]
      rw [hz]
      simp [scalar]

end GATL.Props
