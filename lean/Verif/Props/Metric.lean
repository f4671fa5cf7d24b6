import Verif.Proofs.GeometricAlgebra
import Verif.Proofs.MetricType
import Verif.Props.GeneralTypes
import Verif.Props.Rational

/-!
# Programs in spaces with any metric

**C67**.  `t.runIn S k τ ρ Ms` runs the program `t` on the objects `Ms` in the metric space `S`, one operation after the
other, and `t.runLazyIn S k τ ρ Ms` runs it in one lazy context.  The space is `conformal_metric_space<D>`
(`conformalSpace D`) or `general_metric_space<Entries...>` (`matrixSpace n entries`).  `GeometricAlgebra n M m` says that
`m` are the products of the geometric algebra with the metric matrix `M` (`Verif/Spec/Programs.lean`), and
`t.valueIn n m As` is the value of the formula `t` there.
-/

namespace GATL.Props

open Expr Spec

variable {τ : Types} {ρ : Env} {k : Nat}

/-- **C67** Every metric matrix of up to seven dimensions has a geometric algebra, and only one: this is what the
theorems below refer to. -/
theorem C67_algebra {n : Nat} (hn : n ≤ 7) (M : Matrix (Fin n) (Fin n) ℝ) :
    (∃ m, GeometricAlgebra n M m) ∧ ∀ m m', GeometricAlgebra n M m → GeometricAlgebra n M m' →
      ∀ g A B, A ∈ space ℝ n → B ∈ space ℝ n → m g A B = m' g A B := by
  refine ⟨?_, fun m m' h h' g A B hA hB => h.unique (by omega) h' g hA hB⟩
  have := geometricAlgebra_gen (n := n) hn
    (fun i j => if h : i - 1 < n ∧ j - 1 < n then M ⟨i - 1, h.1⟩ ⟨j - 1, h.2⟩ else 0) (fuel := 2 ^ n + 1) (by omega)
  rw [show metricMatrix _ n = M from by
    ext i j
    simp [metricMatrix]] at this
  exact ⟨_, this⟩

theorem reads_space {n : Nat} {s : CSum} {vs : List ℝ} {ws : List Word} {A : MV ℝ} (h : Reads ρ n s vs ws A) :
    A ∈ space ℝ n := by
  induction h with
  | nil => exact Submodule.zero_mem _
  | @cons c b s vs ws vs' ws' x t m hc hb hw hs ih =>
    refine Submodule.add_mem _ (single_mem_space _ ?_) ih
    cases t with
    | const w => exact fun i hi => hw ⟨i, by have := BitVec.lt_of_getLsbD hi; omega⟩ (by simpa [vecs, TBlade.bits] using hi)
    | dyn G w => exact fun i hi => hw.2.1 ⟨i, by have := BitVec.lt_of_getLsbD hi; omega⟩ (by simpa [vecs, TBlade.bits] using hi)

theorem forall_space {n : Nat} {r : Object → MV ℝ → Prop} {Ms : List Object} {As : List (MV ℝ)}
    (hr : ∀ M A, r M A → A ∈ space ℝ n) (h : List.Forall₂ r Ms As) : ∀ A ∈ As, A ∈ space ℝ n := by
  induction h with
  | nil => simp
  | cons h _ ih => simpa using ⟨hr _ _ h, ih⟩

section
variable {S : SpaceType} {n : Nat} {q : Nat → Nat → ℝ} {M : Matrix (Fin n) (Fin n) ℝ} {m : Metric ℝ}

/-- The products that the types of the space compute are those of the geometric algebra. -/
structure Realizes (S : SpaceType) (k n : Nat) (m : Metric ℝ) : Prop where
  dims : S.dims = n
  small : n ≤ 7
  computes : ∃ m', Computes S k m' ∧ SameProducts n m m'

theorem realizes (hd : S.dims = n) (hn : n ≤ 7) (hM : metricMatrix q n = M) (hm : GeometricAlgebra n M m)
    (hc : ∀ fuel, k ≤ fuel → Computes S k (fun g A B => genProd fuel q n g A B)) : Realizes S k n m :=
  ⟨hd, hn, _, hc (max k (2 ^ n + 1)) (by omega),
    agree_unique (by omega) hm (hM ▸ geometricAlgebra_gen hn q (fuel := max k (2 ^ n + 1)) (by omega))⟩

theorem realizes_run (h : Realizes S k n m) {Ms : List Object} {As : List (MV ℝ)}
    (hA : List.Forall₂ (Represents ρ n) Ms As) (t : Program) (o : Object)
    (ho : t.runIn S k τ ρ Ms = some o ∨ t.runLazyIn S k τ ρ Ms = some o) : Represents ρ n o (t.valueIn n m As) := by
  obtain ⟨rfl, hn, m', h1, h2⟩ := h
  rw [(value_agree (by omega) h2 (forall_space (fun _ _ h => reads_space h.2) hA) t).1]
  exact ho.elim (runIn_holds h1 hA t o) (runLazyIn_holds h1 hA t o)

theorem realizes_rational (h : Realizes S k n m) {Ms : List Object} {As : List (MV ℝ)}
    (hA : List.Forall₂ (Stands ρ n) Ms As) (t : Rational) (o : Object) (B : MV ℝ) (hv : t.valueIn n m As = some B)
    (hq : NoIntegerDivisionIn S k τ ρ Ms t) (ho : t.runLazyIn S k τ ρ Ms = some o) : Stands ρ n o B := by
  obtain ⟨rfl, hn, m', h1, h2⟩ := h
  rw [rationalValue_agree (by omega) h2 t (forall_space (fun _ _ h => reads_space h.2) hA)] at hv
  exact rationalIn_stands h1 hA t hv hq ho

end

theorem conformal_matrix (D : Nat) : metricMatrix (conformalEntry D) (D + 2) = conformalMetric D := by
  ext i j
  simp only [metricMatrix, conformalMetric, Matrix.of_apply, conformalEntry, ne_eq, Fin.ext_iff]
  split_ifs <;> first | rfl | (exfalso; omega)

/-- The conformal space computes the products of the conformal model. -/
theorem realizes_conformal {D : Nat} (hD : D ≤ 5) {m : Metric ℝ} (hm : GeometricAlgebra (D + 2) (conformalMetric D) m) :
    Realizes (conformalSpace D) k (D + 2) m :=
  realizes rfl (by omega) (conformal_matrix D) hm fun _ hk => computes_conformal (by omega) hk

/-- The matrix with the given entries in row-major order. -/
def rowMajor (n : Nat) (entries : List Int) : Matrix (Fin n) (Fin n) ℝ :=
  Matrix.of fun i j => (entries.getD (n * i.val + j.val) 0 : ℝ)

theorem realizes_matrix {n : Nat} (hn : n ≤ 7) (entries : List Int) {m : Metric ℝ}
    (hm : GeometricAlgebra n (rowMajor n entries) m) : Realizes (matrixSpace n (entries.map .const)) k n m :=
  realizes rfl hn (by ext i j; simp [metricMatrix, rowMajor]) hm fun _ hk => computes_matrix (by omega) entries hk

/-- **C67** In `conformal_metric_space<D>` with `D ≤ 5`, the result of a program, run step by step or lazily, stands for
the value of the formula in the geometric algebra of the conformal metric.

Missing: more than five dimensions (see C18) and objects with run-time basis blades, for which it is false
(`C23_conformal_runtime_blade_is_false`). -/
theorem C67_conformal_programs_partial {D : Nat} (hD : D ≤ 5) {m : Metric ℝ}
    (hm : GeometricAlgebra (D + 2) (conformalMetric D) m) (Ms : List Object) (As : List (MV ℝ))
    (hA : List.Forall₂ (Represents ρ (D + 2)) Ms As) (t : Program) (o : Object)
    (h : t.runIn (conformalSpace D) k τ ρ Ms = some o ∨ t.runLazyIn (conformalSpace D) k τ ρ Ms = some o) :
    Represents ρ (D + 2) o (t.valueIn (D + 2) m As) :=
  realizes_run (realizes_conformal hD hm) hA t o h

/-- **C67** The same for programs with inverses, wherever no multivector with a vanishing squared norm is inverted.

Missing: as above, and quotients of integers, for which it is false (`C58_integer_division_is_false`). -/
theorem C67_conformal_inverses_partial {D : Nat} (hD : D ≤ 5) {m : Metric ℝ}
    (hm : GeometricAlgebra (D + 2) (conformalMetric D) m) (Ms : List Object) (As : List (MV ℝ))
    (hA : List.Forall₂ (Stands ρ (D + 2)) Ms As) (t : Rational) (o : Object) (B : MV ℝ)
    (hv : t.valueIn (D + 2) m As = some B) (hq : NoIntegerDivisionIn (conformalSpace D) k τ ρ Ms t)
    (h : t.runLazyIn (conformalSpace D) k τ ρ Ms = some o) : Stands ρ (D + 2) o B :=
  realizes_rational (realizes_conformal hD hm) hA t o B hv hq h

/-- **C67** In `general_metric_space<Entries...>` with up to seven dimensions and constant entries, in row-major order, the
result of a program, run step by step or lazily, stands for the value of the formula in the geometric algebra of the matrix.

Missing: as for the conformal space. -/
theorem C67_matrix_programs_partial {n : Nat} (hn : n ≤ 7) (entries : List Int) {m : Metric ℝ}
    (hm : GeometricAlgebra n (rowMajor n entries) m) (Ms : List Object) (As : List (MV ℝ))
    (hA : List.Forall₂ (Represents ρ n) Ms As) (t : Program) (o : Object)
    (h : t.runIn (matrixSpace n (entries.map .const)) k τ ρ Ms = some o ∨
      t.runLazyIn (matrixSpace n (entries.map .const)) k τ ρ Ms = some o) :
    Represents ρ n o (t.valueIn n m As) :=
  realizes_run (realizes_matrix hn entries hm) hA t o h

/-- **C67** The same for programs with inverses. -/
theorem C67_matrix_inverses_partial {n : Nat} (hn : n ≤ 7) (entries : List Int) {m : Metric ℝ}
    (hm : GeometricAlgebra n (rowMajor n entries) m) (Ms : List Object) (As : List (MV ℝ))
    (hA : List.Forall₂ (Stands ρ n) Ms As) (t : Rational) (o : Object) (B : MV ℝ)
    (hv : t.valueIn n m As = some B) (hq : NoIntegerDivisionIn (matrixSpace n (entries.map .const)) k τ ρ Ms t)
    (h : t.runLazyIn (matrixSpace n (entries.map .const)) k τ ρ Ms = some o) : Stands ρ n o B :=
  realizes_rational (realizes_matrix hn entries hm) hA t o B hv hq h

/-- **C67** In the signed spaces the programs are those of C25 and C58. -/
theorem C67_signed (P Q R : Nat) (Ms : List Object) :
    (∀ t : Program, t.runIn (signedSpace P Q R) k τ ρ Ms = t.run P Q R k τ ρ Ms ∧
      t.runLazyIn (signedSpace P Q R) k τ ρ Ms = t.runLazy P Q R k τ ρ Ms) ∧
    ∀ t : Rational, t.runLazyIn (signedSpace P Q R) k τ ρ Ms = t.runLazy P Q R k τ ρ Ms :=
  ⟨fun t => ⟨run_signed t, runLazy_signed t⟩, fun t => rationalLazy_signed t⟩

/-! ### The inverse of `x e1 + y e2` where `e1·e1 = 2`, `e1·e2 = 1`, `e2·e2 = 3` -/

theorem matrix_vec_type : Rational.inverseProgram.typeOfIn (matrixSpace 2 ([2, 1, 1, 3].map .const)) 60
    [[⟨.value 1 0, .const 1⟩, ⟨.value 1 1, .const 2⟩]] =
    some [⟨.fn .mul [powerOf (.fn .add [.fn .mul [.const 2, .value 1 0, .value 1 1],
        .fn .mul [.const 2, powerOf (.value 1 0) (.const 2)], .fn .mul [.const 3, powerOf (.value 1 1) (.const 2)]])
        (.const (-1)), .value 1 0], .const 1⟩,
      ⟨.fn .mul [powerOf (.fn .add [.fn .mul [.const 2, .value 1 0, .value 1 1],
        .fn .mul [.const 2, powerOf (.value 1 0) (.const 2)], .fn .mul [.const 3, powerOf (.value 1 1) (.const 2)]])
        (.const (-1)), .value 1 1], .const 2⟩] := by
  decide +kernel

theorem matrix_vec_quotients (x y : ℝ) :
    NoIntegerDivisionIn (matrixSpace 2 ([2, 1, 1, 3].map .const)) 60 τ ρ [vecObj x y] Rational.inverseProgram := by
  intro e he
  rw [lazyTypeIn_pure (as := [[⟨.value 1 0, .const 1⟩, ⟨.value 1 1, .const 2⟩]]) (by rfl) matrix_vec_type] at he
  cases he
  intro c hc
  simp only [List.mem_cons, List.not_mem_nil, or_false] at hc
  rcases hc with rfl | rfl
  all_goals
    simp only [NoIntQuotient, NoIntQuotientAll, powerOf, and_true, true_and]
    repeat' apply And.intro
  all_goals
    intro pre l r h
    rcases pre with _ | ⟨a, _ | ⟨b, _ | ⟨c, pre⟩⟩⟩ <;> simp at h

theorem matrix_vec (x y : ℝ) (h : 2 * (x * y) + (2 * (x * x) + 3 * (y * y)) ≠ 0) :
    ∃ o, Rational.inverseProgram.runLazyIn (matrixSpace 2 ([2, 1, 1, 3].map .const)) 60 τ ρ [vecObj x y] = some o := by
  unfold Rational.runLazyIn
  rw [lazyTypeIn_pure (as := [[⟨.value 1 0, .const 1⟩, ⟨.value 1 1, .const 2⟩]]) (by rfl) matrix_vec_type]
  exact ⟨_, contextObject_some (s' := [⟨.stored, .const 1⟩, ⟨.stored, .const 2⟩])
    (vs := [(2 * (x * y) + (2 * (x * x) + 3 * (y * y)))⁻¹ * x, (2 * (x * y) + (2 * (x * x) + 3 * (y * y)))⁻¹ * y]) (ws := [])
    (by simp [storedInputs, hasStoredC, hasStored]) (by rfl)
    (by simp [exec, eval, evalAdd, evalMul, evalPower, contextEnv, num2, asNumber, baseId, storedInputs, hasStoredC,
      hasStored, greaterIdC, greaterId, Blade.greaterId, h])⟩

-- the squared norm of `e1 + e2` is 7, and its inverse is computed
example {m : Metric ℝ} (hm : GeometricAlgebra 2 (rowMajor 2 [2, 1, 1, 3]) m) :
    ∃ o, Rational.inverseProgram.runLazyIn (matrixSpace 2 ([2, 1, 1, 3].map .const)) 60 τ ρ [vecObj 1 1] = some o ∧
      Stands ρ 2 o ((7 : ℝ)⁻¹ • (Finsupp.single 1 1 + Finsupp.single 2 1)) := by
  obtain ⟨o, ho⟩ := matrix_vec (τ := τ) (ρ := ρ) 1 1 (by norm_num)
  have hv : (Finsupp.single 1 1 + Finsupp.single 2 1 : MV ℝ) = vectorOf (![1, 1] : Fin 2 → ℝ) := by
    unfold vectorOf
    rw [Fin.sum_univ_two]
    simp [Spec.e]
  have hr : Represents ρ 2 (vecObj 1 1) (Finsupp.single 1 1 + Finsupp.single 2 1) := by
    refine ⟨(vec_represents (ρ := ρ) 1 1).1, ?_⟩
    have h1 : WellTyped 2 ((1 : ℝ), TBlade.const 1) := by simp only [WellTyped]; decide
    have h2 : WellTyped 2 ((1 : ℝ), TBlade.const 2) := by simp only [WellTyped]; decide
    have := Reads.cons (.stored 1) (.const 1) h1 (Reads.cons (ρ := ρ) (.stored 1) (.const 2) h2 .nil)
    simpa [TBlade.bits] using this
  refine ⟨o, ho, C67_matrix_inverses_partial (by norm_num) [2, 1, 1, 3] hm _ _ (.cons (represents_stands hr) .nil) _ o _ ?_
    (matrix_vec_quotients 1 1) ho⟩
  have hN : rnormSqr m (Finsupp.single 1 1 + Finsupp.single 2 1) = 7 := by
    rw [hv, hm.norm_vector (by norm_num)]
    simp [Fin.sum_univ_two, rowMajor]
    norm_num
  simp only [Rational.inverseProgram, Rational.valueIn, Program.valueIn, List.getD_cons_zero, hN]
  rw [if_neg (by norm_num)]
  rw [hv, Iso.reverse_vec (vectorOf_homog (![1, 1] : Fin 2 → ℝ) (by norm_num))]
  rfl

/-! ### The square of `x e1 + y e3` in the conformal model of the line, whose infinity is `e3` -/

/-- The vector `x e1 + y e3`. -/
abbrev farObj (x y : ℝ) : Object := ⟨true, [⟨.stored, .const 1⟩, ⟨.stored, .const 4⟩], [x, y], []⟩

theorem conformal_vec_type : (Rational.ret (.graded .gp (.input 0) (.input 0))).typeOfIn (conformalSpace 1) 60
    [[⟨.value 1 0, .const 1⟩, ⟨.value 1 1, .const 4⟩]] = some [⟨powerOf (.value 1 0) (.const 2), .const 0⟩] := by
  decide +kernel

-- the theorem applies: the square is `x²`
example (x y : ℝ) {m : Metric ℝ} (hm : GeometricAlgebra 3 (conformalMetric 1) m) :
    ∃ o, (Program.graded .gp (.input 0) (.input 0)).runLazyIn (conformalSpace 1) 60 τ ρ [farObj x y] = some o ∧
      o.values = [x * x] ∧ Represents ρ 3 o (m .gp (Finsupp.single 1 x + Finsupp.single 4 y)
        (Finsupp.single 1 x + Finsupp.single 4 y)) := by
  have hr : Represents ρ 3 (farObj x y) (Finsupp.single 1 x + Finsupp.single 4 y) := by
    refine ⟨⟨⟨by simp, ?_, ?_, .inr (by simp)⟩, by simp⟩, ?_⟩
    · simp only [List.mem_cons, List.not_mem_nil, or_false, forall_eq_or_imp, forall_eq]
      exact ⟨⟨1, rfl, by decide⟩, 4, rfl, by decide⟩
    · simp only [List.pairwise_cons, List.mem_singleton, forall_eq, Blade.const.injEq]
      refine ⟨?_, by simp⟩
      rintro a b rfl rfl
      exact .inr (by decide)
    · have h1 : WellTyped 3 (x, TBlade.const 1) := by simp only [WellTyped]; decide
      have h2 : WellTyped 3 (y, TBlade.const 4) := by simp only [WellTyped]; decide
      have := Reads.cons (.stored x) (.const 1) h1 (Reads.cons (ρ := ρ) (.stored y) (.const 4) h2 .nil)
      simpa [TBlade.bits] using this
  have ht := lazyTypeIn_pure (τ := τ) (outer := ρ) (Ms := [farObj x y])
    (as := [[⟨.value 1 0, .const 1⟩, ⟨.value 1 1, .const 4⟩]]) (by rfl) conformal_vec_type
  have hc := contextObject_some (τ := τ) (ρ := ρ) (k := 60) (Ms := [farObj x y])
    (e := [⟨powerOf (.value 1 0) (.const 2), .const 0⟩]) (s' := [⟨.stored, .const 0⟩]) (vs := [x * x]) (ws := [])
    (by simp [storedInputs, hasStoredC, hasStored]) (by rfl)
    (by simp [exec, eval, evalPower, contextEnv, asNumber, baseId, storedInputs, hasStoredC, hasStored, greaterIdC,
      greaterId, Blade.greaterId])
  have ho := hc
  unfold Rational.lazyTypeIn Rational.runIn at ht
  simp only [Option.bind_eq_bind, Option.bind_eq_some_iff, Option.some.injEq] at ht
  obtain ⟨as, h1, r, h2, h3⟩ := ht
  rw [← h3, show contextObject 60 τ ρ [farObj x y] r.expr = (Program.graded .gp (.input 0) (.input 0)).runLazyIn
    (conformalSpace 1) 60 τ ρ [farObj x y] from by
      unfold Program.runLazyIn
      rw [h1, Option.bind_eq_bind, Option.bind_some, h2, Option.bind_eq_bind, Option.bind_some]] at ho
  exact ⟨_, ho, rfl, C67_conformal_programs_partial (D := 1) (by norm_num) hm _ _ (.cons hr .nil) _ _ (.inr ho)⟩

end GATL.Props
