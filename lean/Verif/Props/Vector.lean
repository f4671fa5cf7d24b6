import Verif.Proofs.Points
import Verif.Props.General

/-!
# Vectors and points

**C46** (`vector(...)`), **C19** (points of the conformal model), **C41** (points of the Minkowski model).
`Verif/Spec/Vector.lean` says which coordinates have which values, and which vectors the points should be.
-/

namespace GATL.Props

open Expr Spec

variable {n D k : Nat} {τ : Types} {ρ : Env}

/-! ## C46 -/

/-- **C46** The vector of a list of coordinates has the `i`-th coordinate on the `i`-th basis vector and
nothing else: native numbers and scalars of one number type, and constant scalars accessed as `const`
(`c<v>`), in any order.

Missing: constants in non-`const` variables and stored scalars accessed as `const`, for which the call
does not compile (`C46_constants_is_false`, `C46_const_scalar_is_false`). -/
theorem C46_vector_partial {f : Bool} (hn : n ≤ 63) (h0 : n ≠ 0) {coords : List Coord} {x : Fin n → ℝ}
    (h : List.Forall₂ (CoordReads ρ f) coords (List.ofFn x)) :
    ∃ M, makeVector n (k + 1) coords = some M ∧ Canonical M.expr ∧
      Reads ρ n M.expr M.values M.bitsets (vectorOf x) := by
  have := makeVector_list (k := k) hn h0 List.length_ofFn h
  rwa [coordSum_eq] at this

/-- **C46** If every coordinate is a constant, it does not matter how it is accessed. -/
theorem C46_constant_partial (hn : n ≤ 63) (h0 : n ≠ 0) {coords : List Coord} {x : Fin n → ℝ}
    (h : List.Forall₂ (fun c y => CoefReads ρ c.coef [] y) coords (List.ofFn x)) :
    ∃ M, makeVector n (k + 1) coords = some M ∧ Canonical M.expr ∧
      Reads ρ n M.expr M.values M.bitsets (vectorOf x) := by
  have := makeVector_symbolic (k := k) hn h0 List.length_ofFn h
  rwa [coordSum_eq] at this

/-- **C46** is false as stated: with `auto two = c<2>;`, the call `vector(x, two)` does not compile. The
vector has one stored value, and two values are given. -/
theorem C46_constants_is_false (x : ℝ) (k : Nat) :
    makeVector 2 k [.native true x, .scalar false false (.const 2) []] = none := by
  rcases k with _ | k
  · rfl
  have hd : deduceVector 2 (k + 1) [.native true x, .scalar false false (.const 2) []]
      = some [⟨.stored, .const 1⟩, ⟨.const 2, .const 2⟩] := by rfl
  have hs : coordSlots [.native true x, .scalar false false (.const 2) []] = some [x, 2] := by
    simp [coordSlots, Coord.slots, isConstant, eval, asNumber]
  have hc : countValuesC [⟨.stored, .const 1⟩, ⟨.const 2, .const 2⟩] = 1 := by rfl
  simp only [makeVector, hd, hs, hc, List.length_cons, List.length_nil, Option.bind_eq_bind,
    Option.bind_some]
  simp

/-- **C46** is false as stated: with `auto const s = scalar(y);`, the call `vector(x, s)` does not
compile. -/
theorem C46_const_scalar_is_false (x y : ℝ) (k : Nat) :
    makeVector 2 k [.native true x, .scalar true true .stored [y]] = none := by
  rcases k with _ | k
  · rfl
  have hd : deduceVector 2 (k + 1) [.native true x, .scalar true true .stored [y]]
      = some [⟨.stored, .const 1⟩, ⟨.stored, .const 2⟩] := by
    have h : addC (k + 1) [⟨.stored, .const 1⟩] [⟨.stored, .const 2⟩]
      = some [⟨.stored, .const 1⟩, ⟨.stored, .const 2⟩] := rfl
    simp only [deduceVector, Coord.coef, Option.bind_eq_bind, Option.bind_some, List.length_cons,
      List.length_nil]
    exact h
  have hs : coordSlots [.native true x, .scalar true true .stored [y]] = none := by
    simp [coordSlots, Coord.slots]
  have hc : countValuesC [⟨.stored, .const 1⟩, ⟨.stored, .const 2⟩] = 2 := by rfl
  simp only [makeVector, hd, hs, hc, List.length_cons, List.length_nil, Option.bind_eq_bind,
    Option.bind_some]
  simp

/-- `vector(x, c<4>, c<0>, scalar(y))`. -/
example (x y : ℝ) : List.Forall₂ (CoordReads ρ true)
    [.native true x, constCoord 4, constCoord 0, .scalar false true .stored [y]]
    (List.ofFn (![x, 4, 0, y] : Fin 4 → ℝ)) := by
  have h4 := const_reads (ρ := ρ) 4
  have h0 := const_reads (ρ := ρ) 0
  norm_num at h4 h0
  simpa [List.ofFn_succ] using
    List.Forall₂.cons (.native x) (.cons h4 (.cons h0 (.cons (.stored y) .nil)))

/-! ## C19 -/

/-- **C19** `point(x)` in the conformal model is `x + e(D+1) + |x|²/2 e(D+2)`, for coordinates that are
floating-point numbers and constants `c<v>`.  The calls that compile are considered: folding constants
may exceed the range of the integers. -/
theorem C19_point (hD : D ≤ 61) {coords : List Coord} {x : Fin D → ℝ}
    (h : List.Forall₂ PointCoord coords (List.ofFn x)) {M : Object}
    (hM : conformalPoint D (k + 20) τ ρ coords = some M) :
    Canonical M.expr ∧ Reads ρ (D + 2) M.expr M.values M.bitsets (vectorOf (conformalCoords x)) := by
  rw [← coordSum_conformal]
  exact conformalPoint_reads hD List.length_ofFn h hM

/-- **C19** With floating-point numbers the call compiles. -/
theorem C19_point_compiles (hD : D ≤ 61) (h0 : D ≠ 0) (x : Fin D → ℝ) :
    List.Forall₂ PointCoord ((List.ofFn x).map (.native true)) (List.ofFn x) ∧
    ∃ M, conformalPoint D (k + 20) τ ρ ((List.ofFn x).map (.native true)) = some M :=
  ⟨List.forall₂_map_left_iff.mpr (List.forall₂_same.mpr fun x _ => PointCoord.native x),
   conformalPoint_native hD List.length_ofFn h0⟩

theorem conformal_form (x y : Fin D → ℝ) :
    ∑ i, ∑ j, conformalCoords y i * metricMatrix (conformalEntry D) (D + 2) i j * conformalCoords x j
      = -(∑ i, (x i - y i) ^ 2) / 2 := by
  have h1 : ∀ i j : Fin D, conformalEntry (K := ℝ) D (i.val + 1) (j.val + 1) = if i = j then 1 else 0 := by
    intro i j
    unfold conformalEntry
    rcases eq_or_ne i j with h | h
    · simp [h]
    · have : i.val ≠ j.val := fun h' => h (Fin.ext h')
      simp [h, this]
  simp only [Fin.sum_univ_castSucc, conformalCoords, metricMatrix, Matrix.of_apply, Fin.snoc_castSucc,
    Fin.snoc_last, Fin.val_castSucc, Fin.val_last, h1]
  have h2 : ∀ i : Fin D, conformalEntry (K := ℝ) D (i.val + 1) (D + 1) = 0 := by
    intro i; unfold conformalEntry; rw [if_neg (by omega), if_pos (by omega)]
  have h3 : ∀ i : Fin D, conformalEntry (K := ℝ) D (i.val + 1) (D + 1 + 1) = 0 := by
    intro i; unfold conformalEntry; rw [if_neg (by omega), if_pos (by omega)]
  have h4 : ∀ i : Fin D, conformalEntry (K := ℝ) D (D + 1) (i.val + 1) = 0 := by
    intro i; unfold conformalEntry; rw [if_neg (by omega), if_pos (by omega)]
  have h5 : ∀ i : Fin D, conformalEntry (K := ℝ) D (D + 1 + 1) (i.val + 1) = 0 := by
    intro i; unfold conformalEntry; rw [if_neg (by omega), if_pos (by omega)]
  have h6 : conformalEntry (K := ℝ) D (D + 1) (D + 1) = 0 := by simp [conformalEntry]
  have h7 : conformalEntry (K := ℝ) D (D + 1 + 1) (D + 1 + 1) = 0 := by simp [conformalEntry]
  have h8 : conformalEntry (K := ℝ) D (D + 1) (D + 1 + 1) = -1 := by simp [conformalEntry]
  have h9 : conformalEntry (K := ℝ) D (D + 1 + 1) (D + 1) = -1 := by simp [conformalEntry]
  simp only [h2, h3, h4, h5, h6, h7, h8, h9]
  have : ∑ i, (x i - y i) ^ 2 = ∑ i, x i ^ 2 + ∑ i, y i ^ 2 - 2 * ∑ i, y i * x i := by
    rw [Finset.mul_sum, ← Finset.sum_add_distrib, ← Finset.sum_sub_distrib]
    exact Finset.sum_congr rfl fun i _ => by ring
  rw [this]
  simp
  ring

/-- **C19** The scalar product of two points of the conformal model is `-|x - y|²/2`.  The product is
the one computed by the mapping of the general metrics with the entries of the conformal metric. -/
theorem C19_distance (hD : D ≤ 60) (x y : Fin D → ℝ) (fuel : Nat) (hf : 2 ^ (D + 2) < fuel) :
    genProd fuel (conformalEntry D) (D + 2) .sp (vectorOf (conformalCoords x)) (vectorOf (conformalCoords y))
      = scalar (-(∑ i, (x i - y i) ^ 2) / 2) := by
  have hx := vectorOf_homog (conformalCoords x) (by omega)
  have hy := vectorOf_homog (conformalCoords y) (by omega)
  have hxs := vectorOf_space (conformalCoords x) (by omega)
  have hys := vectorOf_space (conformalCoords y) (by omega)
  obtain ⟨h1, -, -, -, h5, -⟩ := C18_grade_parts_partial (conformalEntry D) (by omega) hxs hys hx hy
    (by norm_num) (by norm_num) fuel hf
  obtain ⟨-, -, h3, -⟩ := C18_vector_partial (conformalEntry D) (by omega) (conformalCoords x)
    (conformalCoords y) hys hy (by norm_num) 0 fuel hf
  rw [h5, ← conformal_form, ← h3, h1]
  norm_num

/-- **C19** Points of the conformal model are null. -/
theorem C19_null (hD : D ≤ 60) (x : Fin D → ℝ) (fuel : Nat) (hf : 2 ^ (D + 2) < fuel) :
    genProd fuel (conformalEntry D) (D + 2) .sp (vectorOf (conformalCoords x)) (vectorOf (conformalCoords x))
      = 0 := by
  rw [C19_distance hD x x fuel hf]
  simp [scalar]

/-- `point(1.0, 0.0, c<0>)` of the example programs compiles. -/
example : ∃ M, conformalPoint 3 20 τ ρ [.native true 1, .native true 0, constCoord 0] = some M := by
  have h0 : Coord.squared 20 τ ρ (constCoord 0) = some (constObject 0) := by
    rw [constCoord, Coord.squared, Coord.object, mkComp_scalar]
    · have : mulC (orthMapping 63 mkRealFactor .gp) 20 [⟨.const 0, .const 0⟩] [⟨.const 0, .const 0⟩]
        = some [⟨.const 0, .const 0⟩] := by rfl
      have ha : arguments (baseId [constObject 0, constObject 0]) [constObject 0, constObject 0] =
        some [[⟨.const 0, .const 0⟩], [⟨.const 0, .const 0⟩]] := by rfl
      change call2 20 τ ρ _ (constObject 0) (constObject 0) = _
      unfold call2
      rw [ha]
      simp only [Option.bind_eq_bind, Option.bind_some, this]
      exact context_const (Ms := [constObject 0, constObject 0]) (by rfl) 0
    · simp
  have h00 : call2 20 τ ρ (addC 20) (constObject 0) (constObject 0) = some (constObject 0) := by
    have : addC 20 [⟨.const 0, .const 0⟩] [⟨.const 0, .const 0⟩] = some [⟨.const 0, .const 0⟩] := by rfl
    have ha : arguments (baseId [constObject 0, constObject 0]) [constObject 0, constObject 0] =
      some [[⟨.const 0, .const 0⟩], [⟨.const 0, .const 0⟩]] := by rfl
    unfold call2
    rw [ha]
    simp only [Option.bind_eq_bind, Option.bind_some, this]
    exact context_const (Ms := [constObject 0, constObject 0]) (by rfl) 0
  have hs : ∃ s, sumOfSquares 20 τ ρ [.native true 1, .native true 0, constCoord 0]
      = some (scalarObject true s) := by
    simp only [sumOfSquares, h0, Option.bind_eq_bind, Option.bind_some, h00]
    simp only [Coord.squared, Option.bind_some, add_sc (k := 0), add_ss (k := 0)]
    exact ⟨_, rfl⟩
  obtain ⟨s, hs⟩ := hs
  simp only [conformalPoint, hs, Option.bind_eq_bind, Option.bind_some, half_s (k := 0)]
  obtain ⟨M, hM, -⟩ := makeVector_tail (D := 3) (k := 19) (ρ := ρ) (xs := [1, 0, (0 : Int)]) (by norm_num)
    rfl (.cons (.native 1) (.cons (.native 0) (.cons (.const 0) .nil))) (const_reads 1) (.stored (s / 2))
  exact ⟨M, hM⟩

/-- An integer variable as coordinate needs a narrowing conversion to the floating-point type of the
half of the sum of the squares: the call is ill-formed. -/
theorem C19_integers (x : ℝ) (k : Nat) : conformalPoint 1 (k + 20) τ ρ [.native false x] = none := by
  simp only [conformalPoint, sumOfSquares, Coord.squared, Option.bind_eq_bind, Option.bind_some, add_sc,
    half_s]
  have hd : deduceVector 3 (k + 20) [.native false x, constCoord 1, .scalar false true .stored [(↑(0 : Int) + x * x) / 2]]
      = some [⟨.stored, .const 1⟩, ⟨.const 1, .const 2⟩, ⟨.stored, .const 4⟩] := by
    have h : addC (k + 20) [⟨.const 1, .const 2⟩] [⟨.stored, .const 4⟩]
      = some [⟨.const 1, .const 2⟩, ⟨.stored, .const 4⟩] := rfl
    have h' : addC (k + 20) [⟨.stored, .const 1⟩] [⟨.const 1, .const 2⟩, ⟨.stored, .const 4⟩]
      = some [⟨.stored, .const 1⟩, ⟨.const 1, .const 2⟩, ⟨.stored, .const 4⟩] := rfl
    simp only [deduceVector, constCoord, Coord.coef, Option.bind_eq_bind, Option.bind_some,
      List.length_cons, List.length_nil]
    have e1 : mkComp (.const 1) (.const ((1 : Word) <<< (3 - (0 + 1 + 1)))) = ⟨.const 1, .const 2⟩ := rfl
    have e2 : mkComp .stored (.const ((1 : Word) <<< (3 - 1))) = ⟨.stored, .const 4⟩ := rfl
    rw [e1, e2, h]
    exact h'
  have hc : countValuesC [⟨.stored, .const 1⟩, ⟨.const 1, .const 2⟩, ⟨.stored, .const 4⟩] = 2 := by rfl
  have hq : (scalarObject true ((↑(0 : Int) + x * x) / 2)).coord
      = some (.scalar false true .stored [(↑(0 : Int) + x * x) / 2]) := rfl
  have ht : typesFit [.native false x, constCoord 1, .scalar false true .stored [(↑(0 : Int) + x * x) / 2]]
      = false := rfl
  simp only [hq, Option.bind_some, List.cons_append, List.nil_append, makeVector, hd, hc,
    List.length_cons, List.length_nil, Option.bind_eq_bind]
  simp only [ht]
  simp

/-! ## C41 -/

/-- **C41** `point(x)` in the Minkowski model is `x + (|x|² - 1)/2 e(D+1) + (|x|² + 1)/2 e(D+2)`, for
coordinates that are floating-point numbers and constants `c<v>`. -/
theorem C41_point (hD : D ≤ 61) {coords : List Coord} {x : Fin D → ℝ}
    (h : List.Forall₂ PointCoord coords (List.ofFn x)) {M : Object}
    (hM : minkowskiPoint D (k + 20) τ ρ coords = some M) :
    Canonical M.expr ∧ Reads ρ (D + 2) M.expr M.values M.bitsets (vectorOf (minkowskiCoords x)) := by
  rw [← coordSum_minkowski]
  exact minkowskiPoint_reads hD List.length_ofFn h hM

/-- **C41** With floating-point numbers the call compiles. -/
theorem C41_point_compiles (hD : D ≤ 61) (h0 : D ≠ 0) (x : Fin D → ℝ) :
    List.Forall₂ PointCoord ((List.ofFn x).map (.native true)) (List.ofFn x) ∧
    ∃ M, minkowskiPoint D (k + 20) τ ρ ((List.ofFn x).map (.native true)) = some M :=
  ⟨List.forall₂_map_left_iff.mpr (List.forall₂_same.mpr fun x _ => PointCoord.native x),
   minkowskiPoint_native hD List.length_ofFn h0⟩

/-- **C41** The scalar product of two points of the Minkowski model, the space of signature
`(D + 1, 1, 0)`, is `-|x - y|²/2`. -/
theorem C41_distance (hD : D ≤ 61) (x y : Fin D → ℝ) :
    signedProd (D + 1) 1 0 .sp (vectorOf (minkowskiCoords x)) (vectorOf (minkowskiCoords y))
      = scalar (-(∑ i, (x i - y i) ^ 2) / 2) := by
  unfold signedProd
  rw [signedFactor_cast (D + 1) 1 0 (by omega), sp_vectors _ (by omega)]
  congr 1
  simp only [Fin.sum_univ_castSucc, minkowskiCoords, Fin.snoc_castSucc, Fin.snoc_last, Fin.val_castSucc,
    Fin.val_last]
  have h1 : ∀ i : Fin D, signature (D + 1) 1 0 ⟨i.val, by omega⟩ = 1 := by
    intro i; unfold signature; rw [if_pos (show i.val < D + 1 by omega)]
  have h2 : signature (D + 1) 1 0 ⟨D, by omega⟩ = 1 := by
    unfold signature; rw [if_pos (show D < D + 1 by omega)]
  have h3 : signature (D + 1) 1 0 ⟨D + 1, by omega⟩ = -1 := by
    unfold signature; rw [if_neg (show ¬ D + 1 < D + 1 by omega), if_pos (show D + 1 < D + 1 + 1 by omega)]
  simp only [h1, h2, h3]
  have : ∑ i, (x i - y i) ^ 2 = ∑ i, x i ^ 2 + ∑ i, y i ^ 2 - 2 * ∑ i, x i * y i := by
    rw [Finset.mul_sum, ← Finset.sum_add_distrib, ← Finset.sum_sub_distrib]
    exact Finset.sum_congr rfl fun i _ => by ring
  rw [this]
  push_cast
  simp only [one_mul]
  ring

/-- **C41** Points of the Minkowski model are null. -/
theorem C41_null (hD : D ≤ 61) (x : Fin D → ℝ) :
    signedProd (D + 1) 1 0 .sp (vectorOf (minkowskiCoords x)) (vectorOf (minkowskiCoords x)) = 0 := by
  rw [C41_distance hD x x]
  simp [scalar]

end GATL.Props
