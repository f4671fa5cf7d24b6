import Verif.Proofs.TestsTotal
import Verif.Props.Take
import Verif.Props.Copy

/-!
# Visiting components, and tests of multivectors

**C42** (`is_zero`, `is_null`, `is_unit`), **C55**, **C56**, **C57** (`for_each_component`).

`ReadsEach ρ s vs ws L` says that `L` are the components of an object with the type `s` and the storages `vs`,
`ws`; `Represents ρ n M A` says that the object `M` stands for the multivector `A` of a space with `n` dimensions.
`Verif/Spec/Tests.lean` says how a component is shown to a function object, and what it means that the function
object wants to keep going.
-/

namespace GATL.Props

open Expr Spec

variable {τ : Types} {ρ : Env}

/-! ## C55 -/

/-- **C55** `for_each_component` shows every component once, in order, until the function object does not want to
keep going, and returns whether all components have been visited.  (What happens if it throws: C56.)

Missing: constant coefficients that are not integers, in an object with an integer coefficient type
(`C42_rational_is_false`). -/
theorem C55_visits_partial {γ σ : Type} (f : Callback γ σ) (g : γ) (s : σ) (M : Object) (L : List (ℝ × TBlade))
    (hL : ReadsEach ρ M.expr M.values M.bitsets L) (hq : ∀ c ∈ M.expr, NoIntQuotient τ c.coef)
    (hf : M.floats = true ∨ Integral L) (r : Visit γ) (h : forEachComponent τ ρ f g s M = some r) :
    (∀ g', Kept f s g (List.zipWith shown M.expr L) g' → r = .returned g' true) ∧
    ∀ xs x rest g₁, List.zipWith shown M.expr L = xs ++ x :: rest → Kept f s g xs g₁ →
      ∀ g' s', callback f g₁ s x = some (g', s', false) → r = .returned g' false := by
  unfold forEachComponent at h
  split_ifs at h with hv
  cases h
  have hv' := List.all_eq_true.1 hv
  exact ⟨fun g' h => visitFrom_all hL hv' hq hf h,
    fun xs x rest g₁ h1 h2 => (visitFrom_at hL hv' hq hf h1 h2).2⟩

/-- **C55** The call compiles for coefficients that are stored or known at compile time, and basis blades that are
known at compile time or stored. -/
theorem C55_compiles {γ σ : Type} (f : Callback γ σ) (g : γ) (s : σ) (M : Object)
    (hc : ∀ c ∈ M.expr, c.coef = .stored ∨ isConstant c.coef = true)
    (hb : ∀ c ∈ M.expr, (∃ b, c.blade = .const b) ∨ ∃ G, c.blade = .dyn G .storedBits) :
    ∃ r, forEachComponent τ ρ f g s M = some r := by
  unfold forEachComponent
  rw [if_pos]
  · exact ⟨_, rfl⟩
  · rw [List.all_eq_true]
    intro c h
    rcases hc c h with h1 | h1 <;> rcases hb c h with ⟨b, h2⟩ | ⟨G, h2⟩ <;> simp [visitable, h1, h2]

/-- A function object that appends what it is shown to a list, until it has been shown `k` components. -/
def collect (k : Nat) : Callback (List (Word × ℝ)) Unit :=
  fun g _ b x _ _ => some (g ++ [(b, x)], (), decide (g.length + 1 < k))

-- the first two of the three components of `3 e1 + 2 e2 - e3`, where the 2 is part of the type
example : forEachComponent τ ρ (collect 2) [] () ⟨true, sampleInput, [3, -1], []⟩ =
    some (.returned [(1, 3), (2, 2)] false) := by
  obtain ⟨r, h⟩ := C55_compiles (τ := τ) (ρ := ρ) (collect 2) [] () ⟨true, sampleInput, [3, -1], []⟩
    (by simp [sampleInput, isConstant]) (by simp [sampleInput])
  have := (C55_visits_partial (τ := τ) (collect 2) [] () ⟨true, sampleInput, [3, -1], []⟩ _ sampleInput_reads
    (by simp [sampleInput, NoIntQuotient]) (.inl rfl) r h).2
    [shown ⟨.stored, .const 1⟩ (3, .const 1)] (shown ⟨.const 2, .const 2⟩ (2, .const 2))
    [shown ⟨.stored, .const 4⟩ (-1, .const 4)] [(1, 3)] rfl
    (.cons (g₁ := [(1, 3)]) (s' := ()) (by simp [callback, collect, shown, TBlade.bits]) (.nil _))
    [(1, 3), (2, 2)] () (by simp [callback, collect, shown, TBlade.bits])
  rw [h, this]

-- all components, one of them a stored basis blade
example : forEachComponent τ ρ (collect 5) [] () ⟨true, [⟨.stored, .dyn 2 .storedBits⟩, ⟨.stored, .const 3⟩],
    [7, -1], [4]⟩ = some (.returned [(4, 7), (3, -1)] true) := by
  obtain ⟨r, h⟩ := C55_compiles (τ := τ) (ρ := ρ) (collect 5) [] ()
    ⟨true, [⟨.stored, .dyn 2 .storedBits⟩, ⟨.stored, .const 3⟩], [7, -1], [4]⟩ (by simp) (by simp)
  have := (C55_visits_partial (τ := τ) (ρ := ρ) (collect 5) [] ()
    ⟨true, [⟨.stored, .dyn 2 .storedBits⟩, ⟨.stored, .const 3⟩], [7, -1], [4]⟩ [(7, .dyn 2 4), (-1, .const 3)]
    (.cons (vs := [7]) (ws := [4]) (.stored 7) (.stored 2 4)
      (.cons (vs := [-1]) (ws := []) (.stored (-1)) (.const 3) .nil))
    (by simp [NoIntQuotient]) (.inl rfl) r h).1 [(4, 7), (3, -1)]
    (.cons (g₁ := [(4, 7)]) (s' := ()) (by simp [callback, collect, shown, TBlade.bits])
      (.cons (g₁ := [(4, 7), (3, -1)]) (s' := ()) (by simp [callback, collect, shown, TBlade.bits]) (.nil _)))
  rw [h, this]

/-! ## C56 -/

/-- **C56** is false: an exception of the function object does not reach the caller, the program is terminated,
whatever the multivector and the function object. -/
theorem C56_exceptions_is_false {γ σ : Type} (f : Callback γ σ) (g : γ) (s : σ) (M : Object) (L : List (ℝ × TBlade))
    (hL : ReadsEach ρ M.expr M.values M.bitsets L) (hq : ∀ c ∈ M.expr, NoIntQuotient τ c.coef)
    (hf : M.floats = true ∨ Integral L) (r : Visit γ) (h : forEachComponent τ ρ f g s M = some r)
    (xs : List Shown) (x : Shown) (rest : List Shown) (g₁ : γ)
    (h1 : List.zipWith shown M.expr L = xs ++ x :: rest) (h2 : Kept f s g xs g₁) (h3 : callback f g₁ s x = none) :
    r = .terminated := by
  unfold forEachComponent at h
  split_ifs at h with hv
  cases h
  exact (visitFrom_at hL (List.all_eq_true.1 hv) hq hf h1 h2).1 h3

-- a function object that throws when it is shown a coefficient that is not positive, and `3 e1 + 2 e2 - e3`
example : forEachComponent (γ := Unit) (σ := Unit) τ ρ
    (fun _ _ _ x _ _ => if 0 < x then some ((), (), true) else none) () () ⟨true, sampleInput, [3, -1], []⟩ =
    some .terminated := by
  obtain ⟨r, h⟩ := C55_compiles (γ := Unit) (σ := Unit) (τ := τ) (ρ := ρ)
    (fun _ _ _ x _ _ => if 0 < x then some ((), (), true) else none) () () ⟨true, sampleInput, [3, -1], []⟩
    (by simp [sampleInput, isConstant]) (by simp [sampleInput])
  have := C56_exceptions_is_false (τ := τ) _ () () ⟨true, sampleInput, [3, -1], []⟩ _ sampleInput_reads
    (by simp [sampleInput, NoIntQuotient]) (.inl rfl) r h
    [shown ⟨.stored, .const 1⟩ (3, .const 1), shown ⟨.const 2, .const 2⟩ (2, .const 2)]
    (shown ⟨.stored, .const 4⟩ (-1, .const 4)) [] () rfl
    (.cons (g₁ := ()) (s' := ()) (by simp [callback, shown])
      (.cons (g₁ := ()) (s' := ()) (by simp [callback, shown]) (.nil _)))
    (by simp only [callback, shown]; norm_num)
  rw [h, this]

/-! ## C57 -/

/-- A function object that counts its calls in its own state, and reports the count. -/
def counter : Callback (List Nat) Nat := fun g s _ _ _ _ => some (g ++ [s], s + 1, true)

/-- **C57** is false: a function object does not keep its own state from one component to the next.  The function
object that counts its calls reports 0 for each of the components of `3 e1 + 2 e2 - e3`; used for one component
after the other it would report 0, 1, 2. -/
theorem C57_state_is_false :
    forEachComponent τ ρ counter [] 0 ⟨true, sampleInput, [3, -1], []⟩ = some (.returned [0, 0, 0] true) ∧
    (∀ g', KeptState counter [] 0 (List.zipWith shown sampleInput [(3, .const 1), (2, .const 2), (-1, .const 4)]) g' ↔
      g' = [0, 1, 2]) := by
  constructor
  · obtain ⟨r, h⟩ := C55_compiles (τ := τ) (ρ := ρ) counter [] 0 ⟨true, sampleInput, [3, -1], []⟩
      (by simp [sampleInput, isConstant]) (by simp [sampleInput])
    have := (C55_visits_partial (τ := τ) counter [] 0 ⟨true, sampleInput, [3, -1], []⟩ _ sampleInput_reads
      (by simp [sampleInput, NoIntQuotient]) (.inl rfl) r h).1 [0, 0, 0]
      (.cons rfl (.cons rfl (.cons rfl (.nil _))))
    rw [h, this]
  · intro g'
    constructor
    · intro h
      cases h with
      | cons hx h =>
        cases hx
        cases h with
        | cons hx h =>
          cases hx
          cases h with
          | cons hx h =>
            cases hx
            cases h
            rfl
    · rintro rfl
      exact .cons rfl (.cons rfl (.cons rfl (.nil _ _)))

/-! ## C42 -/

/-- **C42** (part) `is_zero(A, tol)` compiles and says whether every coefficient of `A` is within the tolerance of 0.

Missing: coefficients that are part of the type and not integers (`C42_rational_is_false`); run-time basis blades
(`C42_is_zero_components_partial`). -/
theorem C42_is_zero_partial (n : Nat) (M : Object) (A : MV ℝ) (hM : Represents ρ n M A) (hi : IntegerStorage M) (tol : ℝ)
    (h0 : 0 ≤ tol) :
    ∃ r, isZero τ ρ M tol = some (.returned () r) ∧ (r = true ↔ ∀ b, |A b| ≤ tol) :=
  isZero_represents hM hi h0

/-- **C42** (part) The same for objects with run-time basis blades, and their components. -/
theorem C42_is_zero_components_partial (M : Object) (L : List (ℝ × TBlade))
    (hL : ReadsEach ρ M.expr M.values M.bitsets L) (hq : ∀ c ∈ M.expr, NoIntQuotient τ c.coef)
    (hf : M.floats = true ∨ Integral L) (hc : ∀ c ∈ M.expr, c.coef = .stored ∨ isConstant c.coef = true)
    (hb : ∀ c ∈ M.expr, (∃ b, c.blade = .const b) ∨ ∃ G, c.blade = .dyn G .storedBits) (tol : ℝ) (h0 : 0 ≤ tol) :
    ∃ r, isZero τ ρ M tol = some (.returned () r) ∧ (r = true ↔ ∀ p ∈ L, |p.1| ≤ tol) := by
  refine isZero_each hL (fun c h => ?_) hq hf h0
  rcases hc c h with h1 | h1 <;> rcases hb c h with ⟨b, h2⟩ | ⟨G, h2⟩ <;> simp [visitable, h1, h2]

/-- **C42** (part) `is_null(A, tol)`, if it compiles, says whether the squared reverse norm of `A` is within the
tolerance of 0, in every space with signature `(P, Q, R)`. -/
theorem C42_is_null_partial (P Q R : Nat) (hn : P + Q + R ≤ 62) (k : Nat) (M : Object) (A : MV ℝ)
    (hM : Represents ρ (P + Q + R) M A) (hi : IntegerStorage M) (hρ : IntegerVariables τ ρ) (tol : ℝ) (h0 : 0 ≤ tol)
    (o : Visit Unit) (h : isNull P Q R k τ ρ M tol = some o) :
    ∃ r, o = .returned () r ∧ (r = true ↔ |rnormSqr (signedProd P Q R) A| ≤ tol) := by
  simp only [isNull, Option.bind_eq_bind, Option.bind_eq_some_iff] at h
  obtain ⟨s, hs, h⟩ := h
  obtain ⟨h1, h2⟩ := normSqr_ok hn hM hs
  obtain ⟨r, h3, h4⟩ := isZero_represents (τ := τ) h1 (h2 hρ hi) h0
  rw [h3] at h
  cases h
  exact ⟨r, rfl, h4.trans (single_all h0)⟩

/-- **C42** (part) `is_unit(A, tol)`, if it compiles, says whether the absolute value of the squared reverse norm of
`A` is within the tolerance of 1, in every space with signature `(P, Q, R)`. -/
theorem C42_is_unit_partial (P Q R : Nat) (hn : P + Q + R ≤ 62) (k : Nat) (M : Object) (A : MV ℝ)
    (hM : Represents ρ (P + Q + R) M A) (hi : IntegerStorage M) (hρ : IntegerVariables τ ρ) (tol : ℝ) (h0 : 0 ≤ tol)
    (o : Visit Unit) (h : isUnit P Q R (k + 1) τ ρ M tol = some o) :
    ∃ r, o = .returned () r ∧ (r = true ↔ |(|rnormSqr (signedProd P Q R) A| - 1)| ≤ tol) := by
  simp only [isUnit, Option.bind_eq_bind, Option.bind_eq_some_iff] at h
  obtain ⟨s, hs, a, ha, d, hd, h⟩ := h
  obtain ⟨h1, h2⟩ := normSqr_ok hn hM hs
  obtain ⟨h3, h4⟩ := absScalar_ok (by omega) h1 ha
  obtain ⟨h5, h6⟩ := sub_one_ok hn h3 hd
  obtain ⟨r, h7, h8⟩ := isZero_represents (τ := τ) h5 (h6 hρ (h4 hρ (h2 hρ hi))) h0
  rw [h7] at h
  cases h
  exact ⟨r, rfl, h8.trans (single_all h0)⟩

/-- **C42** `is_null(A, tol)` compiles from some instantiation depth on, and says whether the squared reverse norm of `A`
is within the tolerance of 0, if the sum of the sizes of the compile-time coefficients of `A` is less than `2 ^ 31`. -/
theorem C42_is_null (P Q R : Nat) (hn : P + Q + R ≤ 62) (M : Object) (A : MV ℝ) (hM : Represents ρ (P + Q + R) M A)
    (hw : weightC M.expr < 2 ^ 31) (hi : IntegerStorage M) (hρ : IntegerVariables τ ρ) (tol : ℝ) (h0 : 0 ≤ tol) :
    ∃ depth, ∀ k, depth ≤ k → ∃ r, isNull P Q R k τ ρ M tol = some (.returned () r) ∧
      (r = true ↔ |rnormSqr (signedProd P Q R) A| ≤ tol) :=
  Total.isNull_total hn hM hw (by norm_num) (by norm_num) hi hρ h0

/-- **C42** `is_unit(A, tol)` compiles from some instantiation depth on, and says whether the absolute value of the
squared reverse norm of `A` is within the tolerance of 1, if the sum of the sizes of the compile-time coefficients of `A`
is less than `2 ^ 31`, and a constant zero in the type of `A` is a scalar (as the library makes it). -/
theorem C42_is_unit (P Q R : Nat) (hn : P + Q + R ≤ 62) (M : Object) (A : MV ℝ) (hM : Represents ρ (P + Q + R) M A)
    (hw : weightC M.expr < 2 ^ 31) (hz : ∀ c ∈ M.expr, c.coef = .const 0 → c.blade = .const 0) (hi : IntegerStorage M)
    (hρ : IntegerVariables τ ρ) (tol : ℝ) (h0 : 0 ≤ tol) :
    ∃ depth, ∀ k, depth ≤ k → ∃ r, isUnit P Q R k τ ρ M tol = some (.returned () r) ∧
      (r = true ↔ |(|rnormSqr (signedProd P Q R) A| - 1)| ≤ tol) :=
  Total.isUnit_total hn hM hw (by norm_num) (by norm_num) hz hi hρ h0

-- the vectors `x e1 + y e2` of a space with signature `(1, 1, 1)`
example (x y : ℝ) : Represents ρ (1 + 1 + 1) (vecObj x y) (Finsupp.single 1 x + Finsupp.single 2 y) ∧
    weightC (vecObj x y).expr < 2 ^ 31 ∧ (∀ c ∈ (vecObj x y).expr, c.coef = .const 0 → c.blade = .const 0) ∧
    IntegerStorage (vecObj x y) :=
  ⟨vec_represents x y, by simp [weightC, coefWeight], by simp, by simp [IntegerStorage]⟩

/-- **C42** is false as stated: `is_zero(e1 / 2)` of the literal with integer coefficient type, whose coefficient is
the type of the number 1/2, is true for the tolerance 0. -/
theorem C42_rational_is_false : isZero τ ρ ⟨false, [⟨recip 2, .const 1⟩], [], []⟩ 0 = some (.returned () true) ∧
    Reads ρ 3 [⟨recip 2, .const 1⟩] [] [] (Finsupp.single 1 (1 / 2 : ℝ)) ∧
    ¬ ∀ b, |(Finsupp.single 1 (1 / 2) : MV ℝ) b| ≤ 0 := by
  refine ⟨?_, ?_, ?_⟩
  · have e : isConstant (recip 2) = true := by decide
    have h1 : visitFrom (γ := Unit) (σ := Unit) τ ρ false
        (fun _ _ _ x _ _ => some ((), (), decide (|x| ≤ convertTo false 0))) () [⟨recip 2, .const 1⟩] [] [] () =
        .returned () true := by
      simp [visitFrom, visitBlade, visitCoef, eval, evalPower, convertTo, asNumber, truncate]
      norm_num
    rw [isZero, forEachComponent, if_pos (by simp [visitable, e])]
    exact congrArg some h1
  · have h1 : WellTyped 3 ((1 / 2 : ℝ), TBlade.const 1) := by simp only [WellTyped]; decide
    have hb : Built (recip 2) := .fn _ _ (by simp [Built.const]) (by simp) (by simp)
      fun _ => ⟨_, _, rfl, by simp [Direct]⟩
    have hd : Denotes ρ (recip 2) (1 / 2) := by
      simp [Denotes, powerOf, den, denList, interp, PowDefined, Real.rpow_neg_one]
    have := Reads.cons (.symbolic (recip 2) (1 / 2) rfl hb hd) (.const 1) h1 (Reads.nil (ρ := ρ))
    simpa [TBlade.bits] using this
  · push Not
    exact ⟨1, by simp⟩

/-- The squared norm of `x e1 + y e2`. -/
theorem normSqr_vec (x y : ℝ) : normSqrObject 3 0 0 40 τ ρ (vecObj x y) =
    some ⟨true, [⟨.stored, .const 0⟩], [x * x + y * y], []⟩ := by
  let a : CSum := [⟨.value 1 0, .const 1⟩, ⟨.value 1 1, .const 2⟩]
  have h1 : arguments (baseId [vecObj x y]) [vecObj x y] = some [a] := by rfl
  have h2 := contextObject_some (τ := τ) (ρ := ρ) (k := 40) (Ms := [vecObj x y])
    (e := [⟨.fn .add [.fn .power [.value 1 0, .const 2], .fn .power [.value 1 1, .const 2]], .const 0⟩])
    (s' := [⟨.stored, .const 0⟩]) (vs := [x * x + y * y]) (ws := [])
    (by simp [storedInputs, hasStoredC, hasStored]) (by rfl)
    (by simp [exec, eval, evalAdd, evalPower, contextEnv, num2, asNumber, baseId, storedInputs,
      hasStoredC, hasStored, greaterIdC, greaterId, Blade.greaterId])
  have h3 : mulC (orthMapping 3 (mkSignedFactor 3 0 0) .sp) 40 a a =
      some [⟨.fn .add [.fn .power [.value 1 0, .const 2], .fn .power [.value 1 1, .const 2]], .const 0⟩] := by
    decide +kernel
  have h4 : gradedMinusC 40 0xcccccccccccccccc a = some a := by decide +kernel
  obtain ⟨f1, e1⟩ : ∃ fl, call1 40 τ ρ (gradedMinusC 40 0xcccccccccccccccc) (lazyObject true a) =
      some ⟨fl, a, [], []⟩ := by
    have h5 : arguments (baseId [lazyObject true a]) [lazyObject true a] = some [a] := by rfl
    simp only [call1, h5, h4, Option.bind_eq_bind, Option.bind_some, contextObject, contextEval]
    rw [show storedInputs [lazyObject true a] = [] from rfl]
    exact ⟨_, rfl⟩
  obtain ⟨f2, e2⟩ := call2_lazy (k := 40) (τ := τ) (outer := ρ) (X := lazyObject true a) (Y := ⟨f1, a, [], []⟩)
    (by rfl) (by rfl) h3
  simp only [normSqrObject, Program.runLazy, h1, Option.bind_eq_bind, Option.bind_some, Program.run, List.zipWith,
    List.getElem?_cons_zero, e1]
  rw [show 3 + 0 + 0 = 3 from rfl, e2]
  exact h2

-- `is_null` and `is_unit` compile for vectors of a Euclidean space, and the theorems apply
example (x y : ℝ) : ∃ r, isNull 3 0 0 40 τ ρ (vecObj x y) 0 = some (.returned () r) := by
  simp only [isNull, normSqr_vec, Option.bind_eq_bind, Option.bind_some]
  simp [isZero, forEachComponent, visitable, visitFrom, visitBlade, visitCoef]
  exact lt_or_ge _ _

example (x y : ℝ) : ∃ r, isUnit 3 0 0 40 τ ρ (vecObj x y) 0 = some (.returned () r) := by
  have h1 : absScalar 40 τ ρ ⟨true, [⟨.stored, .const 0⟩], [x * x + y * y], []⟩ =
      some ⟨true, [⟨.stored, .const 0⟩], [|x * x + y * y|], []⟩ := by
    have h2 := contextObject_some (τ := τ) (ρ := ρ) (k := 40) (Ms := [scalarObj (x * x + y * y)])
      (e := [⟨.fn .absolute [.value 1 0], .const 0⟩])
      (s' := [⟨.stored, .const 0⟩]) (vs := [|x * x + y * y|]) (ws := [])
      (by simp [storedInputs, hasStoredC, hasStored]) (by rfl)
      (by
        simp [exec, eval, evalList, evalFn, contextEnv, asNumber, baseId, storedInputs, hasStoredC, hasStored,
          greaterIdC, greaterId, Blade.greaterId, abs_of_nonneg (add_nonneg (mul_self_nonneg x) (mul_self_nonneg y))]
        intro h
        nlinarith [mul_self_nonneg x, mul_self_nonneg y])
    exact h2
  have h2 : call2 40 τ ρ (subC 40) ⟨true, [⟨.stored, .const 0⟩], [|x * x + y * y|], []⟩ (constObject 1) =
      some ⟨true, [⟨.stored, .const 0⟩], [-1 + |x * x + y * y|], []⟩ := by
    have h2 := contextObject_some (τ := τ) (ρ := ρ) (k := 40) (Ms := [scalarObj |x * x + y * y|, constObject 1])
      (e := [⟨.fn .add [.const (-1), .value 1 0], .const 0⟩])
      (s' := [⟨.stored, .const 0⟩]) (vs := [-1 + |x * x + y * y|]) (ws := [])
      (by simp [storedInputs, hasStoredC, hasStored]) (by rfl)
      (by simp [exec, eval, evalAdd, num2, contextEnv, asNumber, baseId, storedInputs, hasStoredC, hasStored,
          greaterIdC, greaterId, Blade.greaterId, constObject, constSum])
    have h3 : arguments (baseId [scalarObj |x * x + y * y|, constObject 1]) [scalarObj |x * x + y * y|, constObject 1] =
      some [[⟨.value 1 0, .const 0⟩], constSum 1] := by rfl
    have h4 : subC 40 [⟨.value 1 0, .const 0⟩] (constSum 1) =
      some [⟨.fn .add [.const (-1), .value 1 0], .const 0⟩] := by decide +kernel
    show call2 40 τ ρ (subC 40) (scalarObj |x * x + y * y|) (constObject 1) = _
    simp only [call2, h3, h4, Option.bind_eq_bind, Option.bind_some]
    exact h2
  simp only [isUnit, normSqr_vec, h1, h2, Option.bind_eq_bind, Option.bind_some]
  simp [isZero, forEachComponent, visitable, visitFrom, visitBlade, visitCoef]
  exact lt_or_ge _ _

end GATL.Props
