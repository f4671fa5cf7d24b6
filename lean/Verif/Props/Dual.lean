import Verif.Proofs.Dual
import Verif.Proofs.Rotor
import Verif.Props.Compile
import Verif.Props.Metric
import Verif.Props.Rational
import Verif.Props.Versor

/-!
# Duals

**C82**: `dual` and `undual` of stored multivectors.

`pseudoscalarOf ℝ n` is the product of all basis vectors, `dual` and `undual` are the functions of C14 on multivectors.
-/

namespace GATL.Props

open Expr Spec

variable {τ : Types} {ρ : Env} {P Q R k : Nat}

theorem full_represents {n : Nat} (hn : n ≤ 62) {v : Int} (hv : v ≠ 0) :
    Represents ρ n ⟨false, fullBlade v n, [], []⟩ ((v : ℝ) • pseudoscalarOf ℝ n) := by
  obtain ⟨⟨h1, -⟩, h2⟩ := Algebra.stands_one (ρ := ρ) (n := n) (by omega) (.int v hv) (Algebra.pseudo_lt (i := n) le_rfl (by omega))
  refine ⟨⟨h1, by simp [fullBlade]⟩, ?_⟩
  have e : (v : ℝ) • pseudoscalarOf ℝ n = Finsupp.single (BitVec.ofNat 64 (2 ^ n - 1)) (v : ℝ) := by
    simp [pseudoscalarOf]
  rw [e]
  exact h2

theorem pseudo_object (hn : P + Q + R ≤ 62) :
    pseudoscalarObject (P + Q + R) = some ⟨false, fullBlade 1 (P + Q + R), [], []⟩ := by
  unfold pseudoscalarObject
  rw [Algebra.pseudo_blade ⟨P + Q + R, by omega⟩]
  rfl

/-- The sign of the inverse of the pseudoscalar. -/
def inverseSign (P Q : Nat) : Int := (if Q % 2 = 0 then 1 else -1) * alternating ((P + Q) * (P + Q - 1) / 2)

theorem inverseSign_ne : inverseSign P Q ≠ 0 := by
  unfold inverseSign alternating
  split_ifs <;> decide

theorem reads_constant {n : Nat} {s : CSum} {vs : List ℝ} {ws : List Word} {A : MV ℝ} (h : Reads ρ n s vs ws A) {v : Int} {b : Word}
    (hs : s = [⟨.const v, .const b⟩]) : A = Finsupp.single b (v : ℝ) := by
  cases h with
  | nil => cases hs
  | @cons c b' s vs ws vs' ws' x t m hc hb hw h' =>
    simp only [List.cons.injEq, Comp.mk.injEq] at hs
    obtain ⟨⟨rfl, rfl⟩, rfl⟩ := hs
    cases h'
    cases hb
    cases hc with
    | symbolic _ _ h1 h2 h3 =>
      simp only [Denotes, den, Option.some.injEq, Val.num.injEq] at h3
      simp [TBlade.bits, ← h3]

theorem inverse_type {a e : CSum} (h : inverseExpr P Q R k a = some e) (ha : hasStoredC a = false) (he : hasStoredC e = false) :
    Rational.inverseProgram.typeOf P Q R k [a] = some e := by
  simp [Rational.inverseProgram, Rational.typeOf, Program.typeOf, lazyOnly, ha, h, he]

theorem arguments_full (b : Nat) (v : Int) (n : Nat) :
    arguments b [⟨false, fullBlade v n, [], []⟩] = some [fullBlade v n] := rfl

theorem context_full (v : Int) (n : Nat) (e : CSum) :
    contextObject k τ ρ [⟨false, fullBlade v n, [], []⟩] e = some ⟨false, e, [], []⟩ := rfl

/-- The constant that the library computes is the inverse of the pseudoscalar. -/
theorem inverse_value (hn : P + Q ≤ 62) :
    inv (signedProd P Q 0) (pseudoscalarOf ℝ (P + Q)) = some ((inverseSign P Q : ℝ) • pseudoscalarOf ℝ (P + Q)) := by
  obtain ⟨c, -, h1, -⟩ := full_inv (K := ℝ) P Q (by omega) 1 one_ne_zero
  rw [one_smul] at h1
  have hM : Stands (⟨fun _ _ => 0, fun _ _ => 0⟩ : Env) (P + Q + 0) ⟨false, fullBlade 1 (P + Q), [], []⟩ (pseudoscalarOf ℝ (P + Q)) :=
    Algebra.stands_pseudo le_rfl (by omega)
  have ht : Rational.inverseProgram.typeOf P Q 0 40 [fullBlade 1 (P + Q)] = some (fullBlade (inverseSign P Q) (P + Q)) := by
    exact inverse_type (pseudo_inverse hn) rfl rfl
  have hl := lazyType_pure (τ := fun _ => false) (outer := ⟨fun _ _ => 0, fun _ _ => 0⟩)
    (Ms := [⟨false, fullBlade 1 (P + Q), [], []⟩]) (as := [fullBlade 1 (P + Q)]) (arguments_full _ _ _) ht
  have hr : Rational.inverseProgram.runLazy P Q 0 40 (fun _ => false) ⟨fun _ _ => 0, fun _ _ => 0⟩
      [⟨false, fullBlade 1 (P + Q), [], []⟩] = some ⟨false, fullBlade (inverseSign P Q) (P + Q), [], []⟩ := by
    unfold Rational.runLazy
    rw [hl, Option.bind_eq_bind, Option.bind_some, context_full]
  have hv : Rational.inverseProgram.value P Q 0 [pseudoscalarOf ℝ (P + Q)] = some (c • pseudoscalarOf ℝ (P + Q)) := by
    unfold inv invScalar at h1
    by_cases h0 : rnormSqr (signedProd P Q 0) (pseudoscalarOf ℝ (P + Q)) = 0
    · simp [h0] at h1
    rw [if_neg h0] at h1
    simp only [Option.map_some, realProd_scalar, Option.some.injEq] at h1
    simp only [Rational.inverseProgram, Rational.value, Program.value, List.getD_cons_zero, if_neg h0]
    simp [h1]
  have hs := C58_program_partial (by omega) _ _ _ _ _ (.cons hM .nil) hv (by
    intro e he
    rw [hl] at he
    cases he
    simp [fullBlade, NoIntQuotient]) hr
  rw [h1]
  rw [reads_constant hs.2 rfl]
  simp [pseudoscalarOf]

theorem dualObject_eq (hn : P + Q ≤ 62) (hk : 40 ≤ k) (M : Object) : dualObject P Q 0 k τ ρ M =
    undualProgram.runLazy P Q 0 k τ ρ [M, ⟨false, fullBlade (inverseSign P Q) (P + Q), [], []⟩] := by
  unfold dualObject
  rw [pseudo_object (R := 0) hn]
  exact dual_undual hn hk M

theorem undualObject_eq (hn : P + Q + R ≤ 62) (M : Object) : undualObject P Q R k τ ρ M =
    undualProgram.runLazy P Q R k τ ρ [M, ⟨false, fullBlade 1 (P + Q + R), [], []⟩] := by
  unfold undualObject
  rw [pseudo_object hn]
  rfl

theorem dual_value (hn : P + Q ≤ 62) (A : MV ℝ) : dual (signedProd P Q 0) (pseudoscalarOf ℝ (P + Q)) A =
    some (undualProgram.value P Q 0 [A, (inverseSign P Q : ℝ) • pseudoscalarOf ℝ (P + Q)]) := by
  unfold dual
  rw [inverse_value hn]
  rfl

theorem undual_weight {n : Nat} {v : Int} (hv : v = 1 ∨ v = -1) {M : Object} (hw : weightC M.expr < 2 ^ 63) :
    undualProgram.weight [M, ⟨false, fullBlade v n, [], []⟩] < 2 ^ 63 := by
  have h1 : weightC (fullBlade v n) = 1 := by rcases hv with rfl | rfl <;> rfl
  simp only [undualProgram, Program.weight, List.getElem?_cons_zero, List.getElem?_cons_succ, Option.map_some, Option.getD_some, h1,
    max_self, mul_one]
  omega

/-- **C82** `dual(A)` compiles for every multivector `A` of a space without null basis vectors, whatever its coefficients
and its signature are, and the result is the dual of `A`: the multivector whose product with the pseudoscalar is `A`. -/
theorem C82_dual (hn : P + Q ≤ 62) (M : Object) (A : MV ℝ) (hM : Represents ρ (P + Q) M A) (hw : weightC M.expr < 2 ^ 63) :
    ∃ (s : CSum) (D : MV ℝ) (depth : Nat), dual (signedProd P Q 0) (pseudoscalarOf ℝ (P + Q)) A = some D ∧
      signedProd P Q 0 .gp D (pseudoscalarOf ℝ (P + Q)) = A ∧
      ∀ k, depth ≤ k → ∃ o, dualObject P Q 0 k τ ρ M = some o ∧ o.expr = s ∧ Represents ρ (P + Q) o D := by
  obtain ⟨s, d, h⟩ := C73_lazy (τ := τ) P Q 0 hn _ _ (.cons hM (.cons (full_represents hn inverseSign_ne) .nil)) undualProgram
    (by simp [undualProgram, Program.Uses]) (undual_weight (by unfold inverseSign alternating; split_ifs <;> simp) hw)
    (by simp [undualProgram, Program.degree])
  refine ⟨s, _, max d 40, dual_value hn A, ?_, fun k hk => ?_⟩
  · obtain ⟨Iinv, D, h1, h2, h3, h4, h5, -⟩ := C14_dual_undual (K := ℝ) P Q (by omega) 1 one_ne_zero (reads_space hM.2)
    rw [one_smul, dual_value hn] at h3
    cases h3
    rw [one_smul] at h5
    obtain ⟨o, -, -, h6⟩ := h (max d 40) (by omega)
    have h7 := lcont_full (sqs P Q 0) (P + Q) 1 (reads_space h6.2)
    rw [one_smul, ← signed_sqs (by omega)] at h7
    exact h7.symm.trans h5
  · obtain ⟨o, h1, h2, h3⟩ := h k (by omega)
    exact ⟨o, by rw [dualObject_eq hn (by omega)]; exact h1, h2, h3⟩

/-- **C82** Whenever the compiler accepts `dual(A)`, the result is the dual of `A`. -/
theorem C82_dual_value (hn : P + Q ≤ 62) (hk : 40 ≤ k) (M o : Object) (A : MV ℝ) (hM : Represents ρ (P + Q) M A)
    (h : dualObject P Q 0 k τ ρ M = some o) :
    ∃ D, dual (signedProd P Q 0) (pseudoscalarOf ℝ (P + Q)) A = some D ∧ Represents ρ (P + Q) o D := by
  refine ⟨_, dual_value hn A, ?_⟩
  rw [dualObject_eq hn hk] at h
  exact C25_lazy P Q 0 hn k _ _ (.cons hM (.cons (full_represents hn inverseSign_ne) .nil)) undualProgram o h

/-- **C82** `undual(A)` compiles for every multivector `A` of every space, and is `A` contracted with the pseudoscalar. -/
theorem C82_undual (hn : P + Q + R ≤ 62) (M : Object) (A : MV ℝ) (hM : Represents ρ (P + Q + R) M A)
    (hw : weightC M.expr < 2 ^ 63) :
    ∃ (s : CSum) (depth : Nat), ∀ k, depth ≤ k → ∃ o, undualObject P Q R k τ ρ M = some o ∧ o.expr = s ∧
      Represents ρ (P + Q + R) o (undual (signedProd P Q R) (pseudoscalarOf ℝ (P + Q + R)) A) := by
  have h1 := full_represents (ρ := ρ) hn (v := 1) one_ne_zero
  rw [Int.cast_one, one_smul] at h1
  obtain ⟨s, d, h⟩ := C73_lazy (τ := τ) P Q R hn _ _ (.cons hM (.cons h1 .nil)) undualProgram
    (by simp [undualProgram, Program.Uses]) (undual_weight (.inl rfl) hw) (by simp [undualProgram, Program.degree])
  refine ⟨s, d, fun k hk => ?_⟩
  rw [undualObject_eq hn]
  exact h k hk

/-- **C82** `undual(dual(A))` and `dual(undual(A))` are `A`: whatever numbers are stored, and whatever the compiler makes of
the types, the result stands for the same multivector as `A`. -/
theorem C82_roundtrip (hn : P + Q ≤ 62) (hk : 40 ≤ k) (M o o' : Object) (A : MV ℝ) (hM : Represents ρ (P + Q) M A)
    (h : (dualObject P Q 0 k τ ρ M = some o ∧ undualObject P Q 0 k τ ρ o = some o') ∨
      (undualObject P Q 0 k τ ρ M = some o ∧ dualObject P Q 0 k τ ρ o = some o')) : Represents ρ (P + Q) o' A := by
  obtain ⟨Iinv, D, -, -, h3, -, h5, h6⟩ := C14_dual_undual (K := ℝ) P Q (by omega) 1 one_ne_zero (reads_space hM.2)
  have hI := full_represents (ρ := ρ) hn (v := 1) one_ne_zero
  rw [one_smul] at h3 h5 h6
  rw [Int.cast_one, one_smul] at hI
  rcases h with ⟨h1, h2⟩ | ⟨h1, h2⟩
  · obtain ⟨D', e1, r1⟩ := C82_dual_value hn hk M o A hM h1
    rw [h3] at e1
    cases e1
    rw [undualObject_eq (R := 0) hn] at h2
    have := C25_lazy P Q 0 hn k _ _ (.cons r1 (.cons hI .nil)) undualProgram o' h2
    rw [← h5]
    exact this
  · rw [undualObject_eq (R := 0) hn] at h1
    have r1 := C25_lazy P Q 0 hn k _ _ (.cons hM (.cons hI .nil)) undualProgram o h1
    obtain ⟨D', e1, r2⟩ := C82_dual_value hn hk o o' _ r1 h2
    have : some A = some D' := h6.symm.trans e1
    cases this
    exact r2

-- the hypotheses hold for `x e1 + y e2` in the spaces with signature `(2, 1)` and `(2, 0, 1)`
example (x y : ℝ) := C82_dual (τ := τ) (P := 2) (Q := 1) (by norm_num) _ _ (vec_represents (ρ := ρ) x y)
  (by simp [weightC, coefWeight])

example (x y : ℝ) := C82_undual (τ := τ) (P := 2) (Q := 0) (R := 1) (by norm_num) _ _ (vec_represents (ρ := ρ) x y)
  (by simp [weightC, coefWeight])

/-! ### The dual of `x e1 + y e2` in three dimensions -/

theorem dual_type : mulC (orthMapping (3 + 0 + 0) (mkSignedFactor 3 0 0) .lcont) 60 [⟨.value 1 0, .const 1⟩, ⟨.value 1 1, .const 2⟩]
    (fullBlade (inverseSign 3 0) 3) = some [⟨.value 1 1, .const 5⟩, ⟨.fn .mul [.const (-1), .value 1 0], .const 6⟩] := by
  decide +kernel

-- it is stored as `y e13 - x e23`
example (x y : ℝ) : ∃ f, dualObject 3 0 0 60 τ ρ (vecObj x y) =
    some ⟨f, [⟨.stored, .const 5⟩, ⟨.stored, .const 6⟩], [y, -x], []⟩ := by
  rw [dualObject_eq (P := 3) (Q := 0) (by norm_num) (by norm_num)]
  have ha : arguments (baseId [vecObj x y, ⟨false, fullBlade (inverseSign 3 0) 3, [], []⟩])
      [vecObj x y, ⟨false, fullBlade (inverseSign 3 0) 3, [], []⟩] =
      some [[⟨.value 1 0, .const 1⟩, ⟨.value 1 1, .const 2⟩], fullBlade (inverseSign 3 0) 3] := rfl
  obtain ⟨fl, hc⟩ := call2_lazy (k := 60) (τ := τ) (outer := ρ)
    (X := lazyObject true [⟨.value 1 0, .const 1⟩, ⟨.value 1 1, .const 2⟩])
    (Y := lazyObject false (fullBlade (inverseSign 3 0) 3)) rfl rfl dual_type
  have hx := contextObject_some (k := 60) (τ := τ) (ρ := ρ) (Ms := [vecObj x y, ⟨false, fullBlade (inverseSign 3 0) 3, [], []⟩])
    (e := [⟨.value 1 1, .const 5⟩, ⟨.fn .mul [.const (-1), .value 1 0], .const 6⟩])
    (s' := [⟨.stored, .const 5⟩, ⟨.stored, .const 6⟩]) (vs := [y, -x]) (ws := [])
    (by simp [storedInputs, hasStoredC, hasStored]) (by rfl)
    (by simp [exec, eval, evalList, evalFn, evalAdd, evalMul, evalPower, contextEnv, num2, asNumber, baseId, storedInputs,
      hasStoredC, hasStored, greaterIdC, greaterId, Blade.greaterId, num1, fullBlade])
  refine ⟨_, Eq.trans ?_ hx⟩
  change Program.runLazy _ _ _ _ _ _ [vecObj x y, ⟨false, fullBlade (inverseSign 3 0) 3, [], []⟩] _ = _
  unfold Program.runLazy
  rw [ha]
  simp only [Option.bind_eq_bind, Option.bind_some, List.zipWith_cons_cons, List.zipWith_nil_right, undualProgram, Program.run,
    List.getElem?_cons_zero, List.getElem?_cons_succ]
  rw [hc, Option.bind_some]

end GATL.Props
