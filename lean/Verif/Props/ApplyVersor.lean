import Verif.Model.Rotor
import Verif.Spec.Rotor
import Verif.Proofs.Minkowski
import Verif.Proofs.Rotor
import Verif.Props.Rational
import Verif.Props.Unit
import Verif.Props.Versor

/-!
# Applying versors

**C81**: `apply_even_versor` and `apply_odd_versor` on stored multivectors.

`VersorFactors m vs` says that `vs` are vectors with non-zero squares, `productOf m vs` is their product.
-/

namespace GATL.Props

open Expr Spec

variable {τ : Types} {ρ : Env} {P Q R k : Nat}

theorem evenProgram_value (V A : MV ℝ) : evenProgram.value P Q R [V, A] = applyEvenVersor (signedProd P Q R) V A := by
  unfold applyEvenVersor inv invScalar
  by_cases h0 : rnormSqr (signedProd P Q R) V = 0
  · simp [evenProgram, Rational.value, Program.value, h0]
  · simp only [evenProgram, Rational.value, Program.value, List.getD_cons_zero, List.getD_cons_succ, if_neg h0, Option.map_some,
      realProd_scalar]
    rfl

theorem oddProgram_value (V A : MV ℝ) : oddProgram.value P Q R [V, A] = applyOddVersor (signedProd P Q R) V A := by
  unfold applyOddVersor inv invScalar
  by_cases h0 : rnormSqr (signedProd P Q R) V = 0
  · simp [oddProgram, Rational.value, Program.value, h0]
  · simp only [oddProgram, Rational.value, Program.value, List.getD_cons_zero, List.getD_cons_succ, if_neg h0, Option.map_some,
      realProd_scalar]
    rfl

/-- **C81** `apply_even_versor(V, A)` for a versor `V` is `V A W`, where `W` is the inverse of `V`. -/
theorem C81_even_partial (hN : P + Q + R ≤ 62) (M X o : Object) (vs : List (MV ℝ)) (A : MV ℝ)
    (hf : VersorFactors (signedProd P Q R) vs) (hM : Stands ρ (P + Q + R) M (productOf (signedProd P Q R) vs))
    (hX : Stands ρ (P + Q + R) X A) (hq : NoIntegerDivision P Q R k τ ρ [M, X] evenProgram)
    (h : evenProgram.runLazy P Q R k τ ρ [M, X] = some o) :
    ∃ W, signedProd P Q R .gp (productOf (signedProd P Q R) vs) W = scalar 1 ∧
      signedProd P Q R .gp W (productOf (signedProd P Q R) vs) = scalar 1 ∧
      Stands ρ (P + Q + R) o (signedProd P Q R .gp (signedProd P Q R .gp (productOf (signedProd P Q R) vs) A) W) := by
  obtain ⟨W, hW, h1, h2⟩ := C15_inverse P Q R (by omega) vs hf
  refine ⟨W, h1, h2, C58_program_partial hN _ _ _ o _ (.cons hM (.cons hX .nil)) ?_ hq h⟩
  rw [evenProgram_value, applyEvenVersor, hW, Option.map_some]

/-- **C81** `apply_odd_versor(V, A)` for a versor `V` is `V A' W`, where `A'` is the grade involution of `A` and `W` is the
inverse of `V`. -/
theorem C81_odd_partial (hN : P + Q + R ≤ 62) (M X o : Object) (vs : List (MV ℝ)) (A : MV ℝ)
    (hf : VersorFactors (signedProd P Q R) vs) (hM : Stands ρ (P + Q + R) M (productOf (signedProd P Q R) vs))
    (hX : Stands ρ (P + Q + R) X A) (hq : NoIntegerDivision P Q R k τ ρ [M, X] oddProgram)
    (h : oddProgram.runLazy P Q R k τ ρ [M, X] = some o) :
    ∃ W, signedProd P Q R .gp (productOf (signedProd P Q R) vs) W = scalar 1 ∧
      signedProd P Q R .gp W (productOf (signedProd P Q R) vs) = scalar 1 ∧
      Stands ρ (P + Q + R) o
        (signedProd P Q R .gp (signedProd P Q R .gp (productOf (signedProd P Q R) vs) (involute A)) W) := by
  obtain ⟨W, hW, h1, h2⟩ := C15_inverse P Q R (by omega) vs hf
  refine ⟨W, h1, h2, C58_program_partial hN _ _ _ o _ (.cons hM (.cons hX .nil)) ?_ hq h⟩
  rw [oddProgram_value, applyOddVersor, hW, Option.map_some]

/-- **C81** `apply_odd_versor(n, x)` for vectors is the mirror image of `x` in the hyperplane orthogonal to `n`. -/
theorem C81_mirror_partial (hN : P + Q + R ≤ 62) (M X o : Object) (n x : MV ℝ) (hn : Homogeneous 1 n) (hx : Homogeneous 1 x)
    (h0 : vecDot P Q R n n ≠ 0) (hM : Stands ρ (P + Q + R) M n) (hX : Stands ρ (P + Q + R) X x)
    (hq : NoIntegerDivision P Q R k τ ρ [M, X] oddProgram) (h : oddProgram.runLazy P Q R k τ ρ [M, X] = some o) :
    Stands ρ (P + Q + R) o (x - (2 * vecDot P Q R n x / vecDot P Q R n n) • n) := by
  have hne : signedProd P Q R .gp n n ≠ 0 := by
    rw [vecDot_eq (by omega) hn hn] at h0
    rw [signed_sqs (by omega), gp_vec_self _ hn]
    exact fun h => h0 (by simpa [scalar] using h)
  obtain ⟨-, -, -, h2⟩ := C16_reflection (K := ℝ) P Q R (by omega) hn hx hne
  refine C58_program_partial hN _ _ _ o _ (.cons hM (.cons hX .nil)) ?_ hq h
  rw [oddProgram_value, h2]
  rfl

/-! ### `apply_odd_versor(x e1, y e1 + z e2)` -/

theorem mirror_type : oddProgram.typeOf 3 0 0 60
    [[⟨.value 1 0, .const 1⟩], [⟨.value 2 0, .const 1⟩, ⟨.value 2 1, .const 2⟩]] =
    some [⟨.fn .mul [.const (-1), .value 2 0], .const 1⟩, ⟨.value 2 1, .const 2⟩] := by
  decide +kernel

theorem mirror_quotients (x y z : ℝ) : NoIntegerDivision 3 0 0 60 τ ρ [axisObj x, vecObj y z] oddProgram := by
  intro e he
  rw [lazyType_pure (as := [[⟨.value 1 0, .const 1⟩], [⟨.value 2 0, .const 1⟩, ⟨.value 2 1, .const 2⟩]]) (by rfl)
    mirror_type] at he
  cases he
  intro c hc
  simp only [List.mem_cons, List.not_mem_nil, or_false] at hc
  rcases hc with rfl | rfl
  · simp only [NoIntQuotient, NoIntQuotientAll, and_true, true_and]
    intro pre l r h
    rcases pre with _ | ⟨a, _ | ⟨b, pre⟩⟩ <;> simp [powerOf] at h
  · simp [NoIntQuotient]

-- the mirror image of `y e1 + z e2` in the direction `x e1`, for every `x` other than zero
example (x y z : ℝ) (hx : x ≠ 0) : ∃ o, oddProgram.runLazy 3 0 0 60 τ ρ [axisObj x, vecObj y z] = some o ∧
    Stands ρ 3 o ((Finsupp.single 1 y + Finsupp.single 2 z) - (2 * vecDot 3 0 0 (Finsupp.single 1 x)
      (Finsupp.single 1 y + Finsupp.single 2 z) / vecDot 3 0 0 (Finsupp.single 1 x) (Finsupp.single 1 x)) • Finsupp.single 1 x) := by
  have h : ∃ o, oddProgram.runLazy 3 0 0 60 τ ρ [axisObj x, vecObj y z] = some o := by
    unfold Rational.runLazy
    rw [lazyType_pure (as := [[⟨.value 1 0, .const 1⟩], [⟨.value 2 0, .const 1⟩, ⟨.value 2 1, .const 2⟩]]) (by rfl) mirror_type]
    exact ⟨_, contextObject_some (k := 60) (Ms := [axisObj x, vecObj y z])
      (e := [⟨.fn .mul [.const (-1), .value 2 0], .const 1⟩, ⟨.value 2 1, .const 2⟩]) (s' := [⟨.stored, .const 1⟩, ⟨.stored, .const 2⟩])
      (vs := [-y, z]) (ws := [])
      (by simp [storedInputs, hasStoredC, hasStored]) (by rfl)
      (by simp [exec, eval, evalList, evalFn, evalAdd, evalMul, evalPower, contextEnv, num2, asNumber, baseId, storedInputs,
        hasStoredC, hasStored, greaterIdC, greaterId, Blade.greaterId, num1, stdPow, contextTypes, divide, floating])⟩
  obtain ⟨o, ho⟩ := h
  have h1 : Homogeneous 1 (Finsupp.single 1 x : MV ℝ) := homog_single _ (by decide)
  refine ⟨o, ho, C81_mirror_partial (P := 3) (Q := 0) (R := 0) (by norm_num) _ _ o _ _ h1
    (homog_add (homog_single _ (by decide)) (homog_single _ (by decide))) ?_ (represents_stands (axis_represents x))
    (represents_stands (vec_represents y z)) (mirror_quotients x y z) ho⟩
  have e1 : (Finsupp.single 1 x : MV ℝ) = x • e ℝ 0 := by
    rw [show e ℝ 0 = Finsupp.single 1 1 from rfl]; simp
  have h2 : Homogeneous 1 (e ℝ 0) := homog_single _ (by decide)
  rw [vecDot_eq (by norm_num) h1 h1, e1, vdot_smul_left, vdot_smul_right, vdot_e (by omega)]
  simp [sqs, signature, hx]

theorem axis_square (x : ℝ) : vecDot 3 0 0 (Finsupp.single 1 x) (Finsupp.single 1 x) = x * x := by
  have h1 : Homogeneous 1 (Finsupp.single 1 x : MV ℝ) := homog_single _ (by decide)
  have e1 : (Finsupp.single 1 x : MV ℝ) = x • e ℝ 0 := by
    rw [show e ℝ 0 = Finsupp.single 1 1 from rfl]; simp
  rw [vecDot_eq (by norm_num) h1 h1, e1, vdot_smul_left, vdot_smul_right, vdot_e (by omega)]
  simp [sqs, signature]

-- `x e1` is a versor
theorem axis_versor (x : ℝ) (hx : x ≠ 0) : VersorFactors (signedProd 3 0 0) [(Finsupp.single 1 x : MV ℝ)] ∧
    Stands ρ 3 (axisObj x) (productOf (signedProd 3 0 0) [Finsupp.single 1 x]) := by
  have h1 : Homogeneous 1 (Finsupp.single 1 x : MV ℝ) := homog_single _ (by decide)
  refine ⟨fun v hv => ?_, ?_⟩
  · rw [List.mem_singleton] at hv
    subst hv
    refine ⟨h1, ?_⟩
    have h0 := axis_square x
    rw [vecDot_eq (by norm_num) h1 h1] at h0
    rw [signed_sqs (by norm_num), gp_vec_self _ h1, h0]
    simp [scalar, hx]
  · rw [show productOf (signedProd 3 0 0) [(Finsupp.single 1 x : MV ℝ)] = Finsupp.single 1 x by
      rw [signed_sqs (by norm_num)]; exact Cl.gp_one_right _ _]
    exact represents_stands (axis_represents x)

-- the hypotheses of `C81_odd_partial` hold
example (x y z : ℝ) (hx : x ≠ 0) (o : Object) (ho : oddProgram.runLazy 3 0 0 60 τ ρ [axisObj x, vecObj y z] = some o) :=
  C81_odd_partial (P := 3) (Q := 0) (R := 0) (by norm_num) _ _ o _ _ (axis_versor (ρ := ρ) x hx).1 (axis_versor x hx).2
    (represents_stands (vec_represents y z)) (mirror_quotients x y z) ho

/-! ### `apply_even_versor(x e1, y e1 + z e2)` -/

theorem even_type : evenProgram.typeOf 3 0 0 60
    [[⟨.value 1 0, .const 1⟩], [⟨.value 2 0, .const 1⟩, ⟨.value 2 1, .const 2⟩]] =
    some [⟨.value 2 0, .const 1⟩, ⟨.fn .mul [.const (-1), .value 2 1], .const 2⟩] := by
  decide +kernel

theorem even_quotients (x y z : ℝ) : NoIntegerDivision 3 0 0 60 τ ρ [axisObj x, vecObj y z] evenProgram := by
  intro e he
  rw [lazyType_pure (as := [[⟨.value 1 0, .const 1⟩], [⟨.value 2 0, .const 1⟩, ⟨.value 2 1, .const 2⟩]]) (by rfl)
    even_type] at he
  cases he
  intro c hc
  simp only [List.mem_cons, List.not_mem_nil, or_false] at hc
  rcases hc with rfl | rfl
  · simp [NoIntQuotient]
  · simp only [NoIntQuotient, NoIntQuotientAll, and_true, true_and]
    intro pre l r h
    rcases pre with _ | ⟨a, _ | ⟨b, pre⟩⟩ <;> simp [powerOf] at h

example (x y z : ℝ) (hx : x ≠ 0) : ∃ o W, evenProgram.runLazy 3 0 0 60 τ ρ [axisObj x, vecObj y z] = some o ∧
    signedProd 3 0 0 .gp (productOf (signedProd 3 0 0) [Finsupp.single 1 x]) W = scalar 1 ∧
    Stands ρ 3 o (signedProd 3 0 0 .gp (signedProd 3 0 0 .gp (productOf (signedProd 3 0 0) [Finsupp.single 1 x])
      (Finsupp.single 1 y + Finsupp.single 2 z)) W) := by
  have h : ∃ o, evenProgram.runLazy 3 0 0 60 τ ρ [axisObj x, vecObj y z] = some o := by
    unfold Rational.runLazy
    rw [lazyType_pure (as := [[⟨.value 1 0, .const 1⟩], [⟨.value 2 0, .const 1⟩, ⟨.value 2 1, .const 2⟩]]) (by rfl) even_type]
    exact ⟨_, contextObject_some (k := 60) (Ms := [axisObj x, vecObj y z])
      (e := [⟨.value 2 0, .const 1⟩, ⟨.fn .mul [.const (-1), .value 2 1], .const 2⟩])
      (s' := [⟨.stored, .const 1⟩, ⟨.stored, .const 2⟩]) (vs := [y, -z]) (ws := [])
      (by simp [storedInputs, hasStoredC, hasStored]) (by rfl)
      (by simp [exec, eval, evalList, evalFn, evalAdd, evalMul, evalPower, contextEnv, num2, asNumber, baseId, storedInputs,
        hasStoredC, hasStored, greaterIdC, greaterId, Blade.greaterId, num1, stdPow, contextTypes, divide, floating])⟩
  obtain ⟨o, ho⟩ := h
  obtain ⟨W, h1, -, h2⟩ := C81_even_partial (P := 3) (Q := 0) (R := 0) (by norm_num) _ _ o _ _ (axis_versor (ρ := ρ) x hx).1
    (axis_versor x hx).2 (represents_stands (vec_represents y z)) (even_quotients x y z) ho
  exact ⟨o, W, ho, h1, h2⟩

end GATL.Props
