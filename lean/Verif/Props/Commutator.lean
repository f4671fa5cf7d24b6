import Verif.Model.Commutator
import Verif.Proofs.Rotor
import Verif.Proofs.Parameters
import Verif.Props.ApplyVersor
import Verif.Props.Exp

/-!
# The commutator product

**C83**: `cp` of stored multivectors.
-/

namespace GATL.Props

open Expr Spec

variable {τ : Types} {ρ : Env} {P Q R k : Nat}

theorem commutatorProgram_value (hn : P + Q + R ≤ 63) (A B : MV ℝ) : commutatorProgram.value P Q R [A, B] =
    some ((2 : ℝ)⁻¹ • (signedProd P Q R .gp A B - signedProd P Q R .gp B A)) := by
  obtain ⟨h0, h1⟩ := inverse_scalar (sqs P Q R) (α := (2 : ℝ)) two_ne_zero
  rw [← signed_sqs hn] at h0 h1
  simp only [commutatorProgram, Rational.value, Program.value, List.getD_cons_zero, List.getD_cons_succ, List.cons_append,
    List.nil_append]
  rw [show (Finsupp.single 0 ((2 : ℤ) : ℝ) : MV ℝ) = scalar 2 by rw [scalar]; norm_num, if_neg h0, h1]
  congr 1
  rw [signed_sqs hn, gp_scalar_right]

/-- **C83** `cp(A, B)` stands for `(A B - B A) / 2`. -/
theorem C83_commutator_partial (hN : P + Q + R ≤ 62) (M M' o : Object) (A B : MV ℝ) (hM : Stands ρ (P + Q + R) M A)
    (hM' : Stands ρ (P + Q + R) M' B) (hq : NoIntegerDivision P Q R k τ ρ [M, M'] commutatorProgram)
    (h : commutatorProgram.runLazy P Q R k τ ρ [M, M'] = some o) :
    Stands ρ (P + Q + R) o ((2 : ℝ)⁻¹ • (signedProd P Q R .gp A B - signedProd P Q R .gp B A)) :=
  C58_program_partial hN _ _ _ o _ (.cons hM (.cons hM' .nil)) (commutatorProgram_value (by omega) A B) hq h

/-- **C83** `cp(B, A)` for a bivector `B` has the grades of `A`: it is the rate at which `A` turns in the plane of `B`. -/
theorem C83_bivector_partial (hN : P + Q + R ≤ 62) (M M' o : Object) (B A : MV ℝ) (r : Nat) (hB : Homogeneous 2 B)
    (hA : Homogeneous r A) (hM : Stands ρ (P + Q + R) M B) (hM' : Stands ρ (P + Q + R) M' A)
    (hq : NoIntegerDivision P Q R k τ ρ [M, M'] commutatorProgram)
    (h : commutatorProgram.runLazy P Q R k τ ρ [M, M'] = some o) :
    ∃ X, Stands ρ (P + Q + R) o X ∧ Homogeneous r X := by
  obtain ⟨X, h1, h2⟩ := C38_bivector (K := ℝ) P Q R (by omega) two_ne_zero hB hA
  rw [C38_commutator P Q R two_ne_zero] at h1
  cases h1
  exact ⟨_, C83_commutator_partial hN M M' o B A hM hM' hq h, h2⟩

/-! ### `cp(x e1 + y e2, z e1 + w e2)` -/

theorem commutator_type : commutatorProgram.typeOf 3 0 0 60
    [[⟨.value 1 0, .const 1⟩, ⟨.value 1 1, .const 2⟩], [⟨.value 2 0, .const 1⟩, ⟨.value 2 1, .const 2⟩]] =
    some [⟨.fn .add [.fn .mul [.value 1 0, .value 2 1], .fn .mul [.const (-2), recip 2, .value 1 1, .value 2 0]], .const 3⟩] := by
  decide +kernel

theorem commutator_quotients (x y z w : ℝ) : NoIntegerDivision 3 0 0 60 τ ρ [vecObj x y, vecObj z w] commutatorProgram := by
  intro e he
  rw [lazyType_pure (as := [[⟨.value 1 0, .const 1⟩, ⟨.value 1 1, .const 2⟩], [⟨.value 2 0, .const 1⟩, ⟨.value 2 1, .const 2⟩]])
    (by rfl) commutator_type] at he
  cases he
  intro c hc
  simp only [List.mem_singleton] at hc
  subst hc
  simp only [NoIntQuotient, NoIntQuotientAll, recip, powerOf, and_true, true_and]
  refine ⟨?_, ?_⟩ <;> intro pre l r h <;>
    rcases pre with _ | ⟨a, _ | ⟨b, _ | ⟨c, _ | ⟨d, pre⟩⟩⟩⟩ <;> simp at h

-- it is the bivector `(x w - y z) e12`
example (x y z w : ℝ) : ∃ o, commutatorProgram.runLazy 3 0 0 60 τ ρ [vecObj x y, vecObj z w] = some o ∧
    o.values = [x * w - y * z] ∧ Stands ρ 3 o ((2 : ℝ)⁻¹ • (signedProd 3 0 0 .gp (Finsupp.single 1 x + Finsupp.single 2 y)
      (Finsupp.single 1 z + Finsupp.single 2 w) - signedProd 3 0 0 .gp (Finsupp.single 1 z + Finsupp.single 2 w)
      (Finsupp.single 1 x + Finsupp.single 2 y))) := by
  have h : ∃ f, commutatorProgram.runLazy 3 0 0 60 τ ρ [vecObj x y, vecObj z w] =
      some ⟨f, [⟨.stored, .const 3⟩], [x * w - y * z], []⟩ := by
    unfold Rational.runLazy
    rw [lazyType_pure (as := [[⟨.value 1 0, .const 1⟩, ⟨.value 1 1, .const 2⟩], [⟨.value 2 0, .const 1⟩, ⟨.value 2 1, .const 2⟩]])
      (by rfl) commutator_type]
    exact ⟨_, contextObject_some (k := 60) (Ms := [vecObj x y, vecObj z w])
      (e := [⟨.fn .add [.fn .mul [.value 1 0, .value 2 1], .fn .mul [.const (-2), recip 2, .value 1 1, .value 2 0]], .const 3⟩])
      (s' := [⟨.stored, .const 3⟩]) (vs := [x * w - y * z]) (ws := [])
      (by simp [storedInputs, hasStoredC, hasStored]) (by rfl)
      (by
        simp [exec, eval, evalAdd, evalMul, evalPower, contextEnv, num2, asNumber, baseId, storedInputs,
          hasStoredC, hasStored, greaterIdC, greaterId, Blade.greaterId, recip, powerOf]
        ring)⟩
  obtain ⟨f, ho⟩ := h
  exact ⟨_, ho, rfl, C83_commutator_partial (P := 3) (Q := 0) (R := 0) (by norm_num) _ _ _ _ _ (represents_stands (vec_represents x y))
    (represents_stands (vec_represents z w)) (commutator_quotients x y z w) ho⟩

/-! ### `cp(x e12, y e1 + z e2)` -/

theorem turn_type : commutatorProgram.typeOf 3 0 0 60
    [[⟨.value 1 0, .const 3⟩], [⟨.value 2 0, .const 1⟩, ⟨.value 2 1, .const 2⟩]] =
    some [⟨.fn .mul [.value 1 0, .value 2 1], .const 1⟩, ⟨.fn .mul [.const (-2), recip 2, .value 1 0, .value 2 0], .const 2⟩] := by
  decide +kernel

theorem turn_quotients (x y z : ℝ) : NoIntegerDivision 3 0 0 60 τ ρ [planeObj x, vecObj y z] commutatorProgram := by
  intro e he
  rw [lazyType_pure (as := [[⟨.value 1 0, .const 3⟩], [⟨.value 2 0, .const 1⟩, ⟨.value 2 1, .const 2⟩]]) (by rfl) turn_type] at he
  cases he
  intro c hc
  simp only [List.mem_cons, List.not_mem_nil, or_false] at hc
  rcases hc with rfl | rfl
  all_goals
    simp only [NoIntQuotient, NoIntQuotientAll, recip, powerOf, and_true, true_and]
    intro pre l r h
    rcases pre with _ | ⟨a, _ | ⟨b, _ | ⟨c, _ | ⟨d, pre⟩⟩⟩⟩ <;> simp at h

-- the bivector `x e12` turns vectors into vectors
example (x y z : ℝ) : ∃ o X, commutatorProgram.runLazy 3 0 0 60 τ ρ [planeObj x, vecObj y z] = some o ∧
    o.values = [x * z, -(x * y)] ∧ Stands ρ 3 o X ∧ Homogeneous 1 X := by
  have h : ∃ f, commutatorProgram.runLazy 3 0 0 60 τ ρ [planeObj x, vecObj y z] =
      some ⟨f, [⟨.stored, .const 1⟩, ⟨.stored, .const 2⟩], [x * z, -(x * y)], []⟩ := by
    unfold Rational.runLazy
    rw [lazyType_pure (as := [[⟨.value 1 0, .const 3⟩], [⟨.value 2 0, .const 1⟩, ⟨.value 2 1, .const 2⟩]]) (by rfl) turn_type]
    exact ⟨_, contextObject_some (k := 60) (Ms := [planeObj x, vecObj y z])
      (e := [⟨.fn .mul [.value 1 0, .value 2 1], .const 1⟩, ⟨.fn .mul [.const (-2), recip 2, .value 1 0, .value 2 0], .const 2⟩])
      (s' := [⟨.stored, .const 1⟩, ⟨.stored, .const 2⟩]) (vs := [x * z, -(x * y)]) (ws := [])
      (by simp [storedInputs, hasStoredC, hasStored]) (by rfl)
      (by simp [exec, eval, evalMul, evalPower, contextEnv, num2, asNumber, baseId, storedInputs, hasStoredC, hasStored,
        greaterIdC, greaterId, Blade.greaterId, recip, powerOf])⟩
  obtain ⟨f, ho⟩ := h
  obtain ⟨X, h1, h2⟩ := C83_bivector_partial (P := 3) (Q := 0) (R := 0) (by norm_num) _ _ _ _ _ 1 (homog_single _ (by decide))
    (homog_add (homog_single _ (by decide)) (homog_single _ (by decide))) (represents_stands (plane_represents x))
    (represents_stands (vec_represents y z)) (turn_quotients x y z) ho
  exact ⟨_, X, ho, rfl, h1, h2⟩

end GATL.Props
