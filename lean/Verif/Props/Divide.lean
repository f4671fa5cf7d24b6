import Verif.Proofs.DivideTotal
import Verif.Props.Unit

/-!
# Division by a number

**C77**

`divideBy k τ ρ M S` is `M / S` for a scalar `S`, and `scalarObject true x` is the floating-point number `x` as a
multivector.  The argument `k` is the depth to which the compiler instantiates templates, and the result is `none` if the
expression does not compile at that depth, or evaluates something undefined.  `Stands` says which multivector an evaluated
object stands for.
-/

namespace GATL.Props

open Expr Spec

variable {τ : Types} {ρ : Env}

/-- **C77** `A / x` compiles from some instantiation depth on for every multivector `A` and every floating-point number
`x` other than zero, and it is the multivector whose coefficients are those of `A` divided by `x`. -/
theorem C77_divide {n : Nat} (hn : n ≤ 62) (M : Object) (A : MV ℝ) (hM : Represents ρ n M A) (x : ℝ) (hx : x ≠ 0) :
    ∃ depth, ∀ k, depth ≤ k → ∃ o, divideBy k τ ρ M (scalarObject true x) = some o ∧
      ∃ B : MV ℝ, Stands ρ n o B ∧ ∀ b, B b = A b / x := by
  obtain ⟨k0, h⟩ := Total.divide_total (τ := τ) hn hM hx
  refine ⟨k0, fun k hk => ?_⟩
  obtain ⟨o, ho, hs⟩ := h k hk
  exact ⟨o, ho, _, hs, fun b => by rw [Finsupp.smul_apply, smul_eq_mul, div_eq_inv_mul]⟩

-- `(3 e1 - 4 e2) / 5`
example : ∃ depth, ∀ k, depth ≤ k → ∃ o, divideBy k τ ρ (vecObj 3 (-4)) (scalarObject true 5) = some o ∧
    ∃ B : MV ℝ, Stands ρ 3 o B ∧ B 1 = 3 / 5 ∧ B 2 = -4 / 5 := by
  obtain ⟨d, h⟩ := C77_divide (τ := τ) (ρ := ρ) (n := 3) (by norm_num) _ _ (vec_represents 3 (-4)) 5 (by norm_num)
  refine ⟨d, fun k hk => ?_⟩
  obtain ⟨o, h1, B, h2, h3⟩ := h k hk
  refine ⟨o, h1, B, h2, ?_, ?_⟩
  · rw [h3]
    simp [Finsupp.single_apply]
  · rw [h3]
    simp [Finsupp.single_apply]

end GATL.Props
