import Verif.Spec.Lazy
import Verif.Spec.Versor
import Verif.Model.Take

/-!
# What is said about norms and unit multivectors
-/

namespace GATL.Spec

/-- The squared norm is the same for all values of the stored coefficients. -/
def ConstantNorm (ρ : Env) (P Q R : Nat) (M : Object) : Prop :=
  ∃ c : ℝ, ∀ vs A, Reads ρ (P + Q + R) M.expr vs M.bitsets A → rnormSqr (signedProd P Q R) A = c

/-- The squared norm is the square of one stored coefficient, up to a non-negative factor. -/
def SquareNorm (ρ : Env) (P Q R : Nat) (M : Object) : Prop :=
  ∃ (c : ℝ) (i : Nat), 0 ≤ c ∧ ∀ vs A, Reads ρ (P + Q + R) M.expr vs M.bitsets A →
    rnormSqr (signedProd P Q R) A = c * vs.getD i 0 ^ 2

/-- The squared norm is the square of one stored coefficient, up to any factor. -/
def SingleSquareNorm (ρ : Env) (P Q R : Nat) (M : Object) : Prop :=
  ∃ (c : ℝ) (i : Nat), ∀ vs A, Reads ρ (P + Q + R) M.expr vs M.bitsets A →
    rnormSqr (signedProd P Q R) A = c * vs.getD i 0 ^ 2

/-- The type is that of a scalar. -/
def ScalarType (M : Object) : Prop := ∃ c, M.expr = [⟨c, .const 0⟩]

end GATL.Spec
