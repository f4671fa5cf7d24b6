import Verif.Spec.Unit

/-!
# What is said about exponentials
-/

namespace GATL.Spec

/-- The powers of a multivector with respect to the geometric product. -/
noncomputable def gpow (P Q R : Nat) (B : MV ℝ) : ℕ → MV ℝ
  | 0 => Finsupp.single 0 1
  | k + 1 => signedProd P Q R .gp B (gpow P Q R B k)

/-- `E` is the sum of the exponential series of `B`, for every coefficient. -/
def IsExponential (P Q R : Nat) (B E : MV ℝ) : Prop :=
  ∀ b, HasSum (fun k : ℕ => (k.factorial : ℝ)⁻¹ * gpow P Q R B k b) (E b)

/-- The scalar part of the square is `c` for all values of the stored coefficients. -/
def ConstantSquare (ρ : Env) (P Q R : Nat) (M : Object) (c : ℝ) : Prop :=
  ∀ vs A, Reads ρ (P + Q + R) M.expr vs M.bitsets A → signedProd P Q R .gp A A 0 = c

end GATL.Spec
