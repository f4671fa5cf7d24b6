import Verif.Model.Rational
import Verif.Model.Multivector
import Verif.Spec.Lazy
import Verif.Spec.Quotients

/-!
# Specification vocabulary for programs with inverses
-/

namespace GATL.Spec

open Expr

/-- The objects that evaluated multivectors are: statically known basis blades in canonical order, and
coefficients that are either stored or made of integer literals by sums, products and integer powers. -/
def Evaluated (s : CSum) : Prop :=
  Canonical s ∧ ∀ c ∈ s, c.coef = .stored ∨ Arithmetic (fun _ => False) c.coef

/-- The object `M` is of that kind and stands for the multivector `A` in a space with `n` dimensions; its storage
has exactly the size needed (see `Reads`). -/
def Stands (ρ : Env) (n : Nat) (M : Object) (A : MV ℝ) : Prop :=
  Evaluated M.expr ∧ Reads ρ n M.expr M.values M.bitsets A

/-- The lazy program compiles to a type in which no quotient of two numbers of integer type is computed. -/
def NoIntegerDivision (P Q R n : Nat) (τ : Types) (ρ : Env) (Ms : List Object) (t : Rational) : Prop :=
  ∀ e, t.lazyType P Q R n τ ρ Ms = some e →
    ∀ c ∈ e, NoIntQuotient (contextTypes τ (baseId Ms) (storedInputs Ms)) c.coef

end GATL.Spec

namespace GATL

/-- The value of a program whose inputs are the multivectors `As`, in the space with signature `(P, Q, R)`; `none`
if the squared norm of a multivector to be inverted vanishes. -/
noncomputable def Rational.value (P Q R : Nat) : Rational → List (MV ℝ) → Option (MV ℝ)
  | ret t, As => some (t.value P Q R As)
  | bind t rest, As => rest.value P Q R (As ++ [t.value P Q R As])
  | inv t rest, As => do
    let A := t.value P Q R As
    let x := rnormSqr (signedProd P Q R) A
    if x = 0 then none else rest.value P Q R (As ++ [x⁻¹ • GATL.reverse A])

end GATL
