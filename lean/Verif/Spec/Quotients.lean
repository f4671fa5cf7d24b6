import Verif.Model.Eval

/-!
# Quotients of integers
-/

namespace GATL.Spec

open Expr

mutual
/-- No quotient of two numbers of integer type: wherever a product ends with `l * r^(-1)`, the
numerator `l` or the denominator `r` is of a floating-point type (or `l` is the literal `-1`). -/
def NoIntQuotient (τ : Types) : Expr → Prop
  | .fn .mul args => NoIntQuotientAll τ args ∧
      ∀ pre l r, args = pre ++ [l, powerOf r (.const (-1))] →
        l = .const (-1) ∨ floating τ l = true ∨ floating τ r = true
  | .fn _ args => NoIntQuotientAll τ args
  | _ => True
/-- The same for every argument. -/
def NoIntQuotientAll (τ : Types) : List Expr → Prop
  | [] => True
  | a :: as => NoIntQuotient τ a ∧ NoIntQuotientAll τ as
end

end GATL.Spec
