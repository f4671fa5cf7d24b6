import Verif.Model.Expr

/-!
# Expressions without tangents and cube roots

The tangent is undefined at its poles, and the power with exponent `1/3` of a negative number; the functions of the
standard library return numbers there.
-/

namespace GATL.Spec

open Expr

/-- No tangent and no cube root occurs. -/
inductive Definite : Expr → Prop
  | leaf (e : Expr) (h : ∀ name args, e ≠ .fn name args) : Definite e
  | fn (name : Name) (args : List Expr) (ha : ∀ a ∈ args, Definite a) (ht : name ≠ .tangent)
      (hc : name = .power → ∀ l, args ≠ [l, recip 3]) : Definite (.fn name args)

end GATL.Spec
