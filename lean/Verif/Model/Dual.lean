import Verif.Model.Algebras
import Verif.Model.Rational

/-!
# Duals

Model of `dual` and `undual`, `extra/dualization.hpp`, on objects.  Citations are relative to
`/repo/cpp/include/gatl/ga`.
-/

namespace GATL

open Expr Spec

/-- The expression that `dual` evaluates: `lcont(arg_, inv(pseudoscalar_, mtr), mtr)`,
`extra/dualization.hpp:32`. -/
def dualProgram : Rational := .inv (.input 1) (.ret (.graded .lcont (.input 0) (.input 2)))

/-- The expression that `undual` evaluates: `lcont(arg_, pseudoscalar_, mtr)`, `extra/dualization.hpp:43`. -/
def undualProgram : Program := .graded .lcont (.input 0) (.input 1)

/-- `dual(arg)` in the space with signature `(P, Q, R)`, `extra/macro_for_algebra_overload.hpp:63-66`: `dual(arg,
pseudoscalar(mtr), mtr)`, `extra/dualization.hpp:29-33`. -/
noncomputable def dualObject (P Q R n : Nat) (τ : Types) (outer : Env) (A : Object) : Option Object := do
  dualProgram.runLazy P Q R n τ outer [A, ← pseudoscalarObject (P + Q + R)]

/-- `undual(arg)` in the space with signature `(P, Q, R)`: `undual(arg, pseudoscalar(mtr), mtr)`, `extra/macro_for_algebra_overload.hpp:168-171`,
`extra/dualization.hpp:40-44`. -/
noncomputable def undualObject (P Q R n : Nat) (τ : Types) (outer : Env) (A : Object) : Option Object := do
  undualProgram.runLazy P Q R n τ outer [A, ← pseudoscalarObject (P + Q + R)]

end GATL
