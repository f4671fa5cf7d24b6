import Verif.Model.Rational

/-!
# Applying versors

Model of `apply_even_versor`, `apply_odd_versor` and `apply_rotor`, `extra/apply_versor.hpp:30-78`, on objects.  Citations are relative to
`/repo/cpp/include/gatl/ga`.
-/

namespace GATL

open Expr Spec

/-- The expression that `apply_rotor` evaluates: `gp(gp(rotor_, arg_, mtr), reverse(rotor_), mtr)`,
`extra/apply_versor.hpp:77`. -/
def rotorProgram : Program := .graded .gp (.graded .gp (.input 0) (.input 1)) (.reverse (.input 0))

/-- `apply_rotor(rotor, arg, mtr)` in a signed metric space: a lazy context of both arguments, evaluated once,
`extra/apply_versor.hpp:74-78`. -/
noncomputable def rotorObject (P Q R n : Nat) (τ : Types) (outer : Env) (V A : Object) : Option Object :=
  rotorProgram.runLazy P Q R n τ outer [V, A]

/-- The expression that `apply_even_versor` evaluates: `gp(gp(versor_, arg_, mtr), inv(versor_, mtr), mtr)`,
`extra/apply_versor.hpp:33`. -/
def evenProgram : Rational := .inv (.input 0) (.ret (.graded .gp (.graded .gp (.input 0) (.input 1)) (.input 2)))

/-- The expression that `apply_odd_versor` evaluates: `gp(gp(versor_, involute(arg_), mtr), inv(versor_, mtr), mtr)`,
`extra/apply_versor.hpp:55`. -/
def oddProgram : Rational :=
  .inv (.input 0) (.ret (.graded .gp (.graded .gp (.input 0) (.involute (.input 1))) (.input 2)))

end GATL
