import Verif.Model.Unit

/-!
# Programs with inverses

Straight-line programs over multivectors whose steps are the programs of `Verif/Model/Lazy.lean` and calls of
`inv`, the way the library's own functions are written: `auto aux = ...;` followed by one `lazy.eval(...)`, e.g.
`extra/inverse_geometric_product.hpp:29-33`, `model/signed/minkowski/round_location.hpp:29-36`.  Citations are
relative to `/repo/cpp/include/gatl/ga`.  `none` means that the program does not compile.
-/

namespace GATL

open Expr Spec

/-- A straight-line program: each step names a multivector, and later steps can use it as one more input. -/
inductive Rational
  /-- `return t;` -/
  | ret (t : Program)
  /-- `auto x = t;` -/
  | bind (t : Program) (rest : Rational)
  /-- `auto x = inv(t);` -/
  | inv (t : Program) (rest : Rational)

namespace Rational

/-- Running a program in the space with signature `(P, Q, R)`.  The new name is the last input of the following
steps. -/
noncomputable def run (P Q R n : Nat) (τ : Types) (outer : Env) : Rational → List Object → Option Object
  | ret t, Ms => t.run P Q R n τ outer Ms
  | bind t rest, Ms => do rest.run P Q R n τ outer (Ms ++ [← t.run P Q R n τ outer Ms])
  | inv t rest, Ms => do
    rest.run P Q R n τ outer (Ms ++ [← inverse P Q R n τ outer (← t.run P Q R n τ outer Ms)])

/-- The type of `program(x...)` in the context made by `make_lazy_context_tuple(inputs...)`,
`core/lazy_context.hpp:655-659`, `:678-682`. -/
noncomputable def lazyType (P Q R n : Nat) (τ : Types) (outer : Env) (Ms : List Object) (t : Rational) :
    Option CSum := do
  let as ← arguments (baseId Ms) Ms
  let r ← t.run P Q R n τ outer (List.zipWith (fun M a => lazyObject M.floats a) Ms as)
  some r.expr

/-- Running a program lazily: `auto [lazy, x...] = make_lazy_context_tuple(inputs...)` and
`lazy.eval(program(x...))`, `core/lazy_context.hpp:471-491`, `:655-659`. -/
noncomputable def runLazy (P Q R n : Nat) (τ : Types) (outer : Env) (Ms : List Object) (t : Rational) :
    Option Object := do
  contextObject n τ outer Ms (← t.lazyType P Q R n τ outer Ms)

/-- `inv(arg, mtr)`, `extra/versor_inverse.hpp:29-33`. -/
def inverseProgram : Rational := .inv (.input 0) (.ret (.input 1))

/-- `igp(lhs, rhs, mtr)`, `extra/inverse_geometric_product.hpp:29-33`. -/
def divideProgram : Rational := .inv (.input 1) (.ret (.graded .gp (.input 0) (.input 2)))

end Rational

end GATL
