import Verif.Model.Unit
import Verif.Spec.Math

/-!
# Functions of scalars

Model of `core/math.hpp`.  Citations are relative to `/repo/cpp/include/gatl/ga`.  `none` means that the program does not
compile, or evaluates something undefined.
-/

namespace GATL

open Expr Spec

/-- The function of values that is applied, `core/math.hpp:66`, `:74`, `:82`, `:90`, `:98`, `:106`, `:114`, `:122`, `:130`. -/
def mathName : MathFn → Name
  | .abs => .absolute
  | .exp => .exponential
  | .log => .logarithm
  | .cos => .cosine
  | .sin => .sine
  | .tan => .tangent
  | .cosh => .hcosine
  | .sinh => .hsine
  | .tanh => .htangent

/-- `abs`, `exp`, `log`, `cos`, `sin`, `tan`, `cosh`, `sinh` and `tanh` of a scalar, `core/math.hpp:63-67`, `:71-75`,
`:79-83`, `:87-91`, `:95-99`, `:103-107`, `:111-115`, `:119-123`, `:127-131`. -/
noncomputable def mathScalar (f : MathFn) (n : Nat) (τ : Types) (outer : Env) (M : Object) : Option Object :=
  call1 n τ outer (fun a => do some [⟨← mkFn (simp n) (mathName f) [← scalarCoef a], .const 0⟩]) M

/-- `cbrt(arg)`, `core/math.hpp:56-59`: the power with exponent `power_t<3, -1>`. -/
noncomputable def cbrtScalar (n : Nat) (τ : Types) (outer : Env) (M : Object) : Option Object := do
  powScalar n τ outer M
    (lazyObject M.floats [⟨← simp n .pow (.const 3) (.const (-1)), .const 0⟩])

end GATL
