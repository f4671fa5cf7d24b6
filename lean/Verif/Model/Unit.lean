import Verif.Model.Tests

/-!
# Powers and roots of scalars, norms, inverses, unit multivectors and exponentials of blades

Model of `core/math.hpp` (powers and exponentials), `extra/reverse_norm.hpp`, `extra/versor_inverse.hpp`,
`extra/unit.hpp` and `extra/blade_exponential.hpp`.  Citations are relative to
`/repo/cpp/include/gatl/ga`.  `none` means that the program does not compile.  The products are those of
the space with signature `(P, Q, R)`.
-/

namespace GATL

open Expr Spec

/-- `pow(base, exponent)` of scalars, `core/math.hpp:31-35`. -/
noncomputable def powScalar (n : Nat) (τ : Types) (outer : Env) (M E : Object) : Option Object :=
  call2 n τ outer (fun a e => do some [⟨← simp n .pow (← scalarCoef a) (← scalarCoef e), .const 0⟩]) M E

/-- `sqrt(arg)`, `core/math.hpp:47-52`: the power with exponent `power_t<2, -1>`. -/
noncomputable def sqrtScalar (n : Nat) (τ : Types) (outer : Env) (M : Object) : Option Object := do
  powScalar n τ outer M
    (lazyObject M.floats [⟨← simp n .pow (.const 2) (.const (-1)), .const 0⟩])

/-- `exp(arg)` of a scalar, `core/math.hpp:72-76`. -/
noncomputable def expScalar (n : Nat) (τ : Types) (outer : Env) (M : Object) : Option Object :=
  call1 n τ outer (fun a => do some [⟨mkExp (← scalarCoef a), .const 0⟩]) M

/-- `reverse(arg)`, `core/reversion.hpp:30-34`. -/
noncomputable def reverseObject (n : Nat) (τ : Types) (outer : Env) (M : Object) : Option Object :=
  call1 n τ outer (gradedMinusC n 0xcccccccccccccccc) M

/-- A graded product of two multivectors, e.g. `core/geometric_product.hpp:97-101`,
`core/scalar_product.hpp:41-45`. -/
noncomputable def gradedObject (P Q R n : Nat) (g : GradedProduct) (τ : Types) (outer : Env) (M M' : Object) :
    Option Object :=
  call2 n τ outer (mulC (orthMapping (P + Q + R) (mkSignedFactor P Q R) g) n) M M'

/-- `inv(arg, mtr)`, `extra/versor_inverse.hpp:29-33`: the inverse of the squared norm is `pow(_, c<-1>)`
(`:35-38`), the product with it is that of the real space (`core/geometric_product.hpp:103-106`). -/
noncomputable def inverse (P Q R n : Nat) (τ : Types) (outer : Env) (M : Object) : Option Object := do
  match ← arguments (baseId [M]) [M] with
  | [a] =>
    let A := lazyObject M.floats a
    let i ← powScalar n τ outer (← normSqrObject P Q R n τ outer A) (constObject (-1))
    let r ← call2 n τ outer (mulC (orthMapping 63 mkRealFactor .gp) n) (← reverseObject n τ outer A) i
    contextObject n τ outer [M] r.expr
  | _ => none

/-- `rnorm(arg, mtr)`, `extra/reverse_norm.hpp:51-55`. -/
noncomputable def normObject (P Q R n : Nat) (τ : Types) (outer : Env) (M : Object) : Option Object := do
  match ← arguments (baseId [M]) [M] with
  | [a] =>
    let A := lazyObject M.floats a
    let s ← gradedObject P Q R n .sp τ outer A (← reverseObject n τ outer A)
    let r ← sqrtScalar n τ outer s
    contextObject n τ outer [M] r.expr
  | _ => none

/-- `unit(arg, mtr)`, `extra/unit.hpp:30-34`; for a scalar the overload of `:36-40`. -/
noncomputable def unitObject (P Q R n : Nat) (τ : Types) (outer : Env) (M : Object) : Option Object := do
  match ← arguments (baseId [M]) [M] with
  | [a] =>
    let A := lazyObject M.floats a
    if (scalarCoef M.expr).isSome then
      let i ← powScalar n τ outer (← absScalar n τ outer A) (constObject (-1))
      let r ← call2 n τ outer (mulC (orthMapping 63 mkRealFactor .gp) n) A i
      contextObject n τ outer [M] r.expr
    else
      let s ← gradedObject P Q R n .sp τ outer A (← reverseObject n τ outer A)
      let i ← inverse P Q R n τ outer (← sqrtScalar n τ outer (← absScalar n τ outer s))
      let r ← gradedObject P Q R n .gp τ outer A i
      contextObject n τ outer [M] r.expr
  | _ => none

/-- The types computed by `exp(arg, tol, mtr)`, `extra/blade_exponential.hpp:30-64`, from the expression `b`
of the blade and the coefficient `t` of the tolerance. -/
def expExpr (P Q R n : Nat) (b : CSum) (t : Expr) : Option CSum := do
  let s ← scalarCoef (← mulC (orthMapping (P + Q + R) (mkSignedFactor P Q R) .sp) n b b)
  let sq ← mkAbsolute (simp n) s
  let α ← simp n .pow sq (← simp n .pow (.const 2) (.const (-1)))
  let c := mkIfElse (mkLessOrEqual sq t) (.const 1)
    (mkIfElse (mkLessOrEqual s (.const 0)) (.fn .cosine [α]) (.fn .hcosine [α]))
  let i ← simp n .pow α (.const (-1))
  let w := mkIfElse (mkLessOrEqual sq t) (.const 1)
    (mkIfElse (mkLessOrEqual s (.const 0)) (← simp n .mul (.fn .sine [α]) i) (← simp n .mul (.fn .hsine [α]) i))
  addC n [mkComp c (.const 0)] (← mulC (extMapping (P + Q + R)) n [mkComp w (.const 0)] b)

/-- `exp(arg, tol, mtr)`, `extra/blade_exponential.hpp:29-68`, with the tolerance as a scalar; for a scalar the
overload of `:75-78`. -/
noncomputable def expObject (P Q R n : Nat) (τ : Types) (outer : Env) (M T : Object) : Option Object := do
  if (scalarCoef M.expr).isSome then expScalar n τ outer M
  else
    match ← arguments (baseId [M, T]) [M, T] with
    | [b, t] => contextObject n τ outer [M, T] (← expExpr P Q R n b (← scalarCoef t))
    | _ => none

end GATL
