import Verif.Model.Copy
import Verif.Model.Take

/-!
# Visiting the components of a multivector, and the tests built on that

Model of `util/for_each_component.hpp`, `extra/tests.hpp`, `extra/reverse_norm.hpp` and the absolute value
of `core/math.hpp`.  Citations are relative to `/repo/cpp/include/gatl/ga`.  The outer `Option` of a result
is `none` where the call does not compile.  Maps (`stored_map_values`) are not modelled, see
`Model/Copy.lean`.
-/

namespace GATL

open Expr Spec

/-- `entry_source_t`, `util/for_each_component.hpp:30`, without the entries of maps. -/
inductive Source
  | compileTime
  | storedEntry
  deriving DecidableEq

/-- A function object given to `for_each_component`.  `γ` is what it can reach by reference, `σ` is its own
state.  It is given the basis vectors, the value and where they come from; the result is `none` if it throws,
otherwise the new states and the final value of `keep_going`. -/
abbrev Callback (γ σ : Type) := γ → σ → Word → ℝ → Source → Source → Option (γ × σ × Bool)

/-- What visiting does: reading past the end of a storage, `std::terminate`, or returning. -/
inductive Visit (γ : Type)
  | undefined
  | terminated
  | returned (g : γ) (all : Bool)

/-- The coefficient of a component, `util/for_each_component.hpp:57-116`: the next stored value, or the
constant converted to the coefficient type (`static_cast<ValueType>(Coefficient::eval<0, 0>(...))`).  With it
the remaining values and where it comes from; `none` where there is nothing to read. -/
noncomputable def visitCoef (τ : Types) (ρ : Env) (floats : Bool) (c : Expr) (vs : List ℝ) :
    Option (ℝ × List ℝ × Source) :=
  match c with
  | .stored =>
    match vs with
    | [] => none
    | x :: vs => some (x, vs, .storedEntry)
  | c => (eval τ ρ c).map fun v => (convertTo floats (asNumber v), vs, .compileTime)

/-- The basis blade of a component, `util/for_each_component.hpp:57-116`. -/
def visitBlade (b : Blade) (ws : List Word) : Option (Word × List Word × Source) :=
  match b with
  | .const b => some (b, ws, .compileTime)
  | .dyn _ _ =>
    match ws with
    | [] => none
    | w :: ws => some (w, ws, .storedEntry)

/-- `_for_each_component_impl::run`, `util/for_each_component.hpp:40-116`.  The function object is passed by
value to each step, so each step works on its own copy of the initial state `s`.  The steps are declared
`noexcept(noexcept(f))`, and `noexcept(f)` is true since naming `f` does not throw: an exception of `f`
terminates the program.  (The type of a sum with no components does not exist.) -/
noncomputable def visitFrom {γ σ : Type} (τ : Types) (ρ : Env) (floats : Bool) (f : Callback γ σ) (s : σ) :
    CSum → List ℝ → List Word → γ → Visit γ
  | [], _, _, g => .returned g true
  | c :: cs, vs, ws, g =>
    match visitCoef τ ρ floats c.coef vs, visitBlade c.blade ws with
    | some (x, vs, xs), some (w, ws, bs) =>
      match f g s w x bs xs with
      | none => .terminated
      | some (g, _, keepGoing) =>
        if keepGoing then visitFrom τ ρ floats f s cs vs ws g else .returned g false
    | _, _ => .undefined

/-- The components with a specialisation, `util/for_each_component.hpp:57-116`, for which `can_be_stored`
holds (`core/expression_traits.hpp:33-93`). -/
def visitable (c : Comp) : Bool :=
  (c.coef == .stored || isConstant c.coef) &&
  match c.blade with
  | .const _ => true
  | .dyn _ e => e == .storedBits

/-- `for_each_component(arg, f)`, `util/for_each_component.hpp:120-127`. -/
noncomputable def forEachComponent {γ σ : Type} (τ : Types) (ρ : Env) (f : Callback γ σ) (g : γ) (s : σ)
    (M : Object) : Option (Visit γ) :=
  if M.expr.all visitable then some (visitFrom τ ρ M.floats f s M.expr M.values M.bitsets g) else none

/-- `is_zero(arg, tol)`, `extra/tests.hpp:29-34`. -/
noncomputable def isZero (τ : Types) (ρ : Env) (M : Object) (tol : ℝ) : Option (Visit Unit) :=
  forEachComponent (γ := Unit) (σ := Unit) τ ρ
    (fun _ _ _ x _ _ => some ((), (), decide (|x| ≤ convertTo M.floats tol))) () () M

/-- `rnorm_sqr(arg, mtr)`, `extra/reverse_norm.hpp:29-33`, in the space with signature `(P, Q, R)`. -/
noncomputable def normSqrObject (P Q R n : Nat) (τ : Types) (outer : Env) (M : Object) : Option Object :=
  (Program.graded .sp (.input 0) (.reverse (.input 0))).runLazy P Q R n τ outer [M]

/-- `abs(arg)` of a scalar, `core/math.hpp:64-68`. -/
noncomputable def absScalar (n : Nat) (τ : Types) (outer : Env) (M : Object) : Option Object :=
  call1 n τ outer (fun a => do some [⟨← mkAbsolute (simp n) (← scalarCoef a), .const 0⟩]) M

/-- `is_null(arg, tol, mtr)`, `extra/tests.hpp:41-45`. -/
noncomputable def isNull (P Q R n : Nat) (τ : Types) (outer : Env) (M : Object) (tol : ℝ) :
    Option (Visit Unit) := do
  isZero τ outer (← normSqrObject P Q R n τ outer M) tol

/-- `is_unit(arg, tol, mtr)`, `extra/tests.hpp:47-51`. -/
noncomputable def isUnit (P Q R n : Nat) (τ : Types) (outer : Env) (M : Object) (tol : ℝ) :
    Option (Visit Unit) := do
  let a ← absScalar n τ outer (← normSqrObject P Q R n τ outer M)
  isZero τ outer (← call2 n τ outer (subC n) a (constObject 1)) tol

end GATL
