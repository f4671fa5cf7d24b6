import Verif.Model.Tests
import Verif.Spec.Copy
import Verif.Spec.Take

/-!
# Specification vocabulary for visiting components
-/

namespace GATL.Spec

open Expr

/-- A component as it is shown to a function object. -/
structure Shown where
  blade : Word
  value : ℝ
  bladeSource : Source
  valueSource : Source

/-- A component of the given type with the given value: the basis vectors of a run-time blade are a stored
entry, and so is a stored coefficient; everything else is known at compile time. -/
def shown (c : Comp) (p : ℝ × TBlade) : Shown where
  blade := p.2.bits
  value := p.1
  bladeSource := match c.blade with
    | .const _ => .compileTime
    | .dyn _ _ => .storedEntry
  valueSource := if c.coef = .stored then .storedEntry else .compileTime

/-- Showing the component `x` to the function object. -/
def callback {γ σ : Type} (f : Callback γ σ) (g : γ) (s : σ) (x : Shown) : Option (γ × σ × Bool) :=
  f g s x.blade x.value x.bladeSource x.valueSource

/-- Showing the components to copies of the function object, one after the other, takes the state reached by
reference from `g` to `g'`, and each copy wants to keep going. -/
inductive Kept {γ σ : Type} (f : Callback γ σ) (s : σ) : γ → List Shown → γ → Prop
  | nil (g) : Kept f s g [] g
  | cons {g g₁ g' s' x xs} (hx : callback f g s x = some (g₁, s', true)) (hxs : Kept f s g₁ xs g') :
      Kept f s g (x :: xs) g'

/-- The same when one function object is used for all components, so that it keeps its own state. -/
inductive KeptState {γ σ : Type} (f : Callback γ σ) : γ → σ → List Shown → γ → Prop
  | nil (g s) : KeptState f g s [] g
  | cons {g s g₁ s' g' x xs} (hx : callback f g s x = some (g₁, s', true)) (hxs : KeptState f g₁ s' xs g') :
      KeptState f g s (x :: xs) g'

/-- An object with an integer coefficient type stores integers. -/
def IntegerStorage (M : Object) : Prop := M.floats = false → ∀ x ∈ M.values, ∃ z : ℤ, x = z

/-- The variables of enclosing contexts that have an integer type are integers. -/
def IntegerVariables (τ : Types) (ρ : Env) : Prop := ∀ t i, τ t = false → ∃ z : ℤ, ρ.val t i = z

end GATL.Spec
