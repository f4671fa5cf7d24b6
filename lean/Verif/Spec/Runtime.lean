import Verif.Spec.Lazy

/-!
# Specification vocabulary for sums of run-time basis blades
-/

namespace GATL.Spec

open Expr

/-- The first basis blade comes before the second one in the order of the library, and if both are chosen
at run time, then they declare different possible grades. -/
def Apart (a b : Blade) : Prop :=
  a.lt b = true ∧ ∀ G e H f, a = .dyn G e → b = .dyn H f → G ≠ H

/-- A component over the variables of a context: a number, and a basis blade that is known at compile time
or a bitset.  Literal coefficients are not 0. -/
structure OverContext (L U : Nat) (c : Comp) : Prop where
  coef : Evaluable L U .num c.coef
  nonzero : isConstant c.coef = false ∨ ∃ v, v ≠ 0 ∧ c.coef = .const v
  blade : (∃ b, c.blade = .const b) ∨ ∃ G x, G ≠ 0 ∧ G ≠ 1 ∧ c.blade = .dyn G x ∧ Evaluable L U .bits x

end GATL.Spec
