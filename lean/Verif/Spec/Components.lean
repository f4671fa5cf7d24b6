import Verif.Model.Components
import Verif.Spec.Denote
import Verif.Spec.Typed

/-!
# What a sum of components denotes
-/

namespace GATL.Spec

open Expr

/-- The typed blade (declared possible grades and actual bitset) a blade type stands for. -/
def BladeDenotes (ρ : Env) : Blade → TBlade → Prop
  | .const b, t => t = .const b
  | .dyn G e, t => ∃ w, den ρ e = some (.bits w) ∧ t = .dyn G w

/-- The coefficient and the typed blade a component stands for. -/
def CompDenotes (ρ : Env) (c : Comp) (v : ℝ × TBlade) : Prop :=
  Denotes ρ c.coef v.1 ∧ BladeDenotes ρ c.blade v.2

/-- The shapes of components the library builds: shapes of coefficients as in `Built`; a run-time
bitset is not a compile-time constant. -/
def CompBuilt (c : Comp) : Prop :=
  Built c.coef ∧ ∀ G e, c.blade = .dyn G e → Built e ∧ isConstant e = false

/-- The expression is of a shape the library builds, every component has a value, the declared grades
are right (in a space with `n` dimensions), and the sum of the components is the multivector `m`. -/
def SumDenotes (ρ : Env) (n : Nat) (s : CSum) (m : MV ℝ) : Prop :=
  (∀ c ∈ s, CompBuilt c) ∧
    ∃ A : List (ℝ × TBlade), List.Forall₂ (CompDenotes ρ) s A ∧ (∀ a ∈ A, WellTyped n a) ∧
      (A.map fun a => (Finsupp.single a.2.bits a.1 : MV ℝ)).sum = m

/-- The order of basis blades: by grade, then by bitset. -/
def Before (a b : Word) : Prop :=
  gradeOf a < gradeOf b ∨ gradeOf a = gradeOf b ∧ a.toNat < b.toNat

/-- Canonical form of a multivector with statically known basis blades: either one component whose
coefficient is the constant zero, or components without constant zeros as coefficients and with
strictly increasing basis blades.  Basis vectors have indices 1 to 63, i.e. bits 0 to 62. -/
def Canonical (s : CSum) : Prop :=
  s ≠ [] ∧ (∀ c ∈ s, ∃ b, c.blade = .const b ∧ ∀ i ∈ vecs b, i.val < 63) ∧
    s.Pairwise (fun c d => ∀ a b, c.blade = .const a → d.blade = .const b → Before a b) ∧
    ((∃ c, s = [c] ∧ c.coef = .const 0) ∨ ∀ c ∈ s, c.coef ≠ .const 0)

end GATL.Spec
