import Verif.Model.Take
import Verif.Spec.Lazy
import Verif.Spec.Copy

/-!
# Specification vocabulary for grades
-/

namespace GATL.Spec

open Expr

/-- What `grade` reports, as a number, when `sig` are the basis blades with a significant coefficient: `-2`
if there is none, their common grade, or `-1` if they have different grades. -/
def IsGrade (sig : Word → Prop) (g : ℤ) : Prop :=
  (∀ b, ¬ sig b) ∧ g = -2 ∨
  (∃ b, sig b) ∧ (∀ b, sig b → (gradeOf b : ℤ) = g) ∨
  (∃ b c, sig b ∧ sig c ∧ gradeOf b ≠ gradeOf c) ∧ g = -1

/-- What `largest_grade` reports: `-2` if no basis blade is significant, otherwise the largest grade of
those that are. -/
def IsLargestGrade (sig : Word → Prop) (g : ℤ) : Prop :=
  (∀ b, ¬ sig b) ∧ g = -2 ∨ (∃ b, sig b ∧ (gradeOf b : ℤ) = g) ∧ ∀ b, sig b → (gradeOf b : ℤ) ≤ g

/-- The basis blades of `A` whose coefficient has an absolute value above the tolerance. -/
def Above (tol : ℝ) (A : MV ℝ) (b : Word) : Prop := tol < |A b|

/-- The same for a list of components. -/
def AboveIn (tol : ℝ) (V : List (ℝ × TBlade)) (b : Word) : Prop := ∃ p ∈ V, p.2.bits = b ∧ tol < |p.1|

/-- `M` is a scalar object with the value `x`. -/
def ScalarValue (ρ : Env) (n : Nat) (M : Object) (x : ℝ) : Prop :=
  (∃ c, M.expr = [⟨c, .const 0⟩]) ∧ Represents ρ n M (Finsupp.single 0 x)

/-- The integer literals among the coefficients can be negated without overflow. -/
def Negatable (s : CSum) : Prop := ∀ c ∈ s, ∀ v, c.coef = .const v → -(2 ^ 63) < v ∧ v < 2 ^ 63

/-- The components of evaluated multivectors with basis blades that are chosen at run time: a stored
coefficient or an integer literal, and a basis blade that is known at compile time or a stored bitset. -/
def RuntimeComp (c : Comp) : Prop :=
  (c.coef = .stored ∨ ∃ v, v ≠ 0 ∧ c.coef = .const v) ∧
    ((∃ b, c.blade = .const b) ∨ ∃ G, G ≠ 0 ∧ G ≠ 1 ∧ c.blade = .dyn G .storedBits)

/-- `M` has such components, with the coefficients and basis blades `V` in a space with `n` dimensions. -/
def HasComponents (ρ : Env) (n : Nat) (M : Object) (V : List (ℝ × TBlade)) : Prop :=
  M.expr ≠ [] ∧ (∀ c ∈ M.expr, RuntimeComp c) ∧ ReadsEach ρ M.expr M.values M.bitsets V ∧ ∀ p ∈ V, WellTyped n p

/-- Two basis blades that are chosen at run time, both of which may have the grade `j`. -/
def Clash (j : Nat) (a b : Blade) : Prop :=
  ∃ G e H f, a = .dyn G e ∧ b = .dyn H f ∧ (∃ i ∈ vecs G, i.val = j) ∧ ∃ i ∈ vecs H, i.val = j

end GATL.Spec
