import Verif.Model.Copy
import Verif.Spec.Lazy

/-!
# Specification vocabulary for copies
-/

namespace GATL.Spec

open Expr

/-- The values of the components of an object with the given type and stored entries, in order: the
coefficient and the basis blade of each. -/
inductive ReadsEach (ρ : Env) : CSum → List ℝ → List Word → List (ℝ × TBlade) → Prop
  | nil : ReadsEach ρ [] [] [] []
  | cons {c b s vs ws vs' ws' x t L} (hc : CoefReads ρ c vs x) (hb : BladeReads ρ b ws t)
      (hs : ReadsEach ρ s vs' ws' L) :
      ReadsEach ρ (⟨c, b⟩ :: s) (vs ++ vs') (ws ++ ws') ((x, t) :: L)

/-- The multivector with the given components. -/
noncomputable def sumOf (L : List (ℝ × TBlade)) : MV ℝ :=
  (L.map fun p => (Finsupp.single p.2.bits p.1 : MV ℝ)).sum

/-- The types of evaluated multivectors: basis blades that are known at compile time or stored, in the
order of the library, and no component with the constant coefficient 0; or the type of the constant 0. -/
def Ordered (s : CSum) : Prop :=
  s = [Comp.zero] ∨
    s ≠ [] ∧ (∀ c ∈ s, c.coef ≠ .const 0 ∧ ((∃ b, c.blade = .const b) ∨ ∃ G, c.blade = .dyn G .storedBits)) ∧
      s.Pairwise fun c d => c.blade.lt d.blade = true

/-- The type `s` has a component for the basis blade of `c`. -/
def HasBlade (s : CSum) (c : Comp) : Prop := ∃ d ∈ s, d.blade = c.blade

/-- All numbers are integers. -/
def Integral (L : List (ℝ × TBlade)) : Prop := ∀ p ∈ L, ∃ z : ℤ, p.1 = z

/-- The component with the value `l` in the result is the input's component with the same basis blade, or
0 if the input has no component with that basis blade. -/
def Copied (input : CSum) (L : List (ℝ × TBlade)) (r : Comp) (l : ℝ × TBlade) : Prop :=
  (∃ p ∈ input.zip L, p.1.blade = r.blade ∧ p.2 = l) ∨ (¬ HasBlade input r ∧ l.1 = 0)

/-- The components of the input that the result type has no place for, with their values. -/
noncomputable def dropped (input : CSum) (L : List (ℝ × TBlade)) (result : CSum) : List (Comp × ℝ × TBlade) :=
  open Classical in (input.zip L).filter fun p => ¬ HasBlade result p.1

/-- A coefficient of type `i` can be written to a coefficient of type `r`: anything can be stored, and a
constant needs no action if it is the same. -/
def Assignable (i r : Expr) : Prop :=
  r = .stored ∧ (i = .stored ∨ isConstant i = true) ∨ i = r ∧ isConstant i = true

/-- The basis blades are in use: bits 0 to 62, and some grade is possible. -/
def Usable (s : CSum) : Prop :=
  ∀ c ∈ s, (∀ b, c.blade = .const b → ∀ i ∈ vecs b, i.val < 63) ∧ ∀ G e, c.blade = .dyn G e → G ≠ 0

end GATL.Spec
