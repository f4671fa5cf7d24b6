import Verif.Model.Grades
import Verif.Spec.Multivector

/-! # Specification vocabulary for typed components -/

namespace GATL.Spec

/-- A component of an `n`-dimensional space whose declared possible grades are right: they do not
exceed `n`, the blade lies in the space, and unless the coefficient is zero its grade is declared. -/
def WellTyped {K : Type*} [Zero K] (n : Nat) (c : K × TBlade) : Prop :=
  match c.2 with
  | .const b => ∀ i ∈ vecs b, i.val < n
  | .dyn G b => (∀ g ∈ vecs G, g.val ≤ n) ∧ (∀ i ∈ vecs b, i.val < n) ∧
      (c.1 ≠ 0 → ∃ g ∈ vecs G, g.val = gradeOf b)

end GATL.Spec
