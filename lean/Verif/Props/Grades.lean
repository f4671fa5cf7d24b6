import Verif.Proofs.Grades

/-! Property C17. -/

namespace GATL.Props
open Spec

variable {K : Type*} [CommRing K]

/-- **C17** Outer product: for typed operands of a space with `n ≤ 62` dimensions whose declared
possible grades are right, the typed product exists, its declared possible grades are right, and its
value is the outer product of the values: no term is discarded or given a wrong blade. -/
theorem C17_op (n : Nat) (hn : n ≤ 62) (A B : List (K × TBlade))
    (hA : ∀ a ∈ A, WellTyped n a) (hB : ∀ b ∈ B, WellTyped n b) :
    ∃ C, typedProd n (extGrades n 65)
        (fun L R => (((extMul L R).1 : K), (extMul L R).2)) A B = some C ∧
      (∀ c ∈ C, WellTyped n c) ∧ typedValue C = op (typedValue A) (typedValue B) := by
  exact typedProd_spec n hn _ _ (fun L R => extGrades_ok n n hn L R (.inl rfl)) (fun l r hl hr => inSpace_or hl hr) hA hB

/-- **C17** Regressive product. -/
theorem C17_rp (n : Nat) (hn : n ≤ 62) (A B : List (K × TBlade))
    (hA : ∀ a ∈ A, WellTyped n a) (hB : ∀ b ∈ B, WellTyped n b) :
    ∃ C, typedProd n (regGrades n 65 65)
        (fun L R => (((regMul n L R).1 : K), (regMul n L R).2)) A B = some C ∧
      (∀ c ∈ C, WellTyped n c) ∧ typedValue C = rp n (typedValue A) (typedValue B) := by
  exact typedProd_spec n hn _ _ (regGrades_ok n hn) (fun l r hl hr => inSpace_and' hl) hA hB

/-- **C17** The metric products of a space with orthogonal metric. -/
theorem C17_metric_products (n : Nat) (hn : n ≤ 62) (factor : Word → K) (p : GradedProduct)
    (A B : List (K × TBlade))
    (hA : ∀ a ∈ A, WellTyped n a) (hB : ∀ b ∈ B, WellTyped n b) :
    ∃ C, typedProd n (gradedGrades n p) (orthMul factor p) A B = some C ∧
      (∀ c ∈ C, WellTyped n c) ∧ typedValue C = orthProd factor p (typedValue A) (typedValue B) := by
  exact typedProd_spec n hn _ _ (fun L R => gradedGrades_ok n n hn factor p L R (.inl rfl))
    (fun l r hl hr => inSpace_xor hl hr) hA hB

/-- The operands of the examples: a run-time vector `x·e(i)` and a constant bivector. -/
example : WellTyped 4 ((7 : Int), TBlade.dyn 0b10 0b100) ∧ WellTyped 4 ((3 : Int), TBlade.const 0b11) := by
  constructor
  · refine ⟨by decide, by decide, fun _ => ⟨1, by decide, by decide⟩⟩
  · show ∀ i ∈ vecs _, _; decide

/-- **C17** With 63 dimensions the set of grade 63 alone is `2^63`, on which the recursion over
possible grades is undefined (negation of the least signed integer). -/
theorem C17_grade_63_undefined (R : Word) : extGrades 63 65 ((1 : Word) <<< 63) R = none := by
  unfold extGrades
  have h : ((1 : Word) <<< 63) = 0x8000000000000000#64 := by decide
  rw [h, if_neg (by decide)]
  unfold rightmostSetBit
  rw [if_pos rfl]; rfl

end GATL.Props
