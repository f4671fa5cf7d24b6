import Verif.Model.Lazy

/-!
# Types of scaled basis blades

Model of `util/basis_blade.hpp`.  Citations are relative to `/repo/cpp/include/gatl/ga`.
-/

namespace GATL

open Expr

/-- `((bitset_t(1) << LastPossibleGrade) | ((bitset_t(1) << LastPossibleGrade) - 1)) -
((bitset_t(1) << FirstPossibleGrade) - 1)`, `util/basis_blade.hpp:31`, `:39`; shifting by 64 or more does not
compile. -/
def gradeRange (first last : Nat) : Option Word :=
  if first < 64 ∧ last < 64 then
    some ((((1 : Word) <<< last) ||| (((1 : Word) <<< last) - 1)) - (((1 : Word) <<< first) - 1))
  else none

/-- `scaled_basis_blade_t<CoefficientType, First, Last>`, `util/basis_blade.hpp:30-31`, with a stored
coefficient, and `unit_basis_blade_t<First, Last>`, `:38-39`, with the coefficient 1. -/
def basisBladeType (c : Expr) (first last : Nat) : Option CSum := do
  let b ← mkDynBlade (← gradeRange first last) .storedBits
  some [mkComp c b]

/-- `((bitset_t(1) << (Indices - 1)) + ... + bitset_t(0))`, `util/basis_blade.hpp:35`, `:43`. -/
def indexBlade : List Nat → Option Word
  | [] => some 0
  | i :: is => if 1 ≤ i ∧ i ≤ 64 then do some (((1 : Word) <<< (i - 1)) + (← indexBlade is)) else none

/-- `scaled_constant_basis_blade_t<CoefficientType, Indices...>`, `util/basis_blade.hpp:34-35`, with a stored
coefficient, and `unit_constant_basis_blade_t<Indices...>`, `:42-43`, with the coefficient 1. -/
def constantBasisBladeType (c : Expr) (indices : List Nat) : Option CSum := do
  some [mkComp c (.const (← indexBlade indices))]

end GATL
