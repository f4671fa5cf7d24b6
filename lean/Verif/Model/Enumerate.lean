import Verif.Model.Bits

/-!
# Enumeration of basis blades and basis vectors

Model of `util/multivector.hpp`, `util/for_each_basis_vector.hpp` and `util/pseudoscalar.hpp`.
Citations are relative to `/repo/cpp/include/gatl/ga`.
-/

namespace GATL

/-- `make_kvector_expression<BasisVectors, Bitset>`, `util/multivector.hpp:38-46`: the bitsets of the
components, in the order in which they are added.  The recursion over types is given fuel; `none`
is a recursion that does not stop or an undefined bit operation. -/
def kvectorFrom : Nat → Word → Word → Option (List Word)
  | 0, _, _ => none
  | fuel + 1, mask, b =>
    if b = 0 then some []
    else do
      let b' ← nextCombination b mask
      let rest ← kvectorFrom fuel mask b'
      some (b :: rest)

/-- `make_multivector_expression<BasisVectors, CurrentGrade, LastGrade>`,
`util/multivector.hpp:54-72`, for `gap = LastGrade - CurrentGrade`; grade 0 is a special case. -/
def multivectorFrom (fuel : Nat) (mask : Word) : Nat → Nat → Option (List Word)
  | 0, 0 => some [0]
  | g + 1, 0 => do kvectorFrom fuel mask (← firstCombination (g + 1))
  | 0, gap + 1 => do
    let rest ← multivectorFrom fuel mask 1 gap
    some (0 :: rest)
  | g + 1, gap + 1 => do
    let here ← kvectorFrom fuel mask (← firstCombination (g + 1))
    let rest ← multivectorFrom fuel mask (g + 2) gap
    some (here ++ rest)

/-- `full_multivector_t<CoefficientType, N, FirstGrade, LastGrade>`, `util/multivector.hpp:104`
(bitsets of its components); `full_kvector_t` is the case `first = last`, lines 107-112. -/
def fullMultivector (fuel n first last : Nat) : Option (List Word) := do
  multivectorFrom fuel (← firstCombination n) first (last - first)

/-- The loop of `for_each_basis_vector`, `util/for_each_basis_vector.hpp:31-39`.  The callback gets
the index and a state and returns the new state and `keep_going`. Fuel for the `while`. -/
def forEachLoop {σ : Type} (f : Nat → σ → σ × Bool) : Nat → Word → σ → Bool → Option (σ × Bool)
  | 0, _, _, _ => none
  | fuel + 1, arg, s, keepGoing =>
    if arg ≠ 0 && keepGoing then do
      let cur ← rightmostSetBit arg
      let r := f (setBitIndex cur + 1) s
      forEachLoop f fuel (arg ^^^ cur) r.1 r.2
    else some (s, keepGoing)

/-- `for_each_basis_vector(bitset, f)`, `util/for_each_basis_vector.hpp:30-40`. -/
def forEachBasisVector {σ : Type} (f : Nat → σ → σ × Bool) (arg : Word) (s : σ) :
    Option (σ × Bool) :=
  forEachLoop f 65 arg s true

/-- The blade of `pseudoscalar(mtr)`, `util/pseudoscalar.hpp:31-41`. -/
def pseudoscalarBlade (n : Nat) : Option Word := firstCombination n

end GATL
