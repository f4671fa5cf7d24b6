import Verif.Model.Products

/-!
# Compile-time possible-grade sets and typed basis blades

Model of the `possible_grades_result` templates and of the blade part of every `multiply` mapping.
A set of possible grades is a bitset (bit `g` set: grade `g` is possible).
Citations are relative to `/repo/cpp/include/gatl/ga`.
The recursions over bitsets are given fuel; `none` is undefined behaviour (`rightmost_set_bit` of
`2^63`, which a compiler rejects in a constant expression) or lack of fuel.
-/

namespace GATL

/-- `all_possible_grades` of an `n`-dimensional space, `core/exterior_product_mapping.hpp:36`; the
same mask is used in `core/geometric_product.hpp:91`. -/
def allGrades (n : Nat) : Word := safeRshift (~~~0#64) (64 - (n + 1))

/-- `exterior_product_mapping::possible_grades_result`, `core/exterior_product_mapping.hpp:39-54`. -/
def extGrades (n : Nat) : Nat → Word → Word → Option Word
  | 0, _, _ => none
  | fuel + 1, L, R =>
    if L = 0 then some 0
    else do
      let l ← rightmostSetBit L
      let possible := (l * R) &&& allGrades n
      let rest ← extGrades n fuel (if possible ≠ 0 then L ^^^ l else 0) R
      some (rest ||| possible)

/-- `regressive_product_mapping::resulting_bitset`, `core/regressive_product_mapping.hpp:38-47`. -/
def regBit (n : Nat) (l r : Nat) : Word :=
  let res : Int := (l : Int) + r - n
  if 0 ≤ res ∧ res ≤ n then (1 : Word) <<< res.toNat else 0

/-- `iterate_right<LeftGrade, RightPossibleGrades>`, `core/regressive_product_mapping.hpp:49-63` and
`core/geometric_product.hpp:50-64`, for the given `resulting_bitset`. -/
def iterateRight (res : Nat → Nat → Word) : Nat → Nat → Word → Option Word
  | 0, _, _ => none
  | fuel + 1, l, R =>
    if R = 0 then some 0
    else do
      let r ← rightmostSetBit R
      let rest ← iterateRight res fuel l (R ^^^ r)
      some (rest ||| res l (setBitIndex r))

/-- `regressive_product_mapping::possible_grades_result`,
`core/regressive_product_mapping.hpp:65-81`. The grades of the operands are at most `n` (there is a
`static_assert`), so the shift count `n - l` does not go negative.  `f` is the fuel of the inner
recursion. -/
def regGrades (n f : Nat) : Nat → Word → Word → Option Word
  | 0, _, _ => none
  | fuel + 1, L, R =>
    if L = 0 then some 0
    else do
      let lb ← rightmostSetBit L
      let l := setBitIndex lb
      let R' := safeRshift R (n - l) <<< (n - l)
      let rest ← regGrades n f fuel (L ^^^ lb) R
      let here ← iterateRight (regBit n) f l R'
      some (rest ||| here)

/-- `gp_mapping::resulting_bitset`, `core/geometric_product.hpp:36-48`. -/
def gpBit (l r : Nat) : Word :=
  let minGrade := if l ≤ r then r - l else l - r
  let maxGrade := if l + r < 64 then l + r else 63
  (safeRshift (safeRshift (~~~0#64) (64 - maxGrade - 1)) minGrade &&& 0x5555555555555555#64)
    <<< minGrade

/-- `gp_mapping::iterate_left`, `core/geometric_product.hpp:66-80`; `f` is the fuel of the inner
recursion. -/
def iterateLeft (f : Nat) : Nat → Word → Word → Option Word
  | 0, _, _ => none
  | fuel + 1, L, R =>
    if L = 0 then some 0
    else do
      let l ← rightmostSetBit L
      let rest ← iterateLeft f fuel (L ^^^ l) R
      let here ← iterateRight gpBit f (setBitIndex l) R
      some (rest ||| here)

/-- `lcont_mapping::_possible_grades_result`, `core/left_contraction.hpp:33-49` (the same code is
repeated in `core/dot_product.hpp:33-49` and `core/hestenes_inner_product.hpp:33-49`, and with the
operands exchanged in `core/right_contraction.hpp:33-49`). -/
def contGrades : Nat → Word → Word → Option Word
  | 0, _, _ => none
  | fuel + 1, L, R =>
    if L = 0 then some 0
    else do
      let l ← rightmostSetBit L
      let possible := R / l
      let rest ← contGrades fuel (if possible ≠ 0 then L ^^^ l else 0) R
      some (rest ||| possible)

/-- `possible_grades_result` of the graded products: `core/geometric_product.hpp:89-92`,
`core/left_contraction.hpp:58-60`, `core/right_contraction.hpp:58-60`,
`core/dot_product.hpp:62-65`, `core/hestenes_inner_product.hpp:66-76`,
`core/scalar_product.hpp:39-42`. -/
def gradedGrades (n : Nat) : GradedProduct → Word → Word → Option Word
  | .gp, L, R => do some ((← iterateLeft 65 65 L R) &&& allGrades n)
  | .lcont, L, R => contGrades 65 L R
  | .rcont, L, R => contGrades 65 R L
  | .dot, L, R => do some ((← contGrades 65 L R) ||| (← contGrades 65 R L))
  | .hip, L, R => do
    let L' := (L ||| 1) ^^^ 1
    let R' := (R ||| 1) ^^^ 1
    some ((← contGrades 65 L' R') ||| (← contGrades 65 R' L'))
  | .sp, L, R => some (if L &&& R ≠ 0 then 1 else 0)

/-- A basis blade as the type system sees it, with the value of its bitset:
`constant_basis_blade<b>` (`core/expression.hpp:223-226`) or
`dynamic_basis_blade<PossibleGrades, Bitset>` (`core/expression.hpp:229-251`) whose bitset
expression evaluates to `b`. -/
inductive TBlade
  | const (b : Word)
  | dyn (grades : Word) (b : Word)
  deriving DecidableEq, Repr

/-- Value of the bitset of a blade (`basis_vectors_t`, `core/expression_traits.hpp:612-631`). -/
def TBlade.bits : TBlade → Word
  | .const b => b
  | .dyn _ b => b

/-- `possible_grades_v`, `core/expression_traits.hpp:567-576`. -/
def TBlade.grades : TBlade → Word
  | .const b => (1 : Word) <<< ones b
  | .dyn G _ => G

/-- Is the bitset of the blade a `constant_bitset`? -/
def TBlade.isConst : TBlade → Bool
  | .const _ => true
  | .dyn _ _ => false

/-- The component produced by `multiply`, for possible grades `G` and the value `m` (coefficient
and bitset) of the product of the two blades: `core/exterior_product_mapping.hpp:70-91`,
`core/regressive_product_mapping.hpp:98-119`, `core/orthogonal_metric_mapping.hpp:49-69` with
`deduce_basis_blade` (`core/expression_traits.hpp:578-590`) and `dynamic_basis_blade`
(`core/expression.hpp:229-251`).  `static` says that the bitset of the result is a compile-time
constant.  A statically zero coefficient on a nonzero grade set would also move the component to the
scalar blade (`component`, `core/expression.hpp:255-278`); that does not change its value. -/
def typedComponent {K : Type*} [Zero K] (n : Nat) (G : Word) (static : Bool) (m : K × Word) :
    K × TBlade :=
  if G = 0 then (0, .const 0)
  else if G = (1 : Word) <<< n then (m.1, .const (basisVectors n))
  else if static then (m.1, .const m.2)
  else if G = 1 then (m.1, .const 0)
  else (m.1, .dyn G m.2)

/-- A product of typed components: possible grades from `grades`, value from `mul`; coefficients are
multiplied (`core/expression_simplification_product_components.hpp:77-128`).  The bitset of the
result is constant when both bitsets are. -/
def typedMul {K : Type*} [CommRing K] (n : Nat) (grades : Word → Word → Option Word)
    (mul : BladeMul K) (A B : K × TBlade) : Option (K × TBlade) :=
  (grades A.2.grades B.2.grades).map fun G =>
    let c := typedComponent n G (A.2.isConst && B.2.isConst) (mul A.2.bits B.2.bits)
    (A.1 * B.1 * c.1, c.2)

/-- Product of two sums of typed components: every component with every component. -/
def typedProd {K : Type*} [CommRing K] (n : Nat) (grades : Word → Word → Option Word)
    (mul : BladeMul K) (A B : List (K × TBlade)) : Option (List (K × TBlade)) :=
  (A.mapM fun a => B.mapM fun b => typedMul n grades mul a b).map List.flatten

/-- Value of a sum of typed components. -/
noncomputable def typedValue {K : Type*} [CommRing K] (A : List (K × TBlade)) : MV K :=
  (A.map fun c => Finsupp.single c.2.bits c.1).sum

end GATL
