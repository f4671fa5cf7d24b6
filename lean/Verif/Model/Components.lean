import Verif.Model.Functions
import Verif.Model.Grades

/-!
# Sums and products of components

Model of `core/expression_simplification_addition_components.hpp`,
`core/expression_simplification_product_components.hpp`,
`core/expression_graded_unary_minus.hpp` and of the `multiply` templates of the exterior, regressive
and orthogonal mappings, all at the level of types: coefficients and bitsets are expressions.
Citations are relative to `/repo/cpp/include/gatl/ga`.  `none` means that the program does not
compile.
-/

namespace GATL

open Expr

/-- A basis blade type: `constant_basis_blade<b>` (`core/expression.hpp:223-226`) or
`dynamic_basis_blade<PossibleGrades, Bitset>` (`core/expression.hpp:229-232`). -/
inductive Blade
  | const (b : Word)
  | dyn (grades : Word) (bits : Expr)
  deriving DecidableEq

/-- `component<Coefficient, BasisBlade>`, `core/expression.hpp:255-278`. -/
structure Comp where
  coef : Expr
  blade : Blade
  deriving DecidableEq

/-- The expression of a multivector: one component, or `add<Components...>` with two or more.  The
empty list does not occur. -/
abbrev CSum := List Comp

namespace Blade

/-- `possible_grades_v`, `core/expression_traits.hpp:567-576`. -/
def grades : Blade → Word
  | .const b => (1 : Word) <<< ones b
  | .dyn G _ => G

/-- `basis_vectors_t`, `core/expression_traits.hpp:612-631`. -/
def bits : Blade → Expr
  | .const b => .cbits b
  | .dyn _ e => e

/-- `lt` between basis blades, `core/expression_relational_operators.hpp:424-443`. -/
def lt : Blade → Blade → Bool
  | .const a, .const b =>
    (1 : Word) <<< ones a < (1 : Word) <<< ones b ||
      ((1 : Word) <<< ones a == (1 : Word) <<< ones b && a < b)
  | .const a, .dyn G _ => (1 : Word) <<< ones a ≤ G
  | .dyn G _, .const b => G < (1 : Word) <<< ones b
  | .dyn G e, .dyn H f => G < H || (G == H && Expr.lt e f)

/-- `deduce_basis_blade_t`, `core/expression_traits.hpp:578-590`, with `dynamic_basis_blade_t`,
`core/expression.hpp:229-251`. -/
def deduce (G : Word) : Expr → Blade
  | .cbits b => .const b
  | e => if G = 1 then .const 0 else .dyn G e

end Blade

/-- The component of a zero. -/
abbrev Comp.zero : Comp := ⟨.const 0, .const 0⟩

/-- `component_t<Coefficient, BasisBlade>`, `core/expression.hpp:255-278`. -/
def mkComp (c : Expr) (b : Blade) : Comp :=
  ⟨if b.grades = 0 then .const 0 else c,
   if c = .const 0 ∨ b.grades = 0 then .const 0 else b⟩

/-- `addition_t` of two sums of components,
`core/expression_simplification_addition_components.hpp:31-287`; the rules in order: zero (`:31-75`),
collect (`:77-132`), merge less than (`:134-187`), merge greater than (`:189-242`); no rule at all is
an error (`core/rules.hpp:63`). -/
def addC : Nat → CSum → CSum → Option CSum
  | 0, _, _ => none
  | _, [], _ => none
  | _, _, [] => none
  | n + 1, a :: as, b :: bs =>
    if a.coef = .const 0 ∧ as = [] then
      if b.coef = .const 0 ∧ bs = [] then some [a] else some (b :: bs)
    else if b.coef = .const 0 ∧ bs = [] then some (a :: as)
    else if a.blade = b.blade then do
      let c := mkComp (← simp n .add a.coef b.coef) a.blade
      match as, bs with
      | [], [] => some [c]
      | [], bs => addC n [c] bs
      | as, [] => addC n [c] as
      | as, bs => addC n [c] (← addC n as bs)
    else if a.blade.lt b.blade then
      if as = [] then some (a :: b :: bs)
      else do addC n [a] (← addC n as (b :: bs))
    else if b.blade.lt a.blade then
      if bs = [] then some (b :: a :: as)
      else do addC n [b] (← addC n (a :: as) bs)
    else none

/-- `_distribute_while_multiplying_components`,
`core/expression_simplification_product_components.hpp:80-93`. -/
def distribute (n : Nat) (scalar : Expr) : CSum → Option CSum
  | [] => none
  | [c] => do some [mkComp (← simp n .mul scalar c.coef) c.blade]
  | c :: cs => do
    let c' := mkComp (← simp n .mul scalar c.coef) c.blade
    addC n [c'] (← distribute n scalar cs)

/-- `Mapping::multiply<LeftBasisBlade, RightBasisBlade>::type` with the given depth. -/
abbrev CMapping := Nat → Blade → Blade → Option CSum

/-- `product_t<LeftExpression, RightExpression, Mapping>` of two sums of components,
`core/expression_simplification_product_components.hpp:31-175`. -/
def mulC (M : CMapping) : Nat → CSum → CSum → Option CSum
  | 0, _, _ => none
  | _, [], _ => none
  | _, _, [] => none
  | n + 1, a :: as, b :: bs =>
    if a.coef = .const 0 ∧ as = [] then some [a]
    else if b.coef = .const 0 ∧ bs = [] then some [b]
    else
      match as, bs with
      | [], [] => do distribute n (← simp n .mul a.coef b.coef) (← M n a.blade b.blade)
      | [], bs => do addC n (← mulC M n [a] [b]) (← mulC M n [a] bs)
      | as, [] => do addC n (← mulC M n [a] [b]) (← mulC M n as [b])
      | as, bs => do
        addC n (← addC n (← mulC M n [a] [b]) (← mulC M n as [b]))
          (← addC n (← mulC M n [a] bs) (← mulC M n as bs))

/-- The `static_assert` at the top of every `multiply`, e.g.
`core/exterior_product_mapping.hpp:62`. -/
def gradesFit (dims : Nat) (L R : Blade) : Bool :=
  safeRshift (L.grades ||| R.grades) (dims + 1) = 0

/-- `candidate_basis_blade`, e.g. `core/exterior_product_mapping.hpp:70-74`. -/
def candidateBlade (dims : Nat) (G : Word) (res : Expr) : Blade :=
  if G = (1 : Word) <<< dims then .const (basisVectors dims) else Blade.deduce G res

/-- `exterior_product_mapping<dims>::multiply`, `core/exterior_product_mapping.hpp:58-92`. -/
def extMapping (dims : Nat) : CMapping := fun n L R =>
  if gradesFit dims L R then do
    let G ← extGrades dims 65 L.grades R.grades
    let res := mkOr L.bits R.bits
    let sum ← simp n .add (mkCountOneBits L.bits) (mkCountOneBits R.bits)
    let test := if G ≠ 0 then mkEqual sum (mkCountOneBits res) else .cbool false
    some [mkComp (mkIfElse test (mkReorderingSign L.bits R.bits) (.const 0))
      (candidateBlade dims G res)]
  else none

/-- `regressive_product_mapping<dims>::multiply`, `core/regressive_product_mapping.hpp:87-121`. -/
def regMapping (dims : Nat) : CMapping := fun n L R =>
  if gradesFit dims L R then do
    let G ← regGrades dims 65 65 L.grades R.grades
    let res := mkAnd L.bits R.bits
    let sum ← simp n .add (mkCountOneBits L.bits) (mkCountOneBits R.bits)
    let neg ← simp n .mul (.const (-1)) (mkCountOneBits res)
    let sum' ← simp n .add sum neg
    let test := if G ≠ 0 then mkEqual sum' (.const dims) else .cbool false
    some [mkComp
      (mkIfElse test (mkReorderingSign (mkXor L.bits res) (mkXor R.bits res)) (.const 0))
      (candidateBlade dims G res)]
  else none

/-- `r + -1 * l`, as in `core/left_contraction.hpp:55`. -/
def gradeDiff (n : Nat) (l r : Expr) : Option Expr := do
  simp n .add r (← simp n .mul (.const (-1)) l)

/-- `are_valid_grades<LeftGrade, RightGrade, ResultGrade>::type` of each graded product:
`core/geometric_product.hpp:84-87`, `core/left_contraction.hpp:53-56`,
`core/right_contraction.hpp:53-56`, `core/dot_product.hpp:53-60`,
`core/hestenes_inner_product.hpp:53-64`, `core/scalar_product.hpp:34-37`. -/
def mkValidGrades (n : Nat) : GradedProduct → Expr → Expr → Expr → Option Expr
  | .gp, _, _, _ => some (.cbool true)
  | .lcont, l, r, res => do some (mkEqual (← gradeDiff n l r) res)
  | .rcont, l, r, res => do some (mkEqual (← gradeDiff n r l) res)
  | .dot, l, r, res => do
    let rl ← gradeDiff n l r
    let lr ← gradeDiff n r l
    some (mkIfElse (mkLessOrEqual l r) (mkEqual res rl) (mkEqual res lr))
  | .hip, l, r, res => do
    let rl ← gradeDiff n l r
    let lr ← gradeDiff n r l
    some (mkIfElse (mkLogicalOr (mkEqual l (.const 0)) (mkEqual r (.const 0))) (.cbool false)
      (mkIfElse (mkLessOrEqual l r) (mkEqual res rl) (mkEqual res lr)))
  | .sp, _, _, res => some (mkEqual res (.const 0))

/-- `signed_metric_space<P,Q,R>::metric_factor<Bitset>::type`, `model/signed/metric_space.hpp:47-66`. -/
def mkSignedFactor (P Q R : Nat) (b : Expr) : Expr :=
  mkIfElse (mkEqual (mkAnd b (.cbits (zeroMask P Q R))) (.cbits 0))
    (mkIfElse
      (mkEqual (mkAnd (mkCountOneBits (mkAnd b (.cbits (negativeMask P Q R)))) (.const 1))
        (.const 0))
      (.const 1) (.const (-1)))
    (.const 0)

/-- `real_metric_space::metric_factor<Bitset>::type`, `core/real_metric_space.hpp:42-45`. -/
def mkRealFactor (_ : Expr) : Expr := .const 1

/-- `orthogonal_metric_mapping<OrthogonalMetricSpace, GradedProduct>::multiply` for a space of the
given dimensions and metric factor, `core/orthogonal_metric_mapping.hpp:35-71`. -/
def orthMapping (dims : Nat) (factor : Expr → Expr) (g : GradedProduct) : CMapping := fun n L R =>
  if gradesFit dims L R then do
    let G ← gradedGrades dims g L.grades R.grades
    let common := mkAnd L.bits R.bits
    let res := mkXor L.bits R.bits
    let valid ← mkValidGrades n g (mkCountOneBits L.bits) (mkCountOneBits R.bits)
      (mkCountOneBits res)
    let test := if G ≠ 0 then valid else .cbool false
    let coef ← simp n .mul (mkReorderingSign L.bits R.bits) (factor common)
    some [mkComp (mkIfElse test coef (.const 0)) (candidateBlade dims G res)]
  else none

/-- `graded_unary_minus<component<...>, Pattern>`,
`core/expression_graded_unary_minus.hpp:45-75`. -/
def gradedMinusComp (n : Nat) (pattern : Word) (c : Comp) : Option Comp := do
  let neg ← simp n .mul (.const (-1)) c.coef
  match c.blade with
  | .const b =>
    some (if pattern &&& ((1 : Word) <<< ones b) = 0 then c else mkComp neg c.blade)
  | .dyn G bits => do
    let shift ← mkLeftShift (.cbits 1) (mkCountOneBits bits)
    some (if G &&& pattern = 0 then c
      else mkComp
        (mkIfElse (mkEqual (mkAnd (.cbits pattern) shift) (.cbits 0)) c.coef neg) c.blade)

/-- `graded_unary_minus_t<Expression, Pattern>`, `core/expression_graded_unary_minus.hpp:31-43`: the
sign changes of `reverse`, `involute` and `conjugate`. -/
def gradedMinusC (n : Nat) (pattern : Word) : CSum → Option CSum
  | [] => none
  | [c] => do some [← gradedMinusComp n pattern c]
  | c :: cs => do addC n [← gradedMinusComp n pattern c] (← gradedMinusC n pattern cs)

/-- `constant<Value>` as a multivector (`c<Value>`), `core/constant.hpp:30-36`. -/
def constSum (v : Int) : CSum := [⟨.const v, .const 0⟩]

/-- Unary `operator-`: `gp(c<-1>, rhs)`, `core/arithmetic_operators.hpp:50-53`, where the product
with a scalar is taken in the real space, `core/geometric_product.hpp:103-106`. -/
def negC (k : Nat) (s : CSum) : Option CSum :=
  mulC (orthMapping 63 mkRealFactor .gp) k (constSum (-1)) s

/-- Binary `operator-`: `lhs + gp(c<-1>, rhs)`, `core/arithmetic_operators.hpp:55-59`; the lazy
context only names the operands. -/
def subC (k : Nat) (s t : CSum) : Option CSum := do addC k s (← negC k t)

end GATL
