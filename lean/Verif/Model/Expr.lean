import Verif.Model.Bits

/-!
# Expression types

Model of the types of `core/expression.hpp`, of the traits of `core/expression_traits.hpp` and of
the canonical order of `core/expression_relational_operators.hpp`.  Citations are relative to
`/repo/cpp/include/gatl/ga`.

In the library an expression is a C++ type; here it is a value of the inductive type `Expr`.
`std::is_same` is equality of `Expr`.  A program that fails to compile (no matching specialisation,
failed `static_assert`, overflow in a constant expression) is the outcome `none`.
-/

namespace GATL

/-- `name_t`, `core/expression.hpp:36-71`. -/
inductive Name
  | reorderingSign | countOneBits
  | leftShift | uminus | dec | band | bor | bxor
  | equal | lessOrEqual
  | logicalAnd | logicalOr
  | ifElse
  | absolute
  | exponential | logarithm
  | cosine | sine | tangent
  | hcosine | hsine | htangent
  | power | mul | add
  deriving DecidableEq, Repr

/-- The numeric value of an enumerator of `name_t`, `core/expression.hpp:36-71`. -/
def Name.toNat : Name → Nat
  | .reorderingSign => 0 | .countOneBits => 1
  | .leftShift => 2 | .uminus => 3 | .dec => 4 | .band => 5 | .bor => 6 | .bxor => 7
  | .equal => 8 | .lessOrEqual => 9
  | .logicalAnd => 10 | .logicalOr => 11
  | .ifElse => 12
  | .absolute => 13
  | .exponential => 14 | .logarithm => 15
  | .cosine => 16 | .sine => 17 | .tangent => 18
  | .hcosine => 19 | .hsine => 20 | .htangent => 21
  | .power => 22 | .mul => 23 | .add => 24

/-- Real-valued, bitset-valued and logical expressions, `core/expression.hpp:131-220` (leaves),
`std::true_type`/`std::false_type`, and `function<Name, Arguments...>`,
`core/expression.hpp:281-1154`. -/
inductive Expr
  /-- `constant_value<Value>` -/
  | const (v : Int)
  /-- `get_value<Tag, Index>` -/
  | value (tag index : Nat)
  /-- `get_map_values<Tag, Index>` -/
  | mapValues (tag index : Nat)
  /-- `stored_value` -/
  | stored
  /-- `stored_map_values` -/
  | storedMap
  /-- `constant_bitset<Bitset>` -/
  | cbits (w : Word)
  /-- `get_bitset<Tag, Index>` -/
  | bitset (tag index : Nat)
  /-- `get_map_bitsets<Tag, Index>` -/
  | mapBitsets (tag index : Nat)
  /-- `stored_bitset` -/
  | storedBits
  /-- `stored_map_bitsets` -/
  | storedMapBits
  /-- `std::bool_constant<b>` -/
  | cbool (b : Bool)
  /-- `function<Name, Arguments...>` -/
  | fn (name : Name) (args : List Expr)

mutual
/-- Decides `std::is_same` on expressions. -/
def Expr.decEq : (a b : Expr) → Decidable (a = b)
  | .const a, .const b => decidable_of_iff (a = b) (by simp)
  | .value t i, .value t' i' => decidable_of_iff (t = t' ∧ i = i') (by simp)
  | .mapValues t i, .mapValues t' i' => decidable_of_iff (t = t' ∧ i = i') (by simp)
  | .stored, .stored => isTrue rfl
  | .storedMap, .storedMap => isTrue rfl
  | .cbits a, .cbits b => decidable_of_iff (a = b) (by simp)
  | .bitset t i, .bitset t' i' => decidable_of_iff (t = t' ∧ i = i') (by simp)
  | .mapBitsets t i, .mapBitsets t' i' => decidable_of_iff (t = t' ∧ i = i') (by simp)
  | .storedBits, .storedBits => isTrue rfl
  | .storedMapBits, .storedMapBits => isTrue rfl
  | .cbool a, .cbool b => decidable_of_iff (a = b) (by simp)
  | .fn f as, .fn g bs =>
    match instDecidableEqName f g, Expr.decEqList as bs with
    | isTrue h₁, isTrue h₂ => isTrue (by rw [h₁, h₂])
    | isFalse h₁, _ => isFalse (by intro h; injection h; exact h₁ ‹_›)
    | _, isFalse h₂ => isFalse (by intro h; injection h; exact h₂ ‹_›)
  | .const _, .value .. | .const _, .mapValues .. | .const _, .stored | .const _, .storedMap
  | .const _, .cbits _ | .const _, .bitset .. | .const _, .mapBitsets .. | .const _, .storedBits
  | .const _, .storedMapBits | .const _, .cbool _ | .const _, .fn .. => isFalse (by simp)
  | .value .., .const _ | .value .., .mapValues .. | .value .., .stored | .value .., .storedMap
  | .value .., .cbits _ | .value .., .bitset .. | .value .., .mapBitsets ..
  | .value .., .storedBits | .value .., .storedMapBits | .value .., .cbool _
  | .value .., .fn .. => isFalse (by simp)
  | .mapValues .., .const _ | .mapValues .., .value .. | .mapValues .., .stored
  | .mapValues .., .storedMap | .mapValues .., .cbits _ | .mapValues .., .bitset ..
  | .mapValues .., .mapBitsets .. | .mapValues .., .storedBits | .mapValues .., .storedMapBits
  | .mapValues .., .cbool _ | .mapValues .., .fn .. => isFalse (by simp)
  | .stored, .const _ | .stored, .value .. | .stored, .mapValues .. | .stored, .storedMap
  | .stored, .cbits _ | .stored, .bitset .. | .stored, .mapBitsets .. | .stored, .storedBits
  | .stored, .storedMapBits | .stored, .cbool _ | .stored, .fn .. => isFalse (by simp)
  | .storedMap, .const _ | .storedMap, .value .. | .storedMap, .mapValues ..
  | .storedMap, .stored | .storedMap, .cbits _ | .storedMap, .bitset ..
  | .storedMap, .mapBitsets .. | .storedMap, .storedBits | .storedMap, .storedMapBits
  | .storedMap, .cbool _ | .storedMap, .fn .. => isFalse (by simp)
  | .cbits _, .const _ | .cbits _, .value .. | .cbits _, .mapValues .. | .cbits _, .stored
  | .cbits _, .storedMap | .cbits _, .bitset .. | .cbits _, .mapBitsets .. | .cbits _, .storedBits
  | .cbits _, .storedMapBits | .cbits _, .cbool _ | .cbits _, .fn .. => isFalse (by simp)
  | .bitset .., .const _ | .bitset .., .value .. | .bitset .., .mapValues .. | .bitset .., .stored
  | .bitset .., .storedMap | .bitset .., .cbits _ | .bitset .., .mapBitsets ..
  | .bitset .., .storedBits | .bitset .., .storedMapBits | .bitset .., .cbool _
  | .bitset .., .fn .. => isFalse (by simp)
  | .mapBitsets .., .const _ | .mapBitsets .., .value .. | .mapBitsets .., .mapValues ..
  | .mapBitsets .., .stored | .mapBitsets .., .storedMap | .mapBitsets .., .cbits _
  | .mapBitsets .., .bitset .. | .mapBitsets .., .storedBits | .mapBitsets .., .storedMapBits
  | .mapBitsets .., .cbool _ | .mapBitsets .., .fn .. => isFalse (by simp)
  | .storedBits, .const _ | .storedBits, .value .. | .storedBits, .mapValues ..
  | .storedBits, .stored | .storedBits, .storedMap | .storedBits, .cbits _
  | .storedBits, .bitset .. | .storedBits, .mapBitsets .. | .storedBits, .storedMapBits
  | .storedBits, .cbool _ | .storedBits, .fn .. => isFalse (by simp)
  | .storedMapBits, .const _ | .storedMapBits, .value .. | .storedMapBits, .mapValues ..
  | .storedMapBits, .stored | .storedMapBits, .storedMap | .storedMapBits, .cbits _
  | .storedMapBits, .bitset .. | .storedMapBits, .mapBitsets .. | .storedMapBits, .storedBits
  | .storedMapBits, .cbool _ | .storedMapBits, .fn .. => isFalse (by simp)
  | .cbool _, .const _ | .cbool _, .value .. | .cbool _, .mapValues .. | .cbool _, .stored
  | .cbool _, .storedMap | .cbool _, .cbits _ | .cbool _, .bitset .. | .cbool _, .mapBitsets ..
  | .cbool _, .storedBits | .cbool _, .storedMapBits | .cbool _, .fn .. => isFalse (by simp)
  | .fn .., .const _ | .fn .., .value .. | .fn .., .mapValues .. | .fn .., .stored
  | .fn .., .storedMap | .fn .., .cbits _ | .fn .., .bitset .. | .fn .., .mapBitsets ..
  | .fn .., .storedBits | .fn .., .storedMapBits | .fn .., .cbool _ => isFalse (by simp)
/-- Decides equality of argument lists. -/
def Expr.decEqList : (as bs : List Expr) → Decidable (as = bs)
  | [], [] => isTrue rfl
  | [], _ :: _ => isFalse (by simp)
  | _ :: _, [] => isFalse (by simp)
  | a :: as, b :: bs =>
    match Expr.decEq a b, Expr.decEqList as bs with
    | isTrue h₁, isTrue h₂ => isTrue (by rw [h₁, h₂])
    | isFalse h₁, _ => isFalse (by intro h; injection h; exact h₁ ‹_›)
    | _, isFalse h₂ => isFalse (by intro h; injection h; exact h₂ ‹_›)
end

instance : DecidableEq Expr := Expr.decEq

namespace Expr

/-- `power<Left, Right>`, `core/expression.hpp:438-440`. -/
abbrev powerOf (l r : Expr) : Expr := .fn .power [l, r]

/-- `power<constant_value<v>, constant_value<-1>>`: the reciprocal of an integer. -/
abbrev recip (v : Int) : Expr := powerOf (.const v) (.const (-1))

mutual
/-- Number of nodes; only used to bound recursions. -/
def size : Expr → Nat
  | .fn _ args => 2 + sizeList args
  | _ => 1
/-- Number of nodes of an argument list. -/
def sizeList : List Expr → Nat
  | [] => 0
  | a :: as => 1 + size a + sizeList as
end

mutual
/-- `is_constant_expression`, `core/expression_traits.hpp:90-119`. -/
def isConstant : Expr → Bool
  | .const _ => true
  | .cbits _ => true
  | .fn _ args => isConstantAll args
  | _ => false
/-- `std::conjunction` over the arguments, `core/expression_traits.hpp:116-119`. -/
def isConstantAll : List Expr → Bool
  | [] => true
  | a :: as => isConstant a && isConstantAll as
end

mutual
/-- `has_stored_entries`, `core/expression_traits.hpp:135-174`. -/
def hasStored : Expr → Bool
  | .stored | .storedMap | .storedBits | .storedMapBits => true
  | .fn _ args => hasStoredAny args
  | _ => false
/-- `std::disjunction` over the arguments, `core/expression_traits.hpp:171-174`. -/
def hasStoredAny : List Expr → Bool
  | [] => false
  | a :: as => hasStored a || hasStoredAny as
end

mutual
/-- `can_be_stored`, `core/expression_traits.hpp:31-88`. -/
def canBeStored : Expr → Bool
  | .const _ | .stored | .storedMap | .cbits _ | .storedBits | .storedMapBits => true
  | .fn _ args => canBeStoredAll args
  | _ => false
/-- `std::conjunction` over the arguments, `core/expression_traits.hpp:85-88`. -/
def canBeStoredAll : List Expr → Bool
  | [] => true
  | a :: as => canBeStored a && canBeStoredAll as
end

/-- `is_even`, `core/expression_traits.hpp:176-306`; `none` where the template has no
specialisation. -/
def isEven : Expr → Option Bool
  | .const v => some (v % 2 == 0)
  | .value .. | .mapValues .. | .stored | .storedMap => some false
  | .fn .reorderingSign [_, _] => some false
  | .fn .countOneBits [_] => some false
  | .fn .uminus [b] => isEven b
  | .fn .dec [b] => (isEven b).map (!·)
  | .fn .band [l, r] =>
    match isEven l, isEven r with
    | some a, some b => some (a && b)
    | _, _ => none
  | .fn .bor [l, r] =>
    match isEven l, isEven r with
    | some a, some b => some (a || b)
    | _, _ => none
  | .fn .bxor [_, _] => some false
  | .fn .ifElse [_, t, f] =>
    match isEven t, isEven f with
    | some a, some b => some (a && b)
    | _, _ => none
  | .fn .absolute [v] => isEven v
  | .fn .exponential [_] | .fn .logarithm [_] | .fn .cosine [_] | .fn .sine [_]
  | .fn .tangent [_] | .fn .hcosine [_] | .fn .hsine [_] | .fn .htangent [_] => some false
  | .fn .power [_, r] => isEven r
  | .fn .mul _ => some false
  | .fn .add _ => some false
  | _ => none

mutual
/-- `is_non_negative`, `core/expression_traits.hpp:319-443`; `none` where the template has no
specialisation. -/
def isNonNegative : Expr → Option Bool
  | .const v => some (decide (0 ≤ v))
  | .value .. | .mapValues .. | .stored | .storedMap => some false
  | .fn .reorderingSign [_, _] => some true
  | .fn .countOneBits [_] => some true
  | .fn .uminus [_] | .fn .dec [_] => some true
  | .fn .band [_, _] | .fn .bor [_, _] | .fn .bxor [_, _] => some true
  | .fn .ifElse [_, t, f] =>
    match isNonNegative t, isNonNegative f with
    | some a, some b => some (a && b)
    | _, _ => none
  | .fn .absolute [_] => some true
  | .fn .exponential [_] | .fn .logarithm [_] | .fn .cosine [_] | .fn .sine [_]
  | .fn .tangent [_] | .fn .hcosine [_] | .fn .hsine [_] | .fn .htangent [_] => some false
  | .fn .power [l, r] =>
    match isNonNegative l, isEven r with
    | some a, some b => some (a || b)
    | _, _ => none
  | .fn .mul args => isNonNegativeAll args
  | .fn .add _ => some false
  | _ => none
/-- `std::conjunction` over the factors, `core/expression_traits.hpp:435-438`. -/
def isNonNegativeAll : List Expr → Option Bool
  | [] => some true
  | a :: as =>
    match isNonNegative a, isNonNegativeAll as with
    | some x, some y => some (x && y)
    | _, _ => none
end

mutual
/-- `may_be_positive`, `core/expression_traits.hpp:445-565`; `none` where the template has no
specialisation (e.g. `exponential`, `logarithm`). -/
def mayBePositive : Expr → Option Bool
  | .const v => some (decide (0 < v))
  | .value .. | .mapValues .. | .stored | .storedMap => some true
  | .fn .reorderingSign [_, _] => some true
  | .fn .countOneBits [_] => some true
  | .fn .uminus [_] | .fn .dec [_] => some true
  | .fn .band [_, _] | .fn .bor [_, _] | .fn .bxor [_, _] => some true
  | .fn .ifElse [_, t, f] =>
    match mayBePositive t, mayBePositive f with
    | some a, some b => some (a && b)
    | _, _ => none
  | .fn .absolute [_] => some true
  | .fn .cosine [_] | .fn .sine [_] | .fn .tangent [_]
  | .fn .hcosine [_] | .fn .hsine [_] | .fn .htangent [_] => some true
  | .fn .power [l, r] =>
    match mayBePositive l, isEven r with
    | some a, some b => some (a || b)
    | _, _ => none
  | .fn .mul args => mayBePositiveAll args
  | .fn .add _ => some true
  | _ => none
/-- `std::conjunction` over the factors, `core/expression_traits.hpp:557-560`. -/
def mayBePositiveAll : List Expr → Option Bool
  | [] => some true
  | a :: as =>
    match mayBePositive a, mayBePositiveAll as with
    | some x, some y => some (x && y)
    | _, _ => none
end

/-- `is_function<Name, Expression>`, `core/expression_traits.hpp:308-317`. -/
def isFunction (n : Name) : Expr → Bool
  | .fn m _ => n = m
  | _ => false

/-- `lt` between entries that are not functions, `core/expression_relational_operators.hpp:32-435`:
constants come first, then variables by tag and index, then stored entries. -/
def leafLt (l r : Expr) : Bool :=
  match l with
  | .const a =>
    match r with
    | .const b => a < b
    | .value .. | .mapValues .. | .stored | .storedMap => true
    | _ => false
  | .value t i =>
    match r with
    | .value t' i' => t < t' || (t == t' && i < i')
    | .mapValues t' _ => t ≤ t'
    | .stored | .storedMap => true
    | _ => false
  | .mapValues t i =>
    match r with
    | .value t' _ => t < t'
    | .mapValues t' i' => t < t' || (t == t' && i < i')
    | .stored | .storedMap => true
    | _ => false
  | .stored =>
    match r with
    | .storedMap => true
    | _ => false
  | .cbits a =>
    match r with
    | .cbits b => a < b
    | .bitset .. | .mapBitsets .. | .storedBits | .storedMapBits => true
    | _ => false
  | .bitset t i =>
    match r with
    | .bitset t' i' => t < t' || (t == t' && i < i')
    | .mapBitsets t' _ => t ≤ t'
    | .storedBits | .storedMapBits => true
    | _ => false
  | .mapBitsets t i =>
    match r with
    | .bitset t' _ => t < t'
    | .mapBitsets t' i' => t < t' || (t == t' && i < i')
    | .storedBits | .storedMapBits => true
    | _ => false
  | .storedBits =>
    match r with
    | .storedMapBits => true
    | _ => false
  | _ => false

/-- Matches `constant_value<_>` and `constant_bitset<_>`. -/
def isLiteral : Expr → Bool
  | .const _ | .cbits _ => true
  | _ => false

mutual
/-- `lt<Left, Right>`, `core/expression_relational_operators.hpp:32-435` (values and bitsets) and
`:505-508` (functions), with fuel for the recursion: a literal comes before every function, another
leaf is compared with a function through the function's first argument, functions are compared by
name and then by arguments. -/
def ltF : Nat → Expr → Expr → Bool
  | 0, _, _ => false
  | n + 1, l, r =>
    match l, r with
    | .fn f as, .fn g bs => f.toNat < g.toNat || (f = g && ltArgsF n as bs)
    | .fn _ [], _ => false
    | .fn _ (a :: _), r => !isLiteral r && ltF n a r
    | l, .fn _ [] => isLiteral l
    | l, .fn _ (a :: _) => isLiteral l || ltF n l a || !ltF n a l
    | l, r => leafLt l r
/-- `lt<_arguments_list<...>, _arguments_list<...>>`,
`core/expression_relational_operators.hpp:451-503`. -/
def ltArgsF : Nat → List Expr → List Expr → Bool
  | 0, _, _ => false
  | _ + 1, [], _ => false
  | _ + 1, _ :: _, [] => false
  | n + 1, [l], [r] => ltF n l r
  | n + 1, [l], r :: rs =>
    if isConstant l then true
    else if isConstant r then ltArgsF n [l] rs
    else ltF n l r || !ltF n r l
  | n + 1, l :: ls, [r] =>
    if isConstant l then
      if isConstant r then ltF n l r else ltArgsF n ls [r]
    else if isConstant r then false else ltF n l r
  | n + 1, l :: ls, r :: rs =>
    if isConstant l then
      if isConstant r then ltArgsF n ls rs else ltArgsF n ls (r :: rs)
    else if isConstant r then ltArgsF n (l :: ls) rs
    else ltF n l r || ((!ltF n l r && !ltF n r l) && ltArgsF n ls rs)
end

/-- `lt_v<Left, Right>`, `core/expression_relational_operators.hpp:32-508`: every recursive use is
on smaller expressions, so the total size is enough fuel. -/
def lt (l r : Expr) : Bool := ltF (size l + size r + 1) l r

/-- `eq_v<Left, Right>`, `core/expression_relational_operators.hpp:48-52`. -/
def equiv (l r : Expr) : Bool := !lt l r && !lt r l

end Expr
end GATL
