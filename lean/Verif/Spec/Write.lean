import Verif.Model.Write
import Verif.Spec.Copy

/-!
# Reading a multivector from text

A reader for text such as `3 * e1 + (-2) * e1^e2 + <5> * <e2>`: terms are separated by `+`, each term is a
number, `*` and a basis blade, separated by spaces; angle brackets and parentheses around a number or a basis
blade mean nothing; a basis blade is `1` or the names of its basis vectors separated by `^`.
-/

namespace GATL.Spec

/-- Cut at every occurrence of a character. -/
def cut (c : Char) : Text → List Text
  | [] => [[]]
  | x :: t =>
    if x = c then [] :: cut c t
    else
      match cut c t with
      | [] => [[x]]
      | w :: ws => (x :: w) :: ws

/-- Drop a pair of brackets around a text. -/
def unwrap (l r : Char) (t : Text) : Text :=
  if t.head? = some l ∧ t.getLast? = some r then t.tail.dropLast else t

/-- The basis blade of the basis vectors with the given names, which must come in the order of the array of
names, from the `k`-th name. -/
def readNames (names : List Text) : Nat → List Text → Option Word
  | _, [] => some 0
  | k, t :: ts => do
    let i ← names.idxOf? t
    if k ≤ i then do
      let w ← readNames names (i + 1) ts
      some (BitVec.twoPow 64 i ||| w)
    else none

/-- Read a basis blade. -/
def readBlade (names : List Text) (t : Text) : Option Word :=
  if unwrap '<' '>' t = ['1'] then some 0 else readNames names 0 (cut '^' (unwrap '<' '>' t))

/-- Read a number, where `number` reads what is written without brackets. -/
def readNumber (number : Text → Option ℝ) (t : Text) : Option ℝ := number (unwrap '(' ')' (unwrap '<' '>' t))

/-- Read terms from a list of words. -/
def readTerms (number : Text → Option ℝ) (names : List Text) : List Text → Option (List (ℝ × Word))
  | [x, ['*'], b] => do some [(← readNumber number x, ← readBlade names b)]
  | x :: ['*'] :: b :: ['+'] :: rest => do
    some ((← readNumber number x, ← readBlade names b) :: (← readTerms number names rest))
  | _ => none

/-- Read a multivector: the coefficients and basis blades of its terms. -/
def readText (number : Text → Option ℝ) (names : List Text) (t : Text) : Option (List (ℝ × Word)) :=
  readTerms number names (cut ' ' t)

/-- The names of basis vectors that a reader can tell apart: they are different, and free of characters that
have a meaning; none of them is `1`. -/
structure GoodNames (names : List Text) : Prop where
  nodup : names.Nodup
  one : ['1'] ∉ names
  clean : ∀ t ∈ names, ' ' ∉ t ∧ '^' ∉ t ∧ '<' ∉ t

/-- The stream writes the numbers of `S`, and integers, so that `number` reads them back, without characters
that have a meaning. -/
structure Exact (F : Format) (S : Set ℝ) (number : Text → Option ℝ) : Prop where
  real : ∀ x ∈ S, number (F.real x) = some x ∧ ' ' ∉ F.real x ∧ '<' ∉ F.real x ∧ '(' ∉ F.real x
  int : ∀ v : Int, number (F.int v) = some (v : ℝ) ∧ ' ' ∉ F.int v ∧ '<' ∉ F.int v ∧ '(' ∉ F.int v

/-- The number of arguments of the functions, except sums, products and the negative of a bitset. -/
def arity : Name → Nat
  | .ifElse => 3
  | .reorderingSign | .leftShift | .band | .bor | .bxor => 2
  | .equal | .lessOrEqual | .logicalAnd | .logicalOr | .power => 2
  | .countOneBits | .dec | .absolute | .exponential | .logarithm | .cosine | .sine | .tangent | .hcosine | .hsine | .htangent => 1
  | _ => 0

mutual
/-- A constant, a variable, or a function other than a sum or a product. -/
inductive FactorForm : Expr → Prop
  | const (v : Int) : FactorForm (.const v)
  | value (t i : Nat) : FactorForm (.value t i)
  | bitset (t i : Nat) : FactorForm (.bitset t i)
  | fn (name : Name) (args : List Expr) (hn : arity name ≠ 0) (hl : args.length = arity name)
      (ha : ∀ a ∈ args, SumForm a) : FactorForm (.fn name args)
/-- A product of factors. -/
inductive ProductForm : Expr → Prop
  | one (e : Expr) (h : FactorForm e) : ProductForm e
  | mul (args : List Expr) (hl : 2 ≤ args.length) (ha : ∀ a ∈ args, FactorForm a) : ProductForm (.fn .mul args)
/-- A sum of products: the form that products have when they are distributed over sums. -/
inductive SumForm : Expr → Prop
  | one (e : Expr) (h : ProductForm e) : SumForm e
  | add (args : List Expr) (hl : 2 ≤ args.length) (ha : ∀ a ∈ args, ProductForm a) : SumForm (.fn .add args)
end

/-- The stream writes different tags and indices differently, and numbers without brackets; negative numbers start with
a minus sign. -/
structure PlainNumbers (F : Format) (S : Set ℝ) : Prop where
  nat : Function.Injective F.nat ∧ ∀ n, ',' ∉ F.nat n ∧ '}' ∉ F.nat n
  int : ∀ v : Int, '>' ∉ F.int v
  real : ∀ x ∈ S, ')' ∉ F.real x ∧ '{' ∉ F.real x ∧ (x < 0 → (F.real x).head? = some '-')

/-- The names of basis vectors contain no brackets. -/
def PlainNames (names : List Text) : Prop := ∀ t ∈ names, '(' ∉ t ∧ '{' ∉ t ∧ '>' ∉ t

end GATL.Spec
