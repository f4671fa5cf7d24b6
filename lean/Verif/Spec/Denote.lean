import Mathlib.Analysis.SpecialFunctions.Pow.Real
import Mathlib.Analysis.SpecialFunctions.Trigonometric.Basic
import Verif.Model.Expr
import Verif.Spec.Blades

/-!
# What an expression denotes

The mathematical meaning of an expression, independent of how the library evaluates it.  Numbers
are real numbers (floating-point rounding is idealised away), bitsets are 64-bit words.

The meaning is partial: `none` where the textbook operation is undefined (division by zero, root of
a negative number, `0^0`, logarithm of a non-positive number, tangent at a pole, shift by a
non-natural amount or beyond the word, operands of the wrong kind), for entries stored inside the
multivector itself (which denote only relative to a storage, see `Model/Lazy.lean`), and for
map-backed variables (reading them throws, `core/expression.hpp:160`).
-/

namespace GATL.Spec

open Expr

open GATL

/-- Values of expressions. -/
inductive Val
  | num (x : ℝ)
  | bits (w : Word)
  | bool (b : Bool)

/-- The values of the variables: entry `index` of argument `tag` of a lazy context. -/
structure Env where
  /-- numbers, read by `get_value<tag, index>` -/
  val : Nat → Nat → ℝ
  /-- bitsets, read by `get_bitset<tag, index>` -/
  bits : Nat → Nat → Word

/-- `a^b` is defined for a positive base, for a zero base with positive exponent, and for a negative
base with integral exponent. -/
def PowDefined (a b : ℝ) : Prop := 0 < a ∨ (a = 0 ∧ 0 < b) ∨ (a < 0 ∧ ∃ n : ℤ, b = n)

/-- Number of vectors of the left blade that must jump over a vector of the right blade, as a
sign. -/
def orderSign (a b : Word) : ℝ := (-1) ^ (inversions (vecs a) (vecs b)).card

/-- Sum of a list of numbers; `none` if one is undefined or not a number. -/
noncomputable def sumVals : List (Option Val) → Option Val
  | [] => some (.num 0)
  | some (.num x) :: vs =>
    match sumVals vs with
    | some (.num s) => some (.num (x + s))
    | _ => none
  | _ :: _ => none

/-- Product of a list of numbers; `none` if one is undefined or not a number. -/
noncomputable def prodVals : List (Option Val) → Option Val
  | [] => some (.num 1)
  | some (.num x) :: vs =>
    match prodVals vs with
    | some (.num s) => some (.num (x * s))
    | _ => none
  | _ :: _ => none

open Classical in
/-- The meaning of each function. -/
noncomputable def interp : Name → List (Option Val) → Option Val
  | .reorderingSign, [some (.bits a), some (.bits b)] => some (.num (orderSign a b))
  | .countOneBits, [some (.bits a)] => some (.num (vecs a).card)
  | .leftShift, [some (.bits a), some (.num x)] =>
    if x = ⌊x⌋₊ ∧ ⌊x⌋₊ < 64 then some (.bits (a <<< ⌊x⌋₊)) else none
  | .uminus, [some (.bits a)] => some (.bits (-a))
  | .dec, [some (.bits a)] => some (.bits (a - 1))
  | .band, [some (.bits a), some (.bits b)] => some (.bits (a &&& b))
  | .band, [some (.num x), some (.num y)] =>
    if x = ⌊x⌋₊ ∧ y = ⌊y⌋₊ then some (.num ((⌊x⌋₊ &&& ⌊y⌋₊ : Nat) : ℝ)) else none
  | .bor, [some (.bits a), some (.bits b)] => some (.bits (a ||| b))
  | .bor, [some (.num x), some (.num y)] =>
    if x = ⌊x⌋₊ ∧ y = ⌊y⌋₊ then some (.num ((⌊x⌋₊ ||| ⌊y⌋₊ : Nat) : ℝ)) else none
  | .bxor, [some (.bits a), some (.bits b)] => some (.bits (a ^^^ b))
  | .bxor, [some (.num x), some (.num y)] =>
    if x = ⌊x⌋₊ ∧ y = ⌊y⌋₊ then some (.num ((⌊x⌋₊ ^^^ ⌊y⌋₊ : Nat) : ℝ)) else none
  | .equal, [some (.num a), some (.num b)] => some (.bool (a = b))
  | .equal, [some (.bits a), some (.bits b)] => some (.bool (a = b))
  | .lessOrEqual, [some (.num a), some (.num b)] => some (.bool (a ≤ b))
  | .lessOrEqual, [some (.bits a), some (.bits b)] => some (.bool (a ≤ b))
  | .logicalAnd, [some (.bool false), _] => some (.bool false)
  | .logicalAnd, [some (.bool true), some (.bool b)] => some (.bool b)
  | .logicalOr, [some (.bool true), _] => some (.bool true)
  | .logicalOr, [some (.bool false), some (.bool b)] => some (.bool b)
  | .ifElse, [some (.bool true), a, _] => a
  | .ifElse, [some (.bool false), _, b] => b
  | .absolute, [some (.num a)] => some (.num |a|)
  | .exponential, [some (.num a)] => some (.num (Real.exp a))
  | .logarithm, [some (.num a)] => if 0 < a then some (.num (Real.log a)) else none
  | .cosine, [some (.num a)] => some (.num (Real.cos a))
  | .sine, [some (.num a)] => some (.num (Real.sin a))
  | .tangent, [some (.num a)] => if Real.cos a ≠ 0 then some (.num (Real.tan a)) else none
  | .hcosine, [some (.num a)] => some (.num (Real.cosh a))
  | .hsine, [some (.num a)] => some (.num (Real.sinh a))
  | .htangent, [some (.num a)] => some (.num (Real.tanh a))
  | .power, [some (.num a), some (.num b)] =>
    if PowDefined a b then some (.num (a ^ b)) else none
  | .mul, v :: vs => prodVals (v :: vs)
  | .add, v :: vs => sumVals (v :: vs)
  | _, _ => none

mutual
/-- The value of an expression. -/
noncomputable def den (ρ : Env) : Expr → Option Val
  | .const v => some (.num v)
  | .value t i => some (.num (ρ.val t i))
  | .cbits w => some (.bits w)
  | .bitset t i => some (.bits (ρ.bits t i))
  | .cbool b => some (.bool b)
  | .fn name args => interp name (denList ρ args)
  | .mapValues .. | .stored | .storedMap | .mapBitsets .. | .storedBits | .storedMapBits => none
/-- The values of a list of arguments. -/
noncomputable def denList (ρ : Env) : List Expr → List (Option Val)
  | [] => []
  | a :: as => den ρ a :: denList ρ as
end

/-- The expression is defined and has the given number as its value. -/
def Denotes (ρ : Env) (e : Expr) (x : ℝ) : Prop := den ρ e = some (.num x)

/-- Neither a product nor a power. -/
def Direct (e : Expr) : Prop := (∀ args, e ≠ .fn .mul args) ∧ ∀ args, e ≠ .fn .power args

/-- The shapes of the expressions the library builds: a sum or a product has at least two
arguments, and the base of a power is neither a product nor a power (the power of a product is a
product of powers, the power of a power is a power). -/
inductive Built : Expr → Prop
  | const (v) : Built (.const v)
  | value (t i) : Built (.value t i)
  | mapValues (t i) : Built (.mapValues t i)
  | stored : Built .stored
  | storedMap : Built .storedMap
  | cbits (w) : Built (.cbits w)
  | bitset (t i) : Built (.bitset t i)
  | mapBitsets (t i) : Built (.mapBitsets t i)
  | storedBits : Built .storedBits
  | storedMapBits : Built .storedMapBits
  | cbool (b) : Built (.cbool b)
  | fn (name args) (hargs : ∀ a ∈ args, Built a)
      (hadd : name = .add → 2 ≤ args.length) (hmul : name = .mul → 2 ≤ args.length)
      (hpow : name = .power → ∃ l r, args = [l, r] ∧ Direct l) : Built (.fn name args)

/-- Every factor, and the base of every power, has a non-negative value. -/
inductive NonnegParts (ρ : Env) : Expr → Prop
  | direct (e) (h : Direct e) : NonnegParts ρ e
  | mul (args) (h : ∀ a ∈ args, ∃ x, 0 ≤ x ∧ Denotes ρ a x) (hs : ∀ a ∈ args, NonnegParts ρ a) :
      NonnegParts ρ (.fn .mul args)
  | power (l r) (h : ∃ x, 0 ≤ x ∧ Denotes ρ l x) : NonnegParts ρ (.fn .power [l, r])

mutual
/-- No reordering sign, and every exponent that the library takes for even is an integer literal. -/
def TraitSafe : Expr → Prop
  | .fn .reorderingSign _ => False
  | .fn .power args => TraitSafeAll args ∧
      ∀ l r, args = [l, r] → isEven r = some true → ∃ v, r = .const v
  | .fn _ args => TraitSafeAll args
  | _ => True
/-- The same for every argument. -/
def TraitSafeAll : List Expr → Prop
  | [] => True
  | a :: as => TraitSafe a ∧ TraitSafeAll as
end

mutual
/-- Expressions without powers and without bitwise disjunctions. -/
def ParitySafe : Expr → Prop
  | .fn .power _ => False
  | .fn .bor _ => False
  | .fn _ args => ParitySafeAll args
  | _ => True
/-- The same for every argument. -/
def ParitySafeAll : List Expr → Prop
  | [] => True
  | a :: as => ParitySafe a ∧ ParitySafeAll as
end

/-- Variables, constants and stored entries that are numbers. -/
def IsNumLeaf : Expr → Prop
  | .const _ | .value .. | .mapValues .. | .stored | .storedMap => True
  | _ => False

/-- Variables, constants and stored entries that are bitsets. -/
def IsBitsLeaf : Expr → Prop
  | .cbits _ | .bitset .. | .mapBitsets .. | .storedBits | .storedMapBits => True
  | _ => False

/-- When folding is faithful: constants compared for equality are literals, and the sign of the
operand of the absolute value is the one the library assumes. -/
def FoldOk (ρ : Env) : Name → List Expr → Prop
  | .equal, [l, r] => l ≠ r → isConstant l = true → isConstant r = true →
      isLiteral l = true ∧ isLiteral r = true
  | .absolute, [v] => TraitSafe v ∧
      (isConstant v = true → isNonNegative v = some false → ∀ x, Denotes ρ v x → x ≤ 0)
  | _, _ => True

end GATL.Spec
