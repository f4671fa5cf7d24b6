import Mathlib.Analysis.SpecialFunctions.Pow.Real
import Mathlib.Analysis.SpecialFunctions.Trigonometric.Basic
import Verif.Model.Functions
import Verif.Spec.Denote

/-!
# Run-time evaluation of expressions

Model of the static member functions `eval` of the expressions, `core/expression.hpp:131-1154`.
Citations are relative to `/repo/cpp/include/gatl/ga`.

Simplifications: floating-point numbers are real numbers, integers are unbounded (no rounding, no
overflow).  What C++ computes from a number depends on its type in one place, the division of two
integers; `floating` is the type deduced for `decltype(eval(args))`.  The outcome `none` is
undefined behaviour, a result that is not a number, or a template that does not compile.
-/

namespace GATL

open Expr Spec

namespace Expr

/-- For every argument of the lazy context: whether its coefficient type is a floating-point type. -/
abbrev Types := Nat → Bool

mutual
/-- Whether `eval` returns a floating-point number: `core/expression.hpp:131-150` (constants are
`default_integral_t`, variables have the coefficient type of the argument), `:472`, `:497` (integers),
`:809` (common type of the branches), `:826-949` (`std::abs` keeps the type, the other functions of
an integer are `double`), `:952-1039`, `:1042-1154` (usual arithmetic conversions). -/
def floating (τ : Types) : Expr → Bool
  | .value t _ => τ t
  | .fn .ifElse [_, a, b] => floating τ a || floating τ b
  | .fn .absolute [a] => floating τ a
  | .fn .exponential _ | .fn .logarithm _ | .fn .cosine _ | .fn .sine _ | .fn .tangent _
  | .fn .hcosine _ | .fn .hsine _ | .fn .htangent _ => true
  | .fn .power [l, .const v] => if v = 2 ∨ v = 3 ∨ v = 4 then floating τ l else true
  | .fn .power _ => true
  | .fn .mul args => floatingMul τ args
  | .fn .add args => floatingAdd τ args
  | _ => false
/-- The same for a product, `core/expression.hpp:1042-1099`. -/
def floatingMul (τ : Types) : List Expr → Bool
  | [] => false
  | [l, .fn .power [r, .const (-1)]] => if l = .const (-1) then true else floating τ l || floating τ r
  | a :: rest => floating τ a || floatingMul τ rest
/-- The same for a sum, `core/expression.hpp:1102-1154`. -/
def floatingAdd (τ : Types) : List Expr → Bool
  | [] => false
  | a :: rest => floating τ a || floatingAdd τ rest
end

/-- Division of integers in C++ rounds towards zero. -/
noncomputable def truncate (q : ℝ) : ℝ := if 0 ≤ q then ⌊q⌋ else ⌈q⌉

/-- `l / r`; division by zero is undefined (integers) or not finite (floating point). -/
noncomputable def divide (lf rf : Bool) (l r : ℝ) : Option ℝ :=
  if r = 0 then none else if lf || rf then some (l / r) else some (truncate (l / r))

/-- `std::pow`, where it returns a number. -/
noncomputable def stdPow (a b : ℝ) : Option ℝ := open Classical in
  if PowDefined a b then some (a ^ b) else none

/-- `std::cbrt`: also negative numbers have a cube root. -/
noncomputable def cubeRoot (a : ℝ) : ℝ :=
  if 0 ≤ a then a ^ (3⁻¹ : ℝ) else -((-a) ^ (3⁻¹ : ℝ))

/-- Evaluation of `power<LeftArgument, RightArgument>` when `rest` is the exponent's type, from the
values of the arguments: `core/expression.hpp:952-1039` (`-1`, `2`, `3`, `4`, `1/2`, `1/3`, other). -/
noncomputable def evalPower (rest : Expr) (l r : Option Val) : Option Val :=
  match l with
  | some (.num x) =>
    if rest = .const (-1) then (if x = 0 then none else some (.num (1 / x)))
    else if rest = .const 2 then some (.num (x * x))
    else if rest = .const 3 then some (.num (x * x * x))
    else if rest = .const 4 then some (.num (x * x * (x * x)))
    else if rest = recip 2 then (if 0 ≤ x then some (.num (Real.sqrt x)) else none)
    else if rest = recip 3 then some (.num (cubeRoot x))
    else
      match r with
      | some (.num y) => (stdPow x y).map .num
      | _ => none
  | _ => none

/-- Evaluation of the functions other than `power`, `mul` and `add`, from the values of the
arguments: `core/expression.hpp:463-949`.  Bitwise operations on numbers occur in the library only
with counts of bits, which are not negative; for negative or fractional numbers the model gives
`none`. -/
noncomputable def evalFn : Name → List (Option Val) → Option Val
  | .reorderingSign, [some (.bits a), some (.bits b)] =>
    some (.num (reorderingSignRuntime a b))
  | .countOneBits, [some (.bits a)] => some (.num (ones a))
  | .leftShift, [some (.bits a), some (.num x)] =>
    if x = ⌊x⌋₊ ∧ ⌊x⌋₊ < 64 then some (.bits (a <<< ⌊x⌋₊)) else none
  | .uminus, [some (.bits a)] => some (.bits (-a))
  | .dec, [some (.bits a)] => some (.bits (a - 1))
  | .band, [some (.bits a), some (.bits b)] => some (.bits (a &&& b))
  | .band, [some (.num x), some (.num y)] =>
    if x = ⌊x⌋₊ ∧ y = ⌊y⌋₊ then some (.num ((⌊x⌋₊ &&& ⌊y⌋₊ : Nat) : ℝ)) else none
  | .bor, [some (.bits a), some (.bits b)] => some (.bits (a ||| b))
  | .bor, [some (.num x), some (.num y)] =>
    if x = ⌊x⌋₊ ∧ y = ⌊y⌋₊ then some (.num ((⌊x⌋₊ ||| ⌊y⌋₊ : Nat) : ℝ)) else none
  | .bxor, [some (.bits a), some (.bits b)] => some (.bits (a ^^^ b))
  | .bxor, [some (.num x), some (.num y)] =>
    if x = ⌊x⌋₊ ∧ y = ⌊y⌋₊ then some (.num ((⌊x⌋₊ ^^^ ⌊y⌋₊ : Nat) : ℝ)) else none
  | .equal, [some (.num a), some (.num b)] => some (.bool (a = b))
  | .equal, [some (.bits a), some (.bits b)] => some (.bool (a = b))
  | .lessOrEqual, [some (.num a), some (.num b)] => some (.bool (a ≤ b))
  | .lessOrEqual, [some (.bits a), some (.bits b)] => some (.bool (a ≤ b))
  | .logicalAnd, [some (.bool a), b] => if a then
      (match b with | some (.bool b) => some (.bool b) | _ => none) else some (.bool false)
  | .logicalOr, [some (.bool a), b] => if a then some (.bool true) else
      (match b with | some (.bool b) => some (.bool b) | _ => none)
  | .ifElse, [some (.bool t), a, b] => if t then a else b
  | .absolute, [some (.num a)] => some (.num (if 0 ≤ a then a else -a))
  | .exponential, [some (.num a)] => some (.num (Real.exp a))
  | .logarithm, [some (.num a)] => if 0 < a then some (.num (Real.log a)) else none
  | .cosine, [some (.num a)] => some (.num (Real.cos a))
  | .sine, [some (.num a)] => some (.num (Real.sin a))
  | .tangent, [some (.num a)] => some (.num (Real.tan a))
  | .hcosine, [some (.num a)] => some (.num (Real.cosh a))
  | .hsine, [some (.num a)] => some (.num (Real.sinh a))
  | .htangent, [some (.num a)] => some (.num (Real.tanh a))
  | _, _ => none

/-- An operation on two numbers. -/
def num2 (f : ℝ → ℝ → Option ℝ) : Option Val → Option Val → Option Val
  | some (.num x), some (.num y) => (f x y).map .num
  | _, _ => none

/-- The negative of a number. -/
noncomputable def num1 : Option Val → Option Val
  | some (.num x) => some (.num (-x))
  | _ => none

mutual
/-- `Expression::eval(args)`, `core/expression.hpp:131-1154`.  Stored entries have no `eval`, those
of map-backed variables throw (`:160`, `:206`), `std::bool_constant` has none: it is folded before
(`none` in the model, except that the branch of a conditional is chosen by its value). -/
noncomputable def eval (τ : Types) (ρ : Env) : Expr → Option Val
  | .const v => some (.num v)
  | .value t i => some (.num (ρ.val t i))
  | .cbits w => some (.bits w)
  | .bitset t i => some (.bits (ρ.bits t i))
  | .cbool b => some (.bool b)
  | .fn .power [l, r] => evalPower r (eval τ ρ l) (eval τ ρ r)
  | .fn .power _ => none
  | .fn .mul args => evalMul τ ρ args
  | .fn .add args => evalAdd τ ρ args
  | .fn name args => evalFn name (evalList τ ρ args)
  | .mapValues .. | .stored | .storedMap | .mapBitsets .. | .storedBits | .storedMapBits => none
/-- `mul_t<Arguments...>::eval`, `core/expression.hpp:1042-1099`: one argument, `-1 * (1/r)`,
`-1 * next`, `l * (1/r)` computed as `l / r`, and the general case. -/
noncomputable def evalMul (τ : Types) (ρ : Env) : List Expr → Option Val
  | [] => some (.num 0)
  | [a] => eval τ ρ a
  | [l, .fn .power [r, .const (-1)]] =>
    if l = .const (-1) then num1 (evalPower (.const (-1)) (eval τ ρ r) (some (.num (-1))))
    else num2 (divide (floating τ l) (floating τ r)) (eval τ ρ l) (eval τ ρ r)
  | .const (-1) :: rest => num1 (evalMul τ ρ rest)
  | a :: rest => num2 (fun x y => some (x * y)) (eval τ ρ a) (evalMul τ ρ rest)
/-- `add_t<Arguments...>::eval`, `core/expression.hpp:1102-1154`: one argument, two negative
arguments, first argument negative, second of two negative, and the general case. -/
noncomputable def evalAdd (τ : Types) (ρ : Env) : List Expr → Option Val
  | [] => some (.num 0)
  | [a] => eval τ ρ a
  | [.fn .mul (.const (-1) :: ls), .fn .mul (.const (-1) :: rs)] =>
    num1 (num2 (fun x y => some (x + y)) (evalMul τ ρ ls) (evalMul τ ρ rs))
  | .fn .mul (.const (-1) :: ls) :: rest =>
    num2 (fun x y => some (x - y)) (evalAdd τ ρ rest) (evalMul τ ρ ls)
  | [l, .fn .mul (.const (-1) :: rs)] =>
    num2 (fun x y => some (x - y)) (eval τ ρ l) (evalMul τ ρ rs)
  | a :: rest => num2 (fun x y => some (x + y)) (eval τ ρ a) (evalAdd τ ρ rest)
/-- The values of the arguments. -/
noncomputable def evalList (τ : Types) (ρ : Env) : List Expr → List (Option Val)
  | [] => []
  | a :: as => eval τ ρ a :: evalList τ ρ as
end

end Expr

end GATL
