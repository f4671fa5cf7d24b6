import Mathlib.Data.Int.Bitwise
import Verif.Model.Simplify

/-!
# Folding of bitwise, logical and elementary functions

The nested `type` of each `function<Name, Arguments...>` of `core/expression.hpp:462-949`: what the
alias templates `reordering_sign_t`, ..., `hyperbolic_tangent_t` produce.  Citations are relative to
`/repo/cpp/include/gatl/ga`.  `none` means that the program does not compile.  The bitwise operations
on `default_integral_t` constants are those of two's complement numbers (Mathlib's `Int.land`,
`Int.lor`, `Int.xor`), which agree with the 64-bit ones on 64-bit numbers.
-/

namespace GATL

open Expr

/-- `reordering_sign_t`, `core/expression.hpp:462-488`. -/
def mkReorderingSign (l r : Expr) : Expr :=
  match l, r with
  | .cbits a, .cbits b => .const (reorderingSign a b)
  | _, _ => if l = .cbits 0 ∨ r = .cbits 0 then .const 1 else .fn .reorderingSign [l, r]

/-- `count_one_bits_t`, `core/expression.hpp:491-505`. -/
def mkCountOneBits : Expr → Expr
  | .cbits a => .const (ones a)
  | b => .fn .countOneBits [b]

/-- `bitwise_left_shift_t`, `core/expression.hpp:507-525`: shifting by a negative amount or by the
width of the word is not a constant expression. -/
def mkLeftShift (l r : Expr) : Option Expr :=
  match l, r with
  | .cbits a, .const k => if 0 ≤ k ∧ k < 64 then some (.cbits (a <<< k.toNat)) else none
  | _, _ => if l = .cbits 0 ∨ r = .const 0 then some l else some (.fn .leftShift [l, r])

/-- `bitwise_uminus_t`, `core/expression.hpp:527-546`: the constant is negated as a signed number,
which overflows for the sign bit alone. -/
def mkUminus : Expr → Option Expr
  | .cbits a => if a = 0x8000000000000000#64 then none else some (.cbits (-a))
  | .fn .uminus [b] => some b
  | b => some (.fn .uminus [b])

/-- `bitwise_dec_t`, `core/expression.hpp:548-562`. -/
def mkDec : Expr → Expr
  | .cbits a => .cbits (a - 1)
  | b => .fn .dec [b]

/-- `bitwise_and_t`, `core/expression.hpp:564-591`. -/
def mkAnd (l r : Expr) : Expr :=
  match l, r with
  | .const a, .const b => .const (Int.land a b)
  | .cbits a, .cbits b => .cbits (a &&& b)
  | _, _ =>
    if l = .const 0 ∨ r = .const 0 then .const 0
    else if l = .cbits 0 ∨ r = .cbits 0 then .cbits 0
    else .fn .band [l, r]

/-- `bitwise_or_t`, `core/expression.hpp:593-620`. -/
def mkOr (l r : Expr) : Expr :=
  match l, r with
  | .const a, .const b => .const (Int.lor a b)
  | .cbits a, .cbits b => .cbits (a ||| b)
  | _, _ =>
    if l = .const 0 ∨ l = .cbits 0 then r
    else if r = .const 0 ∨ r = .cbits 0 then l
    else .fn .bor [l, r]

/-- `bitwise_xor_t`, `core/expression.hpp:622-648`. -/
def mkXor (l r : Expr) : Expr :=
  match l, r with
  | .const a, .const b => .const (Int.xor a b)
  | .cbits a, .cbits b => .cbits (a ^^^ b)
  | _, _ =>
    if l = .const 0 ∨ l = .cbits 0 then r
    else if r = .const 0 ∨ r = .cbits 0 then l
    else .fn .bxor [l, r]

/-- `equal_t`, `core/expression.hpp:650-667`. -/
def mkEqual (l r : Expr) : Expr :=
  if l = r ∧ hasStored l = false then .cbool true
  else if l ≠ r ∧ isConstant l ∧ isConstant r then .cbool false
  else .fn .equal [l, r]

/-- `less_or_equal_t`, `core/expression.hpp:669-692`. -/
def mkLessOrEqual (l r : Expr) : Expr :=
  match l, r with
  | .const a, .const b => .cbool (a ≤ b)
  | .cbits a, .cbits b => .cbool (a ≤ b)
  | _, _ => if l = r ∧ hasStored l = false then .cbool true else .fn .lessOrEqual [l, r]

/-- `logical_and_t`, `core/expression.hpp:694-747`. -/
def mkLogicalAnd (l r : Expr) : Expr :=
  if l = .cbool false ∨ r = .cbool false then .cbool false
  else if r = .cbool true then l
  else if l = .cbool true then r
  else if l = r ∧ hasStored l = false then l
  else .fn .logicalAnd [l, r]

/-- `logical_or_t`, `core/expression.hpp:749-798`. -/
def mkLogicalOr (l r : Expr) : Expr :=
  if l = .cbool true ∨ r = .cbool true then .cbool true
  else if r = .cbool false then l
  else if l = .cbool false then r
  else .fn .logicalOr [l, r]

/-- `if_else_t`, `core/expression.hpp:800-823`. -/
def mkIfElse (t a b : Expr) : Expr :=
  match t with
  | .cbool true => a
  | .cbool false => b
  | _ => if a = b ∧ hasStored a = false then a else .fn .ifElse [t, a, b]

/-- `absolute_t`, `core/expression.hpp:825-844`; both alternatives of the `conditional_t`s are
instantiated, so the product must compile in any case. -/
def mkAbsolute (S : Simp) (v : Expr) : Option Expr := do
  let nonneg ← isNonNegative v
  let neg ← S .mul (.const (-1)) v
  if nonneg then some v
  else if isConstant v && !(isFunction .add v || isFunction .ifElse v) then some neg
  else some (.fn .absolute [v])

/-- `exponential_t`, `core/expression.hpp:846-860`. -/
def mkExp : Expr → Expr
  | .fn .logarithm [v] => v
  | v => .fn .exponential [v]

/-- `logarithm_t`, `core/expression.hpp:862-876`. -/
def mkLog : Expr → Expr
  | .fn .exponential [v] => v
  | v => .fn .logarithm [v]

/-- The nested `type` of `function<Name, Arguments...>` for every name except `power`, `mul` and
`add`, `core/expression.hpp:462-949`; the trigonometric and hyperbolic functions are not folded. -/
def mkFn (S : Simp) : Name → List Expr → Option Expr
  | .reorderingSign, [l, r] => some (mkReorderingSign l r)
  | .countOneBits, [b] => some (mkCountOneBits b)
  | .leftShift, [l, r] => mkLeftShift l r
  | .uminus, [b] => mkUminus b
  | .dec, [b] => some (mkDec b)
  | .band, [l, r] => some (mkAnd l r)
  | .bor, [l, r] => some (mkOr l r)
  | .bxor, [l, r] => some (mkXor l r)
  | .equal, [l, r] => some (mkEqual l r)
  | .lessOrEqual, [l, r] => some (mkLessOrEqual l r)
  | .logicalAnd, [l, r] => some (mkLogicalAnd l r)
  | .logicalOr, [l, r] => some (mkLogicalOr l r)
  | .ifElse, [t, a, b] => some (mkIfElse t a b)
  | .absolute, [v] => mkAbsolute S v
  | .exponential, [v] => some (mkExp v)
  | .logarithm, [v] => some (mkLog v)
  | .cosine, [v] => some (.fn .cosine [v])
  | .sine, [v] => some (.fn .sine [v])
  | .tangent, [v] => some (.fn .tangent [v])
  | .hcosine, [v] => some (.fn .hcosine [v])
  | .hsine, [v] => some (.fn .hsine [v])
  | .htangent, [v] => some (.fn .htangent [v])
  | _, _ => none

end GATL
