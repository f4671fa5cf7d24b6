import Verif.Model.Expr

/-!
# Simplification of sums, products and powers of values

Model of `core/rules.hpp`, `core/expression_simplification_addition_values.hpp`,
`core/expression_simplification_product_values.hpp` and
`core/expression_simplification_power.hpp`.  Citations are relative to `/repo/cpp/include/gatl/ga`.

The metafunctions `addition_t`, `product_t<_, _, value_mapping>` and `power_t` call one another
without a termination guarantee; the model runs them with fuel (the depth of template
instantiation).  `none` means that the program does not compile: instantiation depth exceeded, no
matching specialisation, failed `static_assert`, or overflow in a constant expression.
-/

namespace GATL

namespace Expr

/-- The instantiation of `add<Arguments...>`, whose nested `type` is `add_t<Arguments...>`:
`core/expression.hpp:1102-1154`.  Every specialisation with two or more arguments has a
`static_assert` that (or matches only if) no argument is `constant_value<0>`. -/
def mkAdd : List Expr → Option Expr
  | [] => some (.const 0)
  | [a] => some a
  | args => if args.contains (.const 0) then none else some (.fn .add args)

/-- `mul_t<Arguments...>`, `core/expression.hpp:1042-1099`; `constant_value<0>` and
`constant_value<1>` are rejected by `static_assert`, and `mul<>` is `constant_value<0>`. -/
def mkMul : List Expr → Option Expr
  | [] => some (.const 0)
  | [a] => some a
  | args =>
    if args.contains (.const 0) || args.contains (.const 1) then none else some (.fn .mul args)

/-- `constant_value<v>` for a computed `v`: a value that does not fit in `default_integral_t` makes
the constant expression ill-formed. -/
def mkConst (v : Int) : Option Expr := (i64 v).map .const

/-- The arguments of a sum type: the partial specialisations for `add<Argument, NextArguments...>`
match on this. -/
def asAdd : Expr → Option (Expr × List Expr)
  | .fn .add (a :: as) => some (a, as)
  | _ => none

/-- The arguments of a product type (`mul<Argument, NextArguments...>`). -/
def asMul : Expr → Option (Expr × List Expr)
  | .fn .mul (a :: as) => some (a, as)
  | _ => none

/-- The arguments of a power type (`power<Left, Right>`). -/
def asPower : Expr → Option (Expr × Expr)
  | .fn .power [l, r] => some (l, r)
  | _ => none

/-- Matches `power<constant_value<v>, constant_value<-1>>`. -/
def asRecip : Expr → Option Int
  | .fn .power [.const v, .const (-1)] => some v
  | _ => none

/-- Matches `constant_value<v>`. -/
def asConst : Expr → Option Int
  | .const v => some v
  | _ => none

/-- Matches `mul<constant_value<a>, power<constant_value<b>, constant_value<-1>>>`. -/
def asRatio : Expr → Option (Int × Int)
  | .fn .mul [.const a, .fn .power [.const b, .const (-1)]] => some (a, b)
  | _ => none

end Expr

open Expr

/-- The three mutually recursive metafunctions. -/
inductive Op
  /-- `addition_t<Left, Right>` -/
  | add
  /-- `product_t<Left, Right, value_mapping>` -/
  | mul
  /-- `power_t<Left, Right>` -/
  | pow
  deriving DecidableEq, Repr

/-- An interpretation of the three metafunctions; the rules below receive the metafunctions they
call recursively through it. -/
abbrev Simp := Op → Expr → Expr → Option Expr

/-- A rule: `none` when evaluating its condition or its result does not compile, `some none` when
its condition is false, `some (some e)` when it applies with result `e`. -/
abbrev Rule := Expr → Expr → Option (Option Expr)

/-- `get_rule_for`/`apply_rule_for_t`, `core/rules.hpp:44-68`: the first rule whose condition
holds; no rule at all is an error (line 63). -/
def applyRules : List Rule → Expr → Expr → Option Expr
  | [], _, _ => none
  | rule :: rules, l, r =>
    match rule l r with
    | none => none
    | some (some e) => some e
    | some none => applyRules rules l r

/-- A rule that applies with the given result. -/
def fire (e : Option Expr) : Option (Option Expr) := e.map some

section Addition

variable (S : Simp)

/-- `_addition_values_rule_helper`, `core/expression_simplification_addition_values.hpp:31-78`:
apply a rule to the leading summands. -/
def addHelper (rule : Rule) : Rule := fun l r =>
  match asAdd l, asAdd r with
  | none, none => rule l r
  | none, some (b, bs) => do
    match ← rule l b with
    | none => some none
    | some e => fire do S .add e (← mkAdd bs)
  | some (a, as), none => do
    match ← rule a r with
    | none => some none
    | some e => fire do S .add e (← mkAdd as)
  | some (a, as), some (b, bs) => do
    match ← rule a b with
    | none => some none
    | some e => fire do S .add e (← S .add (← mkAdd as) (← mkAdd bs))

/-- `_addition_values_rule_zero`, `:80-122`. -/
def addZero : Rule := fun l r =>
  if l = .const 0 then some (some r) else if r = .const 0 then some (some l) else some none

/-- `_addition_values_rule_collect_case_1`, `:126-147`: `A + A => 2 * A`. -/
def addCollect1 : Rule := fun l r =>
  if l = r then fire (S .mul (.const 2) l) else some none

/-- The side condition of the collection rules 2 to 7: `addition_t<P, Q>` must differ from
`add_t<P, Q>` and from `add_t<Q, P>`. -/
def simplifies (p q : Expr) : Option Bool := do
  let s ← S .add p q
  let pq ← mkAdd [p, q]
  let qp ← mkAdd [q, p]
  return s ≠ pq && s ≠ qp

/-- `_addition_values_rule_collect_case_2`, `:150-181`:
`mul<P, A...> + A... => (P + 1) * A...`. -/
def addCollect2 : Rule := fun l r =>
  match l with
  | .fn .mul (p :: as) =>
    if as ≠ [] ∧ (as = [r] ∨ .fn .mul as = r) then do
      if ← simplifies S p (.const 1) then
        fire do S .mul (← S .add p (.const 1)) (← mkMul as)
      else some none
    else some none
  | _ => some none

/-- `_addition_values_rule_collect_case_3`, `:184-215`:
`A... + mul<P, A...> => (1 + P) * A...`. -/
def addCollect3 : Rule := fun l r =>
  match r with
  | .fn .mul (p :: as) =>
    if as ≠ [] ∧ (as = [l] ∨ .fn .mul as = l) then do
      if ← simplifies S (.const 1) p then
        fire do S .mul (← S .add (.const 1) p) (← mkMul as)
      else some none
    else some none
  | _ => some none

/-- `_addition_values_rule_collect_case_4`, `:218-249`:
`mul<P, A...> + mul<Q, A...> => (P + Q) * A...`. -/
def addCollect4 : Rule := fun l r =>
  match l, r with
  | .fn .mul (p :: as), .fn .mul (q :: bs) =>
    if as = bs then do
      if ← simplifies S p q then
        fire do S .mul (← S .add p q) (← mkMul as)
      else some none
    else some none
  | _, _ => some none

/-- `_addition_values_rule_collect_case_5`, `:252-273`: `mul<A, ...> + A => A * (mul<...> + 1)`. -/
def addCollect5 : Rule := fun l r =>
  match l with
  | .fn .mul (a :: as) =>
    if a = r then do
      let rest ← mkMul as
      if ← simplifies S rest (.const 1) then
        fire do S .mul a (← S .add rest (.const 1))
      else some none
    else some none
  | _ => some none

/-- `_addition_values_rule_collect_case_6`, `:276-297`: `A + mul<A, ...> => A * (1 + mul<...>)`. -/
def addCollect6 : Rule := fun l r =>
  match r with
  | .fn .mul (a :: as) =>
    if a = l then do
      let rest ← mkMul as
      if ← simplifies S (.const 1) rest then
        fire do S .mul a (← S .add (.const 1) rest)
      else some none
    else some none
  | _ => some none

/-- `_addition_values_rule_collect_case_7`, `:300-321`:
`mul<A, P...> + mul<A, Q...> => A * (mul<P...> + mul<Q...>)`. -/
def addCollect7 : Rule := fun l r =>
  match l, r with
  | .fn .mul (a :: as), .fn .mul (b :: bs) =>
    if a = b then do
      let p ← mkMul as
      let q ← mkMul bs
      if ← simplifies S p q then
        fire do S .mul a (← S .add p q)
      else some none
    else some none
  | _, _ => some none

/-- `constant_value<N> * power_t<constant_value<D>, constant_value<-1>>`, the result of the rules
for constants 2 to 5. -/
def quotient (num den : Option Int) : Option Expr := do
  let n ← num
  let d ← den
  S .mul (.const n) (← S .pow (.const d) (.const (-1)))

/-- `_addition_values_rule_constants_case_1`, `:324-345`. -/
def addConst1 : Rule := fun l r =>
  match asConst l, asConst r with
  | some a, some b => fire (mkConst (a + b))
  | _, _ => some none

/-- `_addition_values_rule_constants_case_2`, `:348-380`: `A + 1/B` and `1/A + B`. -/
def addConst2 : Rule := fun l r =>
  match asConst l, asRecip r with
  | some a, some b => fire (quotient S (do i64 ((← i64 (a * b)) + 1)) (some b))
  | _, _ =>
    match asRecip l, asConst r with
    | some a, some b => fire (quotient S (do i64 (1 + (← i64 (b * a)))) (some a))
    | _, _ => some none

/-- `_addition_values_rule_constants_case_3`, `:383-415`: `A/B + 1/C` and `1/C + A/B`. -/
def addConst3 : Rule := fun l r =>
  match asRatio l, asRecip r with
  | some (a, b), some c =>
    fire (quotient S (do i64 ((← i64 (a * c)) + b)) (i64 (b * c)))
  | _, _ =>
    match asRecip l, asRatio r with
    | some c, some (a, b) =>
      fire (quotient S (do i64 (b + (← i64 (c * a)))) (i64 (c * b)))
    | _, _ => some none

/-- `_addition_values_rule_constants_case_4`, `:418-439`: `1/B + 1/C`. -/
def addConst4 : Rule := fun l r =>
  match asRecip l, asRecip r with
  | some b, some c => fire (quotient S (i64 (c + b)) (i64 (b * c)))
  | _, _ => some none

/-- `_addition_values_rule_constants_case_5`, `:442-463`: `A/B + C/D`. -/
def addConst5 : Rule := fun l r =>
  match asRatio l, asRatio r with
  | some (a, b), some (c, d) =>
    fire (quotient S (do i64 ((← i64 (a * d)) + (← i64 (b * c)))) (i64 (b * d)))
  | _, _ => some none

/-- `_addition_values_rule_merge_less_than`, `:466-512`. -/
def addMergeLt : Rule := fun l r =>
  match asAdd l, asAdd r with
  | none, none => if lt l r then fire (mkAdd [l, r]) else some none
  | none, some (b, bs) => if lt l b then fire (mkAdd (l :: b :: bs)) else some none
  | some (a, as), none =>
    if lt a r then fire do S .add a (← S .add (← mkAdd as) r) else some none
  | some (a, as), some (b, _) =>
    if lt a b then fire do S .add a (← S .add (← mkAdd as) r) else some none

/-- `_addition_values_rule_merge_greater_than`, `:514-560`. -/
def addMergeGt : Rule := fun l r =>
  match asAdd l, asAdd r with
  | none, none => if lt r l then fire (mkAdd [r, l]) else some none
  | none, some (b, bs) =>
    if lt b l then fire do S .add b (← S .add l (← mkAdd bs)) else some none
  | some (a, as), none => if lt r a then fire (mkAdd (r :: a :: as)) else some none
  | some (a, _), some (b, bs) =>
    if lt b a then fire do S .add b (← S .add l (← mkAdd bs)) else some none

/-- `_addition_values_rule_merge_equal_to`, `:562-594`. -/
def addMergeEq : Rule := fun l r =>
  match asAdd l, asAdd r with
  | none, none => fire (mkAdd [l, r])
  | none, some (b, bs) => fire (mkAdd (l :: b :: bs))
  | some (a, as), none => fire (mkAdd (a :: r :: as))
  | some (a, as), some (b, bs) =>
    fire do S .add (← mkAdd [a, b]) (← S .add (← mkAdd as) (← mkAdd bs))

/-- The rules of `_addition`, in order: `:596-620`. -/
def addRules : List Rule :=
  [addZero,
   addHelper S (addCollect1 S), addHelper S (addCollect2 S), addHelper S (addCollect3 S),
   addHelper S (addCollect4 S), addHelper S (addCollect5 S), addHelper S (addCollect6 S),
   addHelper S (addCollect7 S),
   addHelper S addConst1, addHelper S (addConst2 S), addHelper S (addConst3 S),
   addHelper S (addConst4 S), addHelper S (addConst5 S),
   addMergeLt S, addMergeGt S, addMergeEq S]

end Addition

section Product

variable (S : Simp)

/-- `simpler_rational_constant_t<Numerator, Denominator>`,
`core/expression_simplification_product_values.hpp:30-43`. -/
def simplerRational (num den : Int) : Option Expr := do
  let n ← iabs num
  let d ← iabs den
  let g := igcd n d
  let s := isign num * isign den
  if g = 1 then
    mkMul [.const (s * n), ← S .pow (.const d) (.const (-1))]
  else if g = 0 then none
  else S .mul (.const (s * (n.tdiv g))) (← S .pow (.const (d.tdiv g)) (.const (-1)))

/-- `_product_values_rule_helper`, `:45-92`: apply a rule to the leading factors. -/
def mulHelper (rule : Rule) : Rule := fun l r =>
  match asMul l, asMul r with
  | none, none => rule l r
  | none, some (b, bs) => do
    match ← rule l b with
    | none => some none
    | some e => fire do S .mul e (← mkMul bs)
  | some (a, as), none => do
    match ← rule a r with
    | none => some none
    | some e => fire do S .mul e (← mkMul as)
  | some (a, as), some (b, bs) => do
    match ← rule a b with
    | none => some none
    | some e => fire do S .mul e (← S .mul (← mkMul as) (← mkMul bs))

/-- `_product_values_rule_zero`, `:94-138`. -/
def mulZero : Rule := fun l r =>
  if l = .const 0 ∨ r = .const 0 then some (some (.const 0)) else some none

/-- `_product_values_rule_one`, `:140-184`. -/
def mulOne : Rule := fun l r =>
  if l = .const 1 then some (some r) else if r = .const 1 then some (some l) else some none

/-- `_product_values_rule_distributivity`, `:186-230`. -/
def mulDistribute : Rule := fun l r =>
  match asAdd l, asAdd r with
  | none, none => some none
  | none, some (b, bs) => fire do S .add (← S .mul l b) (← S .mul l (← mkAdd bs))
  | some (a, as), none => fire do S .add (← S .mul a r) (← S .mul (← mkAdd as) r)
  | some (a, as), some (b, bs) => fire do
    S .add (← S .add (← S .mul a b) (← S .mul (← mkAdd as) b))
      (← S .add (← S .mul a (← mkAdd bs)) (← S .mul (← mkAdd as) (← mkAdd bs)))

/-- `_product_values_rule_collect_value_case_1`, `:232-254`: `A * A => A^{2}`. -/
def mulCollect1 : Rule := fun l r =>
  if l = r then fire (S .pow l (.const 2)) else some none

/-- `_product_values_rule_collect_value_case_2`, `:256-289`: `A^{P} * A => A^{P + 1}` and
`A * A^{P} => A^{1 + P}`. -/
def mulCollect2 : Rule := fun l r =>
  match asPower l with
  | some (a, p) =>
    if a = r then fire do S .pow a (← S .add p (.const 1))
    else
      match asPower r with
      | some (b, q) => if b = l then fire do S .pow b (← S .add (.const 1) q) else some none
      | none => some none
  | none =>
    match asPower r with
    | some (b, q) => if b = l then fire do S .pow b (← S .add (.const 1) q) else some none
    | none => some none

/-- `_product_values_rule_collect_value_case_3`, `:291-313`: `A^{P} * A^{Q} => A^{P + Q}`. -/
def mulCollect3 : Rule := fun l r =>
  match asPower l, asPower r with
  | some (a, p), some (b, q) => if a = b then fire do S .pow a (← S .add p q) else some none
  | _, _ => some none

/-- `_product_values_rule_constants_case_1`, `:315-348`. -/
def mulConst1 : Rule := fun l r =>
  match asConst l, asConst r with
  | some a, some b => fire (mkConst (a * b))
  | _, _ =>
    match asRecip l, asRecip r with
    | some a, some b => fire do S .pow (← mkConst (a * b)) (.const (-1))
    | _, _ => some none

/-- `_product_values_rule_constants_case_2`, `:350-383`. -/
def mulConst2 : Rule := fun l r =>
  match asConst l, asRecip r with
  | some a, some b => fire (simplerRational S a b)
  | _, _ =>
    match asRecip l, asConst r with
    | some a, some b => fire (simplerRational S b a)
    | _, _ => some none

/-- `_product_values_rule_merge_less_than`, `:385-431`. -/
def mulMergeLt : Rule := fun l r =>
  match asMul l, asMul r with
  | none, none => if lt l r then fire (mkMul [l, r]) else some none
  | none, some (b, bs) => if lt l b then fire (mkMul (l :: b :: bs)) else some none
  | some (a, as), none =>
    if lt a r then fire do S .mul a (← S .mul (← mkMul as) r) else some none
  | some (a, as), some (b, _) =>
    if lt a b then fire do S .mul a (← S .mul (← mkMul as) r) else some none

/-- `_product_values_rule_merge_greater_than`, `:433-479`. -/
def mulMergeGt : Rule := fun l r =>
  match asMul l, asMul r with
  | none, none => if lt r l then fire (mkMul [r, l]) else some none
  | none, some (b, bs) =>
    if lt b l then fire do S .mul b (← S .mul l (← mkMul bs)) else some none
  | some (a, as), none => if lt r a then fire (mkMul (r :: a :: as)) else some none
  | some (a, _), some (b, bs) =>
    if lt b a then fire do S .mul b (← S .mul l (← mkMul bs)) else some none

/-- `_product_values_rule_merge_equal_to`, `:481-513`. -/
def mulMergeEq : Rule := fun l r =>
  match asMul l, asMul r with
  | none, none => fire (mkMul [l, r])
  | none, some (b, bs) => fire (mkMul (l :: b :: bs))
  | some (a, as), none => fire (mkMul (a :: r :: as))
  | some (a, as), some (b, bs) =>
    fire do S .mul (← mkMul [a, b]) (← S .mul (← mkMul as) (← mkMul bs))

/-- The rules of `_product<_, _, value_mapping>`, in order: `:515-535`. -/
def mulRules : List Rule :=
  [mulZero, mulOne, mulDistribute S,
   mulHelper S (mulCollect1 S), mulHelper S (mulCollect2 S), mulHelper S (mulCollect3 S),
   mulHelper S (mulConst1 S), mulConst2 S,
   mulMergeLt S, mulMergeGt S, mulMergeEq S]

end Product

section Power

variable (S : Simp)

/-- `simpler_ipow_t<Base, Exponent>`, `core/expression_simplification_power.hpp:30-38`; 64 levels of
recursion are enough for every exponent of 63 bits. -/
def simplerIpow (b e : Int) : Option Expr := (ipow 66 b e).map .const

/-- `power<constant_value<2>, constant_value<-1>>`: the exponent of a square root. -/
def half : Expr := recip 2

/-- `simpler_isqrt_t<Value>`, `:40-60`: defined for positive values only. -/
def simplerIsqrt (v : Int) : Option Expr :=
  if 0 < v then do
    let s ← isqrt (v.toNat + 2) v
    if (← i64 (s * s)) = v then some (.const s) else some (powerOf (.const v) half)
  else none

/-- `_power_rule_miscellaneous_1`, `:166-221`. -/
def powMisc1 : Rule := fun l r =>
  if l = .const 0 then
    match asConst r with
    | some k => some (if 0 < k then some (.const 0) else none)
    | none =>
      if r = half then some (some (.const 0))
      else do
        let p ← mayBePositive r
        some (if isConstant r && p then some (.const 0) else none)
  else if l = .const 1 then some (some (.const 1))
  else some none

/-- `_power_rule_miscellaneous_2`, `:223-256`. -/
def powMisc2 : Rule := fun l r =>
  if r = .const 0 then some (if l ≠ .const 0 then some (.const 1) else none)
  else if r = .const 1 then some (some l)
  else some none

/-- `_power_rule_miscellaneous_3`, `:258-303`; both alternatives of the `conditional_t`s are
instantiated, so `ipow` must be defined in any case. -/
def powMisc3 : Rule := fun l r =>
  match asConst l with
  | none => some none
  | some a =>
    if r = half then fire (simplerIsqrt a)
    else
      match asConst r with
      | none => some none
      | some k => do
        let p ← simplerIpow a (← iabs k)
        if a = -1 then
          some (some (if k % 2 = 0 then .const 1 else .const (-1)))
        else if 0 < k then some (some p)
        else some (some (powerOf p (.const (-1))))

/-- `_power_rule_distributivity`, `:305-340`. -/
def powDistribute : Rule := fun l r =>
  match asMul l with
  | some (a, as) => fire do S .mul (← S .pow a r) (← S .pow (← mkMul as) r)
  | none =>
    match asPower l with
    | some (a, p) => fire do S .pow a (← S .mul p r)
    | none => some (some (powerOf l r))

/-- The rules of `_power`, in order: `:342-355`. -/
def powRules : List Rule := [powMisc1, powMisc2, powMisc3, powDistribute S]

end Power

/-- The rules of each metafunction. -/
def rulesOf (S : Simp) : Op → List Rule
  | .add => addRules S
  | .mul => mulRules S
  | .pow => powRules S

/-- `addition_t`, `product_t<_, _, value_mapping>` and `power_t` with at most the given depth of
instantiation. -/
def simp : Nat → Simp
  | 0 => fun _ _ _ => none
  | n + 1 => fun op l r => applyRules (rulesOf (simp n) op) l r

end GATL
