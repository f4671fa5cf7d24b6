import Verif.Model.Components
import Verif.Model.Eval

/-!
# Lazy contexts

Model of `core/lazy_context.hpp`: variables for the stored entries of the inputs, and evaluation of
an expression over the variables of the context.  Citations are relative to
`/repo/cpp/include/gatl/ga`.

The type of the result and the sequence of writes into its storage are both determined at compile
time; `compile` computes the two together.  `none` means that the program does not compile.  Entries
stored in maps are not modelled ("not supported yet" in the library: evaluating them throws,
`:242`, `:278`).
-/

namespace GATL

open Expr Spec

namespace Expr

mutual
/-- `count_stored_values`, `core/clifford_expression.hpp:53-92`. -/
def countValues : Expr → Nat
  | .stored => 1
  | .fn _ args => countValuesAll args
  | _ => 0
/-- The sum over the arguments, `core/clifford_expression.hpp:60-67`. -/
def countValuesAll : List Expr → Nat
  | [] => 0
  | a :: as => countValues a + countValuesAll as
end

mutual
/-- `count_stored_bitsets`, `core/clifford_expression.hpp:95-134`. -/
def countBits : Expr → Nat
  | .storedBits => 1
  | .fn _ args => countBitsAll args
  | _ => 0
/-- The sum over the arguments, `core/clifford_expression.hpp:102-109`. -/
def countBitsAll : List Expr → Nat
  | [] => 0
  | a :: as => countBits a + countBitsAll as
end

mutual
/-- `greater_id`, `core/lazy_context.hpp:31-86`. -/
def greaterId : Expr → Nat
  | .value t _ | .mapValues t _ | .bitset t _ | .mapBitsets t _ => t
  | .fn _ args => greaterIdAll args
  | _ => 0
/-- The greatest over the arguments, `core/lazy_context.hpp:38-46`. -/
def greaterIdAll : List Expr → Nat
  | [] => 0
  | a :: as => max (greaterId a) (greaterIdAll as)
end

mutual
/-- `tag_variables_t<Expression, Tag, BaseValueIndex, BaseBitsetIndex, ...>`,
`core/lazy_context.hpp:88-141`: stored entries become variables, numbered in reading order. -/
def tag (T v b : Nat) : Expr → Expr
  | .stored => .value T v
  | .storedBits => .bitset T b
  | .fn name args => .fn name (tagAll T v b args)
  | e => e
/-- `_tag_variables_in_function`, `core/lazy_context.hpp:126-141`. -/
def tagAll (T v b : Nat) : List Expr → List Expr
  | [] => []
  | a :: as => tag T v b a :: tagAll T (v + countValues a) (b + countBits a) as
end

mutual
/-- The `static_assert`s "Tag out of bounds" of `get_value::eval` and `get_bitset::eval`,
`core/expression.hpp:145`, `:191`. -/
def inRange (L U : Nat) : Expr → Bool
  | .value t _ | .mapValues t _ | .bitset t _ | .mapBitsets t _ => L ≤ t && t ≤ U
  | .fn _ args => inRangeAll L U args
  | _ => true
/-- The same for the arguments. -/
def inRangeAll (L U : Nat) : List Expr → Bool
  | [] => true
  | a :: as => inRange L U a && inRangeAll L U as
end

end Expr

/-- One step of `run`: `_eval_clifford_expression_store_value`, `core/lazy_context.hpp:208-229`, or
`_eval_clifford_expression_store_bitset`, `:247-264`. -/
inductive Instr
  | value (e : Expr)
  | bits (e : Expr)

/-- The type of the result and the steps of `run`. -/
abbrev Code := Expr × List Instr

/-- `_eval_clifford_expression_store_value`, `core/lazy_context.hpp:208-229`. -/
def storeValue (L U : Nat) (e : Expr) : Option Code :=
  if inRange L U e then some (.stored, [.value e]) else none

/-- `_eval_clifford_expression_store_bitset`, `core/lazy_context.hpp:247-264`. -/
def storeBits (L U : Nat) (e : Expr) : Option Code :=
  if inRange L U e then some (.storedBits, [.bits e]) else none

/-- The condition for storing the value of a function of two arguments, e.g.
`core/lazy_context.hpp:351`. -/
def anyIs (s l r : Expr) : Bool := (l == s && canBeStored r) || (canBeStored l && r == s)

mutual
/-- `eval_clifford_expression<LowerTag, UpperTag, Expression>`, `core/lazy_context.hpp:284-469`:
`expression_type` and the steps of `run`.  The alternatives of the `conditional_t`s name the nested
`type` of the function of the evaluated arguments, so it must compile in any case. -/
def compile (n L U : Nat) : Expr → Option Code
  | .value t i =>
    if L ≤ t ∧ t ≤ U then storeValue L U (.value t i) else some (.value t i, [])
  | .bitset t i =>
    if L ≤ t ∧ t ≤ U then storeBits L U (.bitset t i) else some (.bitset t i, [])
  | .fn .add args => compileAdd n L U args
  | .fn .mul args => compileMul n L U args
  | .fn .power [l, r] => do
    let (l', p) ← compile n L U l
    let (r', q) ← compile n L U r
    let e ← simp n .pow l' r'
    if anyIs .stored l' r' then storeValue L U (.fn .power [l, r]) else some (e, p ++ q)
  | .fn .reorderingSign [l, r] => do
    let (l', p) ← compile n L U l
    let (r', q) ← compile n L U r
    if anyIs .storedBits l' r' then storeValue L U (.fn .reorderingSign [l, r])
    else some (mkReorderingSign l' r', p ++ q)
  | .fn .countOneBits [b] => do
    let (b', p) ← compile n L U b
    if b' = .storedBits then storeValue L U (.fn .countOneBits [b])
    else some (mkCountOneBits b', p)
  | .fn .leftShift [l, r] => do
    let (l', p) ← compile n L U l
    let (r', q) ← compile n L U r
    let e ← mkLeftShift l' r'
    if (l' == .storedBits && canBeStored r') || (canBeStored l' && r' == .stored) then
      storeBits L U (.fn .leftShift [l, r])
    else some (e, p ++ q)
  | .fn .uminus [b] => do
    let (b', p) ← compile n L U b
    let e ← mkUminus b'
    if b' = .storedBits then storeValue L U (.fn .uminus [b]) else some (e, p)
  | .fn .dec [b] => do
    let (b', p) ← compile n L U b
    if b' = .storedBits then storeValue L U (.fn .dec [b]) else some (mkDec b', p)
  | .fn .ifElse [t, a, b] => do
    let (t', p) ← compile n L U t
    let (a', q) ← compile n L U a
    if canBeStored t' && canBeStored a' && canBeStored a' then
      storeValue L U (.fn .ifElse [t, a, b])
    else do
      let (_, r) ← compile n L U b
      some (mkIfElse t' a' a', p ++ q ++ r)
  | .fn name [a] => do
    let (a', p) ← compile n L U a
    let e ← mkFn (simp n) name [a']
    if a' = .stored then storeValue L U (.fn name [a])
    else if a' = .storedBits then storeBits L U (.fn name [a])
    else some (e, p)
  | .fn name [l, r] => do
    let (l', p) ← compile n L U l
    let (r', q) ← compile n L U r
    let e ← mkFn (simp n) name [l', r']
    if anyIs .stored l' r' then storeValue L U (.fn name [l, r])
    else if anyIs .storedBits l' r' then storeBits L U (.fn name [l, r])
    else some (e, p ++ q)
  | e => some (e, [])
/-- Sums, `core/lazy_context.hpp:362-379`: the first summand and the sum of the others. -/
def compileAdd (n L U : Nat) : List Expr → Option Code
  | [] => none
  | [a] => compile n L U a
  | a :: rest => do
    let (a', p) ← compile n L U a
    let (r', q) ← compileAdd n L U rest
    let e ← simp n .add a' r'
    if anyIs .stored a' r' then storeValue L U (.fn .add (a :: rest)) else some (e, p ++ q)
/-- Products, `core/lazy_context.hpp:382-399`: the first factor and the product of the others. -/
def compileMul (n L U : Nat) : List Expr → Option Code
  | [] => none
  | [a] => compile n L U a
  | a :: rest => do
    let (a', p) ← compile n L U a
    let (r', q) ← compileMul n L U rest
    let e ← simp n .mul a' r'
    if anyIs .stored a' r' then storeValue L U (.fn .mul (a :: rest)) else some (e, p ++ q)
end

/-- `dynamic_basis_blade_t`, `core/expression.hpp:229-251`. -/
def mkDynBlade (G : Word) : Expr → Option Blade
  | .cbits b => if G = (1 : Word) <<< ones b then some (.const b) else none
  | e => some (if G = 1 then .const 0 else .dyn G e)

/-- Evaluation of a basis blade, `core/lazy_context.hpp:322-325`. -/
def compileBlade (n L U : Nat) : Blade → Option (Blade × List Instr)
  | .const b => some (.const b, [])
  | .dyn G e => do
    let (e', p) ← compile n L U e
    some (← mkDynBlade G e', p)

/-- Evaluation of a component, `core/lazy_context.hpp:327-330`. -/
def compileComp (n L U : Nat) (c : Comp) : Option (Comp × List Instr) := do
  let (x, p) ← compile n L U c.coef
  let (b, q) ← compileBlade n L U c.blade
  some (mkComp x b, p ++ q)

/-- Evaluation of a sum of components, `core/lazy_context.hpp:362-379`; a component is not a
`stored_value`, so the sum is always rebuilt with `addition_t`. -/
def compileC (n L U : Nat) : CSum → Option (CSum × List Instr)
  | [] => none
  | [c] => do
    let (c', p) ← compileComp n L U c
    some ([c'], p)
  | c :: cs => do
    let (c', p) ← compileComp n L U c
    let (s', q) ← compileC n L U cs
    some (← addC n [c'] s', p ++ q)

/-- Conversion of a result to the coefficient type (`*value_itr = eval(args)`,
`core/lazy_context.hpp:224`). -/
def asNumber : Val → ℝ
  | .num x => x
  | .bits w => w.toNat
  | .bool b => if b then 1 else 0

/-- Conversion of a result to `bitset_t` (`*bitset_itr = eval(args)`, `core/lazy_context.hpp:261`). -/
noncomputable def asBits : Val → Word
  | .num x => BitVec.ofInt 64 ⌊x⌋
  | .bits w => w
  | .bool b => if b then 1 else 0

/-- The steps of `run`, in order: the values and the bitsets written. -/
noncomputable def exec (τ : Types) (ρ : Env) : List Instr → Option (List ℝ × List Word)
  | [] => some ([], [])
  | .value e :: is => do
    let v ← eval τ ρ e
    let (vs, bs) ← exec τ ρ is
    some (asNumber v :: vs, bs)
  | .bits e :: is => do
    let v ← eval τ ρ e
    let (vs, bs) ← exec τ ρ is
    some (vs, asBits v :: bs)

namespace Blade

/-- The tagged blade, `core/lazy_context.hpp:112-115`. -/
def tag (T v b : Nat) : Blade → Option Blade
  | .const w => some (.const w)
  | .dyn G e => mkDynBlade G (e.tag T v b)

/-- Stored values and bitsets of a blade, `core/clifford_expression.hpp:79-82`, `:121-124`. -/
def countValues : Blade → Nat
  | .const _ => 0
  | .dyn _ e => e.countValues
@[inherit_doc countValues]
def countBits : Blade → Nat
  | .const _ => 0
  | .dyn _ e => e.countBits

/-- `core/lazy_context.hpp:73-76`. -/
def greaterId : Blade → Nat
  | .const _ => 0
  | .dyn _ e => e.greaterId

/-- `has_stored_entries` of a blade, `core/expression_traits.hpp:161-164`. -/
def hasStored : Blade → Bool
  | .const _ => false
  | .dyn _ e => e.hasStored

end Blade

/-- Stored values of a component, `core/clifford_expression.hpp:84-87`. -/
def Comp.countValues (c : Comp) : Nat := c.coef.countValues + c.blade.countValues
/-- Stored bitsets of a component, `core/clifford_expression.hpp:126-129`. -/
def Comp.countBits (c : Comp) : Nat := c.coef.countBits + c.blade.countBits

/-- The sizes of the value and bitset storages, `core/clifford_expression.hpp:326-330`. -/
def countValuesC (s : CSum) : Nat := (s.map Comp.countValues).sum
@[inherit_doc countValuesC]
def countBitsC (s : CSum) : Nat := (s.map Comp.countBits).sum

/-- `has_stored_entries`, `core/expression_traits.hpp:135-174`. -/
def hasStoredC (s : CSum) : Bool := s.any fun c => c.coef.hasStored || c.blade.hasStored

/-- `greater_id`, `core/lazy_context.hpp:78-86`. -/
def greaterIdC : CSum → Nat
  | [] => 0
  | c :: cs => max (max c.coef.greaterId c.blade.greaterId) (greaterIdC cs)

/-- `tag_variables` of a sum of components, `core/lazy_context.hpp:117-141`: in each component first
the coefficient, then the blade. -/
def tagC (T v b : Nat) : CSum → Option CSum
  | [] => some []
  | c :: cs => do
    let blade ← c.blade.tag T (v + c.coef.countValues) (b + c.coef.countBits)
    let rest ← tagC T (v + c.countValues) (b + c.countBits) cs
    some (mkComp (c.coef.tag T v b) blade :: rest)

/-- A `clifford_expression<CoefficientType, Expression>` object: its type and its storages,
`core/clifford_expression.hpp:317-345`. -/
structure Object where
  /-- whether `CoefficientType` is a floating-point type -/
  floats : Bool
  /-- `Expression` -/
  expr : CSum
  /-- `values()` -/
  values : List ℝ
  /-- `bitsets()` -/
  bitsets : List Word

/-- `argument<Index>::type` of all inputs, `core/lazy_context.hpp:563-579`: inputs with stored entries
get the tags following `base`, the others are passed unchanged. -/
def arguments (base : Nat) : List Object → Option (List CSum)
  | [] => some []
  | M :: Ms =>
    if hasStoredC M.expr then do
      let a ← tagC (base + 1) 0 0 M.expr
      some (a :: (← arguments (base + 1) Ms))
    else do some (M.expr :: (← arguments base Ms))

/-- `base_id`, `core/lazy_context.hpp:623-628`. -/
def baseId (Ms : List Object) : Nat := (Ms.map fun M => greaterIdC M.expr).foldr max 0

/-- `stored_inputs_tuple`, `core/lazy_context.hpp:592-598`. -/
def storedInputs (Ms : List Object) : List Object := Ms.filter fun M => hasStoredC M.expr

/-- The variables of the context: `get_value<Tag, Index>` reads entry `Index` of the stored input
number `Tag - LowerTag`, `core/expression.hpp:142-150`, `:188-196`.  The other variables belong to
enclosing contexts. -/
def contextEnv (outer : Env) (base : Nat) (stored : List Object) : Env where
  val t i := if base < t then ((stored[t - (base + 1)]?.map Object.values).getD []).getD i 0
    else outer.val t i
  bits t i := if base < t then ((stored[t - (base + 1)]?.map Object.bitsets).getD []).getD i 0
    else outer.bits t i

/-- The coefficient types of the variables of the context. -/
def contextTypes (outer : Types) (base : Nat) (stored : List Object) : Types := fun t =>
  if base < t then (stored[t - (base + 1)]?.map Object.floats).getD false else outer t

/-- `lazy_context::eval`, `core/lazy_context.hpp:471-491`, `:655-659`: evaluate the expression `e`
over the inputs `Ms`.  Without stored inputs the expression is returned as it is (`:488-491`).  The
coefficient type of the result is not needed here. -/
noncomputable def contextEval (n : Nat) (τ : Types) (outer : Env) (Ms : List Object) (e : CSum) :
    Option (CSum × List ℝ × List Word) :=
  let base := baseId Ms
  let stored := storedInputs Ms
  if stored.isEmpty then some (e, [], [])
  else do
    let (e', code) ← compileC n (base + 1) (base + stored.length) e
    let (vs, bs) ← exec (contextTypes τ base stored) (contextEnv outer base stored) code
    some (e', vs, bs)

/-- `eval_coefficient_t`, `core/lazy_context.hpp:153-182`, `:216-219`: the coefficient type of the result
is the common type of the values written. -/
def writtenFloats (τ : Types) (code : List Instr) : Bool :=
  code.any fun
    | .value e => floating τ e
    | .bits _ => false

/-- The object returned by `lazy_context::eval`, `core/lazy_context.hpp:471-491`.  Simplification: without stored
inputs the coefficient type of the result, which has no storage, is not kept. -/
noncomputable def contextObject (n : Nat) (τ : Types) (outer : Env) (Ms : List Object) (e : CSum) :
    Option Object := do
  let (e', vs, bs) ← contextEval n τ outer Ms e
  let base := baseId Ms
  let stored := storedInputs Ms
  let floats := if stored.isEmpty then false else
    match compileC n (base + 1) (base + stored.length) e with
    | some (_, code) => writtenFloats (contextTypes τ base stored) code
    | none => false
  some ⟨floats, e', vs, bs⟩

/-- A function of one multivector: `make_lazy_context(arg)` followed by `lazy.eval` of the function of
the argument's expression, e.g. `core/reversion.hpp:30-33`. -/
noncomputable def call1 (n : Nat) (τ : Types) (outer : Env) (f : CSum → Option CSum) (A : Object) :
    Option Object := do
  match ← arguments (baseId [A]) [A] with
  | [a] => contextObject n τ outer [A] (← f a)
  | _ => none

/-- A function of two multivectors: `make_lazy_context(lhs, rhs)` followed by `lazy.eval` of the
function of the arguments' expressions, e.g. `core/outer_product.hpp:31-34`. -/
noncomputable def call2 (n : Nat) (τ : Types) (outer : Env) (f : CSum → CSum → Option CSum)
    (A B : Object) : Option Object := do
  match ← arguments (baseId [A, B]) [A, B] with
  | [a, b] => contextObject n τ outer [A, B] (← f a b)
  | _ => none

/-- `c<Value>`, `core/constant.hpp:30-36`. -/
def constObject (v : Int) : Object := ⟨false, constSum v, [], []⟩

/-- The argument of a context as an object: no storage, `core/lazy_context.hpp:643-646`. -/
def lazyObject (floats : Bool) (a : CSum) : Object := ⟨floats, a, [], []⟩

/-- Programs over multivectors. -/
inductive Program
  /-- an input -/
  | input (i : Nat)
  /-- `c<v>` -/
  | lit (v : Int)
  | add (s t : Program)
  | sub (s t : Program)
  | neg (t : Program)
  /-- `v * t` with an integer literal `v` -/
  | scale (v : Int) (t : Program)
  | op (s t : Program)
  | rp (s t : Program)
  /-- one of the graded metric products -/
  | graded (g : GradedProduct) (s t : Program)
  | reverse (t : Program)
  | involute (t : Program)
  | conjugate (t : Program)

namespace Program

/-- Running a program in the space with signature `(P, Q, R)`: `core/arithmetic_operators.hpp:34-59`,
`core/outer_product.hpp:31-34`, `core/regressive_product.hpp:31-34`, `core/geometric_product.hpp:97-106`
and the like, `core/reversion.hpp:30-33`, `core/involution.hpp:30-33`, `core/conjugation.hpp:30-33`. -/
noncomputable def run (P Q R k : Nat) (τ : Types) (outer : Env) (Ms : List Object) :
    Program → Option Object
  | input i => Ms[i]?
  | lit v => some (constObject v)
  | add s t => do
    call2 k τ outer (addC k) (← run P Q R k τ outer Ms s) (← run P Q R k τ outer Ms t)
  | sub s t => do
    call2 k τ outer (subC k) (← run P Q R k τ outer Ms s) (← run P Q R k τ outer Ms t)
  | neg t => do call1 k τ outer (negC k) (← run P Q R k τ outer Ms t)
  | scale v t => do
    call1 k τ outer (mulC (orthMapping 63 mkRealFactor .gp) k (constSum v))
      (← run P Q R k τ outer Ms t)
  | op s t => do
    call2 k τ outer (mulC (extMapping (P + Q + R)) k) (← run P Q R k τ outer Ms s)
      (← run P Q R k τ outer Ms t)
  | rp s t => do
    call2 k τ outer (mulC (regMapping (P + Q + R)) k) (← run P Q R k τ outer Ms s)
      (← run P Q R k τ outer Ms t)
  | graded g s t => do
    call2 k τ outer (mulC (orthMapping (P + Q + R) (mkSignedFactor P Q R) g) k)
      (← run P Q R k τ outer Ms s) (← run P Q R k τ outer Ms t)
  | reverse t => do
    call1 k τ outer (gradedMinusC k 0xcccccccccccccccc) (← run P Q R k τ outer Ms t)
  | involute t => do
    call1 k τ outer (gradedMinusC k 0xaaaaaaaaaaaaaaaa) (← run P Q R k τ outer Ms t)
  | conjugate t => do
    call1 k τ outer (gradedMinusC k 0x6666666666666666) (← run P Q R k τ outer Ms t)

/-- Running a program lazily: `auto [lazy, x...] = make_lazy_context_tuple(inputs...)` and
`lazy.eval(program(x...))`, `core/lazy_context.hpp:655-659`, `:678-682`. -/
noncomputable def runLazy (P Q R k : Nat) (τ : Types) (outer : Env) (Ms : List Object)
    (t : Program) : Option Object := do
  let as ← arguments (baseId Ms) Ms
  let r ← t.run P Q R k τ outer (List.zipWith (fun M a => lazyObject M.floats a) Ms as)
  contextObject k τ outer Ms r.expr

end Program

end GATL
