import Verif.Model.Lazy
import Verif.Spec.Components

/-!
# Specification vocabulary for lazy evaluation
-/

namespace GATL.Spec

open Expr

/-- Numbers, bitsets and logical values. -/
inductive Kind
  | num | bits | test
  deriving DecidableEq

/-- Elementary functions of one number (other than the absolute value). -/
def elementary : List Name :=
  [.exponential, .logarithm, .cosine, .sine, .tangent, .hcosine, .hsine, .htangent]

/-- Expressions without stored entries, all of whose variables have tags from `L` to `U`.  Some
shapes that the library folds are excluded: a comparison of two constants, the absolute value of a
constant, and a constant power of which neither base nor exponent is an integer. -/
inductive Evaluable (L U : Nat) : Kind → Expr → Prop
  | const (v) : Evaluable L U .num (.const v)
  | value (t i) (hL : L ≤ t) (hU : t ≤ U) : Evaluable L U .num (.value t i)
  | cbits (w) : Evaluable L U .bits (.cbits w)
  | bitset (t i) (hL : L ≤ t) (hU : t ≤ U) : Evaluable L U .bits (.bitset t i)
  | add (args) (hn : 2 ≤ args.length) (h : ∀ a ∈ args, Evaluable L U .num a) :
      Evaluable L U .num (.fn .add args)
  | mul (args) (hn : 2 ≤ args.length) (h : ∀ a ∈ args, Evaluable L U .num a) :
      Evaluable L U .num (.fn .mul args)
  | power (l r) (hl : Evaluable L U .num l) (hr : Evaluable L U .num r)
      (hc : isConstant l = false ∨ isConstant r = false ∨ (∃ v, l = .const v) ∨ ∃ v, r = .const v) :
      Evaluable L U .num (.fn .power [l, r])
  | elementary (name a) (hn : name ∈ elementary) (h : Evaluable L U .num a) :
      Evaluable L U .num (.fn name [a])
  | absolute (a) (h : Evaluable L U .num a) (hc : isConstant a = false) :
      Evaluable L U .num (.fn .absolute [a])
  | sign (l r) (hl : Evaluable L U .bits l) (hr : Evaluable L U .bits r) :
      Evaluable L U .num (.fn .reorderingSign [l, r])
  | count (b) (h : Evaluable L U .bits b) : Evaluable L U .num (.fn .countOneBits [b])
  | bitwise (name k l r) (hn : name = .band ∨ name = .bor ∨ name = .bxor) (hk : k ≠ .test)
      (hl : Evaluable L U k l) (hr : Evaluable L U k r) : Evaluable L U k (.fn name [l, r])
  | shift (l r) (hl : Evaluable L U .bits l) (hr : Evaluable L U .num r) :
      Evaluable L U .bits (.fn .leftShift [l, r])
  | compare (name k l r) (hn : name = .equal ∨ name = .lessOrEqual) (hk : k ≠ .test)
      (hl : Evaluable L U k l) (hr : Evaluable L U k r)
      (hc : isConstant l = false ∨ isConstant r = false) : Evaluable L U .test (.fn name [l, r])
  | logical (name l r) (hn : name = .logicalAnd ∨ name = .logicalOr)
      (hl : Evaluable L U .test l) (hr : Evaluable L U .test r) :
      Evaluable L U .test (.fn name [l, r])
  | ifElse (t a b) (ht : Evaluable L U .test t) (ha : Evaluable L U .num a)
      (hb : Evaluable L U .num b) : Evaluable L U .num (.fn .ifElse [t, a, b])

/-- Sums, products and integer powers of integers and of variables whose tags satisfy `P`. -/
inductive Arithmetic (P : Nat → Prop) : Expr → Prop
  | const (v) : Arithmetic P (.const v)
  | value (t i) (h : P t) : Arithmetic P (.value t i)
  | add (args) (h : ∀ a ∈ args, Arithmetic P a) : Arithmetic P (.fn .add args)
  | mul (args) (h : ∀ a ∈ args, Arithmetic P a) : Arithmetic P (.fn .mul args)
  | power (l v) (hl : Arithmetic P l) : Arithmetic P (.fn .power [l, .const v])

/-- What a coefficient contributes: the next stored number, or its own value if it contains no stored
entries. -/
inductive CoefReads (ρ : Env) : Expr → List ℝ → ℝ → Prop
  | stored (x) : CoefReads ρ .stored [x] x
  | symbolic (c x) (hs : hasStored c = false) (hb : Built c) (hd : Denotes ρ c x) :
      CoefReads ρ c [] x

/-- What a blade stands for: itself, the next stored bitset, or the value of its bitset. -/
inductive BladeReads (ρ : Env) : Blade → List Word → TBlade → Prop
  | const (b) : BladeReads ρ (.const b) [] (.const b)
  | stored (G w) : BladeReads ρ (.dyn G .storedBits) [w] (.dyn G w)
  | symbolic (G e w) (hs : hasStored e = false) (hb : Built e) (hc : isConstant e = false)
      (hd : den ρ e = some (.bits w)) : BladeReads ρ (.dyn G e) [] (.dyn G w)

/-- The multivector that a type with the given stored numbers and bitsets stands for, in a space
with `n` dimensions: components are read from left to right, and each stored entry takes the next
number or bitset; nothing is left over. -/
inductive Reads (ρ : Env) (n : Nat) : CSum → List ℝ → List Word → MV ℝ → Prop
  | nil : Reads ρ n [] [] [] 0
  | cons {c b s vs ws vs' ws' x t m} (hc : CoefReads ρ c vs x) (hb : BladeReads ρ b ws t)
      (hw : WellTyped n (x, t)) (hs : Reads ρ n s vs' ws' m) :
      Reads ρ n (⟨c, b⟩ :: s) (vs ++ vs') (ws ++ ws') (Finsupp.single t.bits x + m)

/-- The objects that evaluated multivectors are: statically known basis blades in canonical order, and
coefficients that are either stored or integers known at compile time. -/
def Plain (s : CSum) : Prop :=
  Canonical s ∧ ∀ c ∈ s, c.coef = .stored ∨ ∃ v, c.coef = .const v

/-- The object `M` is of that kind and stands for the multivector `A` in a space with `n`
dimensions; its storage has exactly the size needed (see `Reads`). -/
def Represents (ρ : Env) (n : Nat) (M : Object) (A : MV ℝ) : Prop :=
  Plain M.expr ∧ Reads ρ n M.expr M.values M.bitsets A

end GATL.Spec

namespace GATL

open Spec

/-- The value of a program whose inputs are the multivectors `As`, in the space with signature
`(P, Q, R)`. -/
noncomputable def Program.value (P Q R : Nat) (As : List (MV ℝ)) : Program → MV ℝ
  | input i => As.getD i 0
  | lit v => Finsupp.single 0 (v : ℝ)
  | add s t => s.value P Q R As + t.value P Q R As
  | sub s t => s.value P Q R As - t.value P Q R As
  | neg t => - t.value P Q R As
  | scale v t => (v : ℝ) • t.value P Q R As
  | op s t => GATL.op (s.value P Q R As) (t.value P Q R As)
  | rp s t => GATL.rp (P + Q + R) (s.value P Q R As) (t.value P Q R As)
  | graded g s t => signedProd P Q R g (s.value P Q R As) (t.value P Q R As)
  | reverse t => GATL.reverse (t.value P Q R As)
  | involute t => GATL.involute (t.value P Q R As)
  | conjugate t => GATL.conjugate (t.value P Q R As)

end GATL
