import Mathlib.Tactic
import Verif.Proofs.Limit
import Verif.Proofs.Merge
import Verif.Proofs.LtFuel
import Verif.Proofs.Order
import Verif.Proofs.Integers

/-!
# Products of monomials always simplify

Monomials in the values of the inputs as data, and the products of them that the library computes.
-/

namespace GATL.Total

open Expr Spec

/-- `2 ^ 63`, the bound of `default_integral_t`. -/
abbrev B : Nat := 2 ^ 63

theorem i64_fits {x : Int} (h : x.natAbs < B) : i64 x = some x := by
  unfold i64
  rw [if_pos]
  unfold B at h
  omega

theorem mkConst_fits {x : Int} (h : x.natAbs < B) : mkConst x = some (.const x) := by
  simp [mkConst, i64_fits h]

/-- The values of the inputs. -/
inductive Atom
  | val (t i : Nat)
  | stored
  deriving DecidableEq

/-- The expression of a value. -/
def Atom.expr : Atom → Expr
  | .val t i => .value t i
  | .stored => .stored

theorem Atom.num (x : Atom) : IsNumLeaf x.expr := by cases x <;> trivial

theorem Atom.inj {x y : Atom} (h : x.expr = y.expr) : x = y := by
  cases x <;> cases y <;> simp_all [Atom.expr]

theorem Atom.ne_fn (x : Atom) (f : Name) (as : List Expr) : x.expr ≠ .fn f as := by cases x <;> simp [Atom.expr]

theorem Atom.ne_const (x : Atom) (c : Int) : x.expr ≠ .const c := by cases x <;> simp [Atom.expr]

theorem Atom.notConstant (x : Atom) : isConstant x.expr = false := by cases x <;> simp [Atom.expr, isConstant]

theorem Atom.notLiteral (x : Atom) : isLiteral x.expr = false := by cases x <;> simp [Atom.expr, isLiteral]

/-- A factor of a monomial: a constant or a power of a value. -/
inductive Item
  | const (c : Int)
  | fac (x : Atom) (k : Nat)
  deriving DecidableEq

/-- The expression of a factor. -/
def Item.expr : Item → Expr
  | .const c => .const c
  | .fac x k => if k = 1 then x.expr else powerOf x.expr (.const k)

/-- Factors that can stand in a product. -/
def Item.Ok : Item → Prop
  | .const c => c ≠ 0 ∧ c ≠ 1
  | .fac _ k => 1 ≤ k

/-- Whether a factor is a constant. -/
def Item.isC : Item → Bool
  | .const _ => true
  | .fac .. => false

/-- The order of factors. -/
def Item.lt (a b : Item) : Bool := Expr.lt a.expr b.expr

/-- The product of like factors. -/
def Item.comb : Item → Item → Option (List Item)
  | .const c, .const d => some (if c * d = 1 then [] else [.const (c * d)])
  | .fac x k, .fac y j => if x = y then some [.fac x (k + j)] else none
  | _, _ => none

theorem Item.expr_const {a : Item} {c : Int} (h : a.expr = .const c) : a = .const c := by
  cases a with
  | const d => simpa [Item.expr] using h
  | fac x k =>
    simp only [Item.expr] at h
    split at h
    · exact absurd h (x.ne_const c)
    · simp at h

theorem Item.inj {a b : Item} (h : a.expr = b.expr) : a = b := by
  cases a with
  | const c => exact (Item.expr_const (h.symm.trans rfl)).symm
  | fac x k =>
    cases b with
    | const c => exact Item.expr_const (h.trans rfl)
    | fac y j =>
      simp only [Item.expr] at h
      split at h <;> split at h
      · subst_vars; rw [Atom.inj h]
      · exact absurd h (x.ne_fn _ _)
      · exact absurd h.symm (y.ne_fn _ _)
      · simp only [powerOf, Expr.fn.injEq, List.cons.injEq, true_and, Expr.const.injEq, and_true, Nat.cast_inj] at h
        rw [Atom.inj h.1, h.2]

theorem Item.notAdd (a : Item) : asAdd a.expr = none := by
  rcases a with c | ⟨x, k⟩
  · rfl
  · simp only [Item.expr]; split
    · cases x <;> rfl
    · rfl

theorem Item.notMul (a : Item) : asMul a.expr = none := by
  rcases a with c | ⟨x, k⟩
  · rfl
  · simp only [Item.expr]; split
    · cases x <;> rfl
    · rfl

theorem Item.notRecip (a : Item) : asRecip a.expr = none := by
  rcases a with c | ⟨x, k⟩
  · rfl
  · simp only [Item.expr]; split
    · cases x <;> rfl
    · cases x <;> rfl

theorem Item.ne_mul (a : Item) (as : List Expr) : a.expr ≠ .fn .mul as := by
  rcases a with c | ⟨x, k⟩
  · simp [Item.expr]
  · simp only [Item.expr]; split
    · exact x.ne_fn _ _
    · simp

theorem Item.ne_add (a : Item) (as : List Expr) : a.expr ≠ .fn .add as := by
  rcases a with c | ⟨x, k⟩
  · simp [Item.expr]
  · simp only [Item.expr]; split
    · exact x.ne_fn _ _
    · simp

theorem Item.constant (a : Item) : isConstant a.expr = a.isC := by
  rcases a with c | ⟨x, k⟩
  · rfl
  · simp only [Item.expr]; split
    · exact x.notConstant
    · simp [isConstant, isConstantAll, x.notConstant, Item.isC]

theorem lt_const_const (c d : Int) : lt (.const c) (.const d) = decide (c < d) := by
  rw [lt_num (by trivial) (by trivial)]; rfl

theorem lt_const_atom (c : Int) (x : Atom) : lt (.const c) x.expr = true := by
  rw [lt_num (by trivial) x.num]; cases x <;> rfl

theorem lt_atom_const (c : Int) (x : Atom) : lt x.expr (.const c) = false := by
  rw [lt_num x.num (by trivial)]; cases x <;> rfl

theorem Item.lt_const (c : Int) (x : Atom) (k : Nat) : Expr.lt (.const c) (Item.fac x k).expr = true := by
  simp only [Item.expr]; split
  · exact lt_const_atom c x
  · rw [lt_leaf_fn (by simp)]; rfl

theorem Item.not_lt_const (c : Int) (x : Atom) (k : Nat) : Expr.lt (Item.fac x k).expr (.const c) = false := by
  simp only [Item.expr]; split
  · exact lt_atom_const c x
  · rw [lt_fn_leaf (by simp)]; rfl

theorem Item.lt_fac (x y : Atom) (k j : Nat) (h : Expr.lt x.expr y.expr = true) :
    Expr.lt (Item.fac x k).expr (Item.fac y j).expr = true := by
  simp only [Item.expr]
  split <;> split
  · exact h
  · rw [lt_leaf_fn x.ne_fn, h]; simp
  · rw [lt_fn_leaf y.ne_fn, h, y.notLiteral]; rfl
  · rw [lt_fn_fn, ltArgs_many _ _ _ _ _ _ x.notConstant y.notConstant, h]; simp

/-- Different factors are ordered. -/
theorem Item.total {a b : Item} (h : a ≠ b) (hl : lt a b = false) : lt b a = true := by
  unfold lt at *
  rcases a with c | ⟨x, k⟩ <;> rcases b with d | ⟨y, j⟩
  · simp only [Item.expr, lt_const_const, decide_eq_false_iff_not, decide_eq_true_eq] at *
    simp only [ne_eq, Item.const.injEq] at h
    omega
  · rw [show (Item.const c).expr = .const c from rfl, Item.lt_const] at hl
    cases hl
  · exact Item.lt_const _ _ _
  · rcases lt_total_num x.num y.num with h1 | h1 | h1
    · rw [Item.lt_fac x y k j h1] at hl; cases hl
    · cases Atom.inj h1
      have hkj : k ≠ j := fun e => h (by rw [e])
      simp only [Item.expr] at hl ⊢
      by_cases hk : k = 1
      · rw [if_pos hk, if_neg (by omega), lt_leaf_fn x.ne_fn, lt_irrefl'] at hl
        simp at hl
      · by_cases hj : j = 1
        · rw [if_pos hj, if_neg hk, lt_leaf_fn x.ne_fn, lt_irrefl']
          simp
        · rw [if_neg hk, if_neg hj, lt_fn_fn, ltArgs_many _ _ _ _ _ _ x.notConstant x.notConstant, lt_irrefl', ltArgs_one,
            lt_const_const] at hl ⊢
          simp at hl ⊢
          omega
    · exact Item.lt_fac y x j k h1

theorem Item.laws : MergeLaws Item.lt Item.comb where
  small := by
    intro a b E h
    rcases a with c | ⟨x, k⟩ <;> rcases b with d | ⟨y, j⟩ <;> simp only [Item.comb] at h
    · simp only [Option.some.injEq] at h
      subst h
      split <;> simp
    · cases h
    · cases h
    · split at h
      · simp only [Option.some.injEq] at h; subst h; simp
      · cases h
  symm := by
    intro a b h
    rcases a with c | ⟨x, k⟩ <;> rcases b with d | ⟨y, j⟩ <;> simp only [Item.comb] at h ⊢
    · cases h
    · split at h
      · cases h
      · next hn => rw [if_neg (Ne.symm hn)]
  total := by
    intro a b h hl
    unfold lt at *
    rcases a with c | ⟨x, k⟩ <;> rcases b with d | ⟨y, j⟩ <;> simp only [Item.comb] at h
    · cases h
    · rw [show (Item.const c).expr = .const c from rfl, Item.lt_const] at hl
      cases hl
    · exact Item.lt_const _ _ _
    · split at h
      · cases h
      · next hn =>
        rcases lt_total_num x.num y.num with h1 | h1 | h1
        · rw [Item.lt_fac x y k j h1] at hl; cases hl
        · exact absurd (Atom.inj h1) hn
        · exact Item.lt_fac y x j k h1

/-! ## Constants -/

theorem limit_pow_const {c : Int} (h0 : c ≠ 0) (h1 : c ≠ 1) (h : (c * c).natAbs < B) :
    limit .pow (.const c) (.const 2) = some (.const (c * c)) := by
  apply limit_rules
  have hc : c.natAbs < B := by
    rw [Int.natAbs_mul] at h
    exact lt_of_le_of_lt (Nat.le_mul_of_pos_left _ (by omega)) h
  have hp : simplerIpow c 2 = some (.const (c * c)) := by
    unfold simplerIpow
    have := ipow_nat c (by unfold B at hc; omega) 2 66 (by omega)
    rw [show ((2 : Nat) : Int) = 2 from rfl] at this
    rw [this, pow_two, i64_fits h]
    rfl
  simp only [rulesOf, powRules, applyRules, powMisc1, powMisc2, powMisc3, asConst, Expr.const.injEq, h0, h1, if_false,
    half, recip, powerOf, reduceCtorEq]
  have h2 : iabs 2 = some 2 := rfl
  simp only [show (2 : Int) ≠ 0 from by decide, show (2 : Int) ≠ 1 from by decide, if_false, h2, Option.bind_eq_bind, Option.bind_some, hp]
  by_cases hm : c = -1
  · subst hm; rfl
  · simp [hm]

theorem limit_mul_const {c d : Int} (h : (c * d).natAbs < B) :
    limit .mul (.const c) (.const d) = some (.const (c * d)) := by
  apply limit_rules
  simp only [rulesOf, mulRules, applyRules, mulZero, Expr.const.injEq]
  by_cases h0 : c = 0 ∨ d = 0
  · rw [if_pos h0]
    rcases h0 with rfl | rfl <;> simp
  rw [if_neg h0]
  push Not at h0
  by_cases h1 : c = 1
  · subst h1; simp [mulOne]
  by_cases h2 : d = 1
  · subst h2; simp [mulOne, h1]
  simp only [mulOne, Expr.const.injEq, h1, h2, if_false, mulDistribute, asAdd, mulHelper, asMul, mulCollect1]
  by_cases h3 : c = d
  · subst h3
    simp [limit_pow_const h0.1 h1 h, fire]
  · simp [h3, mulCollect2, mulCollect3, asPower, mulConst1, asConst, mkConst_fits h, fire]

theorem limit_add_const {c d : Int} (hc : (c + d).natAbs < B) :
    limit .add (.const c) (.const d) = some (.const (c + d)) := by
  apply limit_rules
  simp only [rulesOf, addRules, applyRules, addZero, Expr.const.injEq]
  by_cases h0 : c = 0
  · subst h0; simp
  by_cases h1 : d = 0
  · subst h1; simp [h0]
  simp only [h0, h1, if_false, addHelper, asAdd, addCollect1, Expr.const.injEq]
  by_cases h3 : c = d
  · subst h3
    rw [if_pos rfl, limit_mul_const (by rw [two_mul]; exact hc), two_mul]; rfl
  · simp [h3, addCollect2, addCollect3, addCollect4, addCollect5, addCollect6, addCollect7, asConst, addConst1, mkConst_fits hc, fire]

/-! ## Powers of values -/

theorem limit_pow_atom (x : Atom) {k : Int} (hk : 2 ≤ k) :
    limit .pow x.expr (.const k) = some (powerOf x.expr (.const k)) := by
  apply limit_rules
  have h1 : asConst x.expr = none := by cases x <;> rfl
  have h2 : asMul x.expr = none := by cases x <;> rfl
  have h3 : asPower x.expr = none := by cases x <;> rfl
  simp [rulesOf, powRules, applyRules, powMisc1, powMisc2, powMisc3, x.ne_const, powDistribute, h1, h2, h3,
    show k ≠ 0 by omega, show k ≠ 1 by omega]

theorem Item.expr_pow (x : Atom) {k : Nat} (hk : 2 ≤ k) : (Item.fac x k).expr = powerOf x.expr (.const k) := by
  simp only [Item.expr]
  rw [if_neg (by omega)]

theorem limit_pow_fac (x : Atom) {k : Nat} (hk : 1 ≤ k) (h : k + k < B) :
    limit .pow (Item.fac x k).expr (.const 2) = some (Item.fac x (k + k)).expr := by
  by_cases h1 : k = 1
  · subst h1
    exact limit_pow_atom x (by omega)
  · rw [Item.expr_pow x (by omega), Item.expr_pow x (by omega)]
    apply limit_rules
    have h2 : limit .mul (.const k) (.const 2) = some (.const (k * 2)) := limit_mul_const (by omega)
    have h3 : limit .pow x.expr (.const (k * 2)) = _ := limit_pow_atom x (by omega)
    have e : ((k + k : Nat) : Int) = k * 2 := by push_cast; ring
    simp only [rulesOf, powRules, applyRules, powMisc1, powMisc2, powMisc3, powerOf, reduceCtorEq, if_false, asConst,
      Expr.const.injEq, OfNat.ofNat_ne_zero, OfNat.ofNat_ne_one, powDistribute, asMul, asPower, h2, h3, e,
      Option.bind_eq_bind, Option.bind_some, fire, Option.map_some]

/-! ## The rules on the leading factors -/

/-- The first rule that applies, if any. -/
def firstOf : List Rule → Rule
  | [], _, _ => some none
  | R :: L, l, r =>
    match R l r with
    | none => none
    | some (some e) => some (some e)
    | some none => firstOf L l r

/-- What the helper of the products does after the rule. -/
noncomputable def mulTail (l r e : Expr) : Option Expr :=
  match asMul l, asMul r with
  | none, none => some e
  | none, some (_, bs) => do limit .mul e (← mkMul bs)
  | some (_, as), none => do limit .mul e (← mkMul as)
  | some (_, as), some (_, bs) => do limit .mul e (← limit .mul (← mkMul as) (← mkMul bs))

/-- The leading factor. -/
def mulHead (l : Expr) : Expr :=
  match asMul l with
  | none => l
  | some (a, _) => a

theorem mulHelper_eq (R : Rule) (l r : Expr) : mulHelper limit R l r =
    match R (mulHead l) (mulHead r) with
    | none => none
    | some none => some none
    | some (some e) => fire (mulTail l r e) := by
  rcases h1 : asMul l with _ | ⟨a, as⟩ <;> rcases h2 : asMul r with _ | ⟨b, bs⟩ <;>
    simp only [mulHelper, h1, h2, mulHead, mulTail]
  · rcases R l r with _ | _ | e <;> rfl
  · rcases R l b with _ | _ | e <;> rfl
  · rcases R a r with _ | _ | e <;> rfl
  · rcases R a b with _ | _ | e <;> rfl

theorem mulHelper_first {L : List Rule} {l r e : Expr} (h : firstOf L (mulHead l) (mulHead r) = some (some e))
    {w : Expr} (hw : mulTail l r e = some w) (L' : List Rule) :
    applyRules (L.map (mulHelper limit) ++ L') l r = some w := by
  induction L with
  | nil => simp [firstOf] at h
  | cons R L ih =>
    simp only [List.map_cons, List.cons_append, applyRules, mulHelper_eq]
    simp only [firstOf] at h
    rcases hR : R (mulHead l) (mulHead r) with _ | _ | e'
    · simp [hR] at h
    · rw [hR] at h; exact ih h
    · rw [hR] at h
      simp only [Option.some.injEq] at h
      subst h
      simp [hw, fire]

theorem mulHelper_skip {L : List Rule} {l r : Expr} (h : firstOf L (mulHead l) (mulHead r) = some none)
    (L' : List Rule) : applyRules (L.map (mulHelper limit) ++ L') l r = applyRules L' l r := by
  induction L with
  | nil => rfl
  | cons R L ih =>
    simp only [List.map_cons, List.cons_append, applyRules, mulHelper_eq]
    simp only [firstOf] at h
    rcases hR : R (mulHead l) (mulHead r) with _ | _ | e'
    · simp [hR] at h
    · rw [hR] at h; exact ih h
    · simp [hR] at h

/-- The coefficient of a factor. -/
def Item.coef : Item → Int
  | .const c => c
  | .fac .. => 1

/-- The degree of a factor. -/
def Item.deg : Item → Nat
  | .const _ => 0
  | .fac _ k => k

/-- The product of the given factors. -/
def prodE : List Expr → Expr
  | [] => .const 1
  | [a] => a
  | as => .fn .mul as

/-- The product of the given factors. -/
def prodL (X : List Item) : Expr := prodE (X.map Item.expr)

/-- The rules for the leading factors. -/
noncomputable def headRules : List Rule := [mulCollect1 limit, mulCollect2 limit, mulCollect3 limit, mulConst1 limit]

theorem asPower_atom (x : Atom) : asPower x.expr = none := by cases x <;> rfl

theorem asConst_atom (x : Atom) : asConst x.expr = none := by cases x <;> rfl

theorem firstOf_comb {a b : Item} {E : List Item} (ha : a.Ok) (hb : b.Ok) (h : Item.comb a b = some E)
    (hc : (a.coef * b.coef).natAbs < B) (hd : a.deg + b.deg < B) :
    firstOf headRules a.expr b.expr = some (some (prodL E)) := by
  rcases a with c | ⟨x, k⟩ <;> rcases b with d | ⟨y, j⟩ <;> simp only [Item.comb, reduceCtorEq] at h
  · simp only [Option.some.injEq] at h
    subst h
    simp only [Item.coef] at hc
    have e : prodL (if c * d = 1 then [] else [Item.const (c * d)]) = .const (c * d) := by
      split
      · next h1 => rw [h1]; rfl
      · rfl
    rw [e]
    simp only [headRules, firstOf, Item.expr, mulCollect1, Expr.const.injEq]
    by_cases h1 : c = d
    · subst h1
      rw [if_pos rfl, limit_pow_const ha.1 ha.2 hc]
      rfl
    · simp [h1, mulCollect2, mulCollect3, asPower, mulConst1, asConst, mkConst_fits hc, fire]
  · split at h
    · next hx =>
      subst hx
      simp only [Option.some.injEq] at h
      subst h
      simp only [Item.deg] at hd
      simp only [Item.Ok] at ha hb
      have hres : limit .pow x.expr (.const (k + j)) = some (Item.fac x (k + j)).expr := by
        rw [Item.expr_pow x (by omega)]
        have := limit_pow_atom x (k := k + j) (by omega)
        simpa using this
      have hadd : limit .add (.const k) (.const j) = some (.const (k + j)) := limit_add_const (by omega)
      show _ = some (some (Item.fac x (k + j)).expr)
      simp only [headRules, firstOf, mulCollect1]
      by_cases h1 : k = j
      · subst h1
        rw [if_pos rfl, limit_pow_fac x ha hd]
        rfl
      · rw [if_neg (fun h => h1 (by have := Item.inj h; simpa using this))]
        simp only
        by_cases hk : k = 1
        · subst hk
          rw [Item.expr_pow x (k := j) (by omega)]
          simp only [Item.expr, if_true, mulCollect2, asPower_atom, asPower, powerOf]
          simp only [Nat.cast_one] at hadd hres
          simp only [hadd, hres, Option.bind_eq_bind, Option.bind_some, fire, Option.map_some]
          cases x <;> rfl
        · rw [Item.expr_pow x (k := k) (by omega)]
          by_cases hj : j = 1
          · subst hj
            simp only [Nat.cast_one] at hadd hres
            simp only [Item.expr, if_true, mulCollect2, asPower, powerOf, hadd, hres, Option.bind_eq_bind, Option.bind_some, fire, Option.map_some]
          · rw [Item.expr_pow x (k := j) (by omega)]
            simp only [mulCollect2, asPower, powerOf, (x.ne_fn _ _), (Ne.symm (x.ne_fn _ _)), x.ne_fn, if_false, mulCollect3, if_true, hadd, hres, Option.bind_eq_bind, Option.bind_some, fire, Option.map_some]
    · cases h

theorem Item.asPower_fac (x : Atom) (k : Nat) : asPower (Item.fac x k).expr = none ∨ asPower (Item.fac x k).expr = some (x.expr, .const k) := by
  simp only [Item.expr]
  split
  · exact .inl (asPower_atom x)
  · exact .inr rfl

theorem Item.base_ne {x y : Atom} (h : x ≠ y) (k : Nat) : x.expr ≠ (Item.fac y k).expr := by
  simp only [Item.expr]
  split
  · exact fun e => h (Atom.inj e)
  · exact x.ne_fn _ _

theorem Item.asConst_fac (x : Atom) (k : Nat) : asConst (Item.fac x k).expr = none := by
  simp only [Item.expr]
  split
  · exact asConst_atom x
  · rfl

theorem firstOf_none {a b : Item} (h : Item.comb a b = none) : firstOf headRules a.expr b.expr = some none := by
  rcases a with c | ⟨x, k⟩ <;> rcases b with d | ⟨y, j⟩ <;> simp only [Item.comb, reduceCtorEq] at h
  · have h1 : Expr.const c ≠ (Item.fac y j).expr := fun e => by have := Item.expr_const e.symm; simp at this
    have h2 : asPower (Expr.const c) = none := rfl
    have h3 : asRecip (Expr.const c) = none := rfl
    rcases Item.asPower_fac y j with h4 | h4 <;>
    simp [headRules, firstOf, show (Item.const c).expr = .const c from rfl, mulCollect1, h1, mulCollect2, mulCollect3, h2, h3, h4, mulConst1,
      Item.asConst_fac, y.ne_const]
  · have h1 : (Item.fac x k).expr ≠ Expr.const d := fun e => by have := Item.expr_const e; simp at this
    have h2 : asPower (Expr.const d) = none := rfl
    have h3 : asRecip (Expr.const d) = none := rfl
    rcases Item.asPower_fac x k with h4 | h4 <;>
    simp [headRules, firstOf, show (Item.const d).expr = .const d from rfl, mulCollect1, h1, mulCollect2, mulCollect3, h2, h3, h4, mulConst1,
      Item.asConst_fac, x.ne_const]
  · split at h
    · cases h
    · next hn =>
      have h1 : (Item.fac x k).expr ≠ (Item.fac y j).expr := fun e => by have := Item.inj e; simp at this; exact hn this.1
      have h5 : x.expr ≠ y.expr := fun e => hn (Atom.inj e)
      rcases Item.asPower_fac x k with h4 | h4 <;> rcases Item.asPower_fac y j with h6 | h6 <;>
      simp [headRules, firstOf, mulCollect1, h1, mulCollect2, mulCollect3, h4, h6, h5, mulConst1, Item.asConst_fac,
        Item.base_ne hn, Item.base_ne (Ne.symm hn), Item.notRecip]

/-! ## Products of lists of factors -/

theorem asMul_one (a : Item) : asMul (prodL [a]) = none := a.notMul

theorem asMul_many (a b : Item) (as : List Item) :
    asMul (prodL (a :: b :: as)) = some (a.expr, (b :: as).map Item.expr) := rfl

theorem mulHead_prodL (a : Item) (as : List Item) : mulHead (prodL (a :: as)) = a.expr := by
  cases as with
  | nil => rw [mulHead, asMul_one]; rfl
  | cons b as => rfl

theorem mkMul_prodL {a : Item} {as : List Item} (h : ∀ x ∈ a :: as, x.Ok) :
    mkMul ((a :: as).map Item.expr) = some (prodL (a :: as)) := by
  have h0 : ∀ c : Int, (c = 0 ∨ c = 1) → Expr.const c ∉ (a :: as).map Item.expr := by
    intro c hc hm
    obtain ⟨x, hx, e⟩ := List.mem_map.1 hm
    rw [Item.expr_const e] at hx
    have := h _ hx
    simp only [Item.Ok] at this
    omega
  cases as with
  | nil => rfl
  | cons b as =>
    simp only [List.map_cons] at h0 ⊢
    rw [mkMul]
    · rw [if_neg]
      · rfl
      · simp only [Bool.or_eq_true, List.contains_iff_mem]
        rintro (h1 | h1)
        · exact h0 0 (.inl rfl) h1
        · exact h0 1 (.inr rfl) h1
    all_goals simp

theorem prodL_ne_const {X : List Item} (hX : X ≠ []) (h : ∀ x ∈ X, x.Ok) {c : Int} (hc : c = 0 ∨ c = 1) :
    prodL X ≠ .const c := by
  match X with
  | [] => exact absurd rfl hX
  | [a] =>
    intro e
    have : a = .const c := Item.expr_const e
    subst this
    have := h _ (List.mem_singleton.2 rfl)
    simp only [Item.Ok] at this
    omega
  | a :: b :: as => simp [prodL, prodE]

theorem prodL_ne_zero {X : List Item} (h : ∀ x ∈ X, x.Ok) : prodL X ≠ .const 0 := by
  cases X with
  | nil => simp [prodL, prodE]
  | cons a as => exact prodL_ne_const (by simp) h (.inl rfl)

theorem asAdd_prodL (X : List Item) : asAdd (prodL X) = none := by
  match X with
  | [] => rfl
  | [a] => exact a.notAdd
  | a :: b :: as => rfl

theorem asRecip_prodL (X : List Item) : asRecip (prodL X) = none := by
  match X with
  | [] => rfl
  | [a] => exact a.notRecip
  | a :: b :: as => rfl

/-- The rules after the first three. -/
theorem mul_rules {X Y : List Item} (hX : X ≠ []) (hY : Y ≠ []) (h1 : ∀ x ∈ X, x.Ok) (h2 : ∀ x ∈ Y, x.Ok) {e : Expr}
    (h : applyRules (headRules.map (mulHelper limit) ++ [mulConst2 limit, mulMergeLt limit, mulMergeGt limit, mulMergeEq limit])
      (prodL X) (prodL Y) = some e) : limit .mul (prodL X) (prodL Y) = some e := by
  apply limit_rules
  simp only [rulesOf, mulRules]
  rw [applyRules]
  simp only [mulZero, prodL_ne_zero h1, prodL_ne_zero h2, or_self, if_false]
  rw [applyRules]
  simp only [mulOne, prodL_ne_const hX h1 (.inr rfl), prodL_ne_const hY h2 (.inr rfl), if_false]
  rw [applyRules]
  simp only [mulDistribute, asAdd_prodL]
  exact h

theorem mul_merge {a b : Item} {as bs : List Item} (h1 : ∀ x ∈ a :: as, x.Ok) (h2 : ∀ x ∈ b :: bs, x.Ok)
    (hn : Item.comb a b = none) {e : Expr}
    (h : applyRules [mulMergeLt limit, mulMergeGt limit, mulMergeEq limit] (prodL (a :: as)) (prodL (b :: bs)) = some e) :
    limit .mul (prodL (a :: as)) (prodL (b :: bs)) = some e := by
  apply mul_rules (by simp) (by simp) h1 h2
  rw [mulHelper_skip (by rw [mulHead_prodL, mulHead_prodL]; exact firstOf_none hn)]
  rw [applyRules]
  have : mulConst2 limit (prodL (a :: as)) (prodL (b :: bs)) = some none := by
    unfold mulConst2
    rw [asRecip_prodL, asRecip_prodL]
    cases asConst (prodL (a :: as)) <;> rfl
  rw [this]
  exact h

theorem merge_nil {α : Type} {lt : α → α → Bool} {comb : α → α → Option (List α)} {X Z : List α}
    (h : Merge lt comb X [] Z) : Z = X := by
  cases h <;> rfl

theorem merge_nil' {α : Type} {lt : α → α → Bool} {comb : α → α → Option (List α)} {X Z : List α}
    (h : Merge lt comb [] X Z) : Z = X := by
  cases h <;> rfl

/-- The product of the constants. -/
def coefL (X : List Item) : Int := (X.map Item.coef).prod

/-- The sum of the exponents. -/
def degL (X : List Item) : Nat := (X.map Item.deg).sum

theorem coefL_cons (a : Item) (X : List Item) : coefL (a :: X) = a.coef * coefL X := by simp [coefL]

theorem degL_cons (a : Item) (X : List Item) : degL (a :: X) = a.deg + degL X := by simp [degL]

theorem Item.coef_ne {a : Item} (h : a.Ok) : a.coef ≠ 0 := by
  cases a with
  | const c => exact h.1
  | fac x k => simp [Item.coef]

theorem comb_ok {a b : Item} {E : List Item} (ha : a.Ok) (hb : b.Ok) (h : Item.comb a b = some E) :
    (∀ x ∈ E, x.Ok) ∧ coefL E = a.coef * b.coef ∧ degL E = a.deg + b.deg := by
  rcases a with c | ⟨x, k⟩ <;> rcases b with d | ⟨y, j⟩ <;> simp only [Item.comb, reduceCtorEq] at h
  · simp only [Option.some.injEq] at h
    subst h
    split
    · next h1 => simp [coefL, degL, Item.coef, Item.deg, h1]
    · next h1 =>
      refine ⟨?_, by simp [coefL, Item.coef], by simp [degL, Item.deg]⟩
      intro x hx
      rw [List.mem_singleton] at hx
      subst hx
      exact ⟨mul_ne_zero ha.1 hb.1, h1⟩
  · split at h
    · simp only [Option.some.injEq] at h
      subst h
      refine ⟨?_, by simp [coefL, Item.coef], by simp [degL, Item.deg]⟩
      intro x hx
      rw [List.mem_singleton] at hx
      subst hx
      simp only [Item.Ok] at ha ⊢
      omega
    · cases h

theorem natAbs_le {a b : Int} (ha : a ≠ 0) : b.natAbs ≤ (a * b).natAbs := by
  rw [Int.natAbs_mul]
  exact Nat.le_mul_of_pos_left _ (by omega)

/-- Products of monomials are computed by merging them. -/
theorem merge_mul {X Y Z : List Item} (h : Merge Item.lt Item.comb X Y Z) (hX : ∀ x ∈ X, x.Ok) (hY : ∀ x ∈ Y, x.Ok)
    (hc : (coefL X * coefL Y).natAbs < B) (hd : degL X + degL Y < B) :
    limit .mul (prodL X) (prodL Y) = some (prodL Z) ∧ (∀ x ∈ Z, x.Ok) ∧ coefL Z = coefL X * coefL Y ∧
      degL Z = degL X + degL Y := by
  induction h with
  | nilL Y =>
    refine ⟨?_, hY, by simp [coefL], by simp [degL]⟩
    apply limit_rules
    simp only [rulesOf, mulRules]
    rw [applyRules]
    simp only [mulZero, prodL_ne_zero hY, show prodL [] = .const 1 from rfl, Expr.const.injEq, one_ne_zero, or_self, if_false]
    rw [applyRules]
    simp [mulOne]
  | nilR X =>
    refine ⟨?_, hX, by simp [coefL], by simp [degL]⟩
    apply limit_rules
    simp only [rulesOf, mulRules]
    rw [applyRules]
    simp only [mulZero, prodL_ne_zero hX, show prodL [] = .const 1 from rfl, Expr.const.injEq, one_ne_zero, or_self, if_false]
    rw [applyRules]
    simp only [mulOne, if_true]
    split
    · next e => split at e <;> simp at e
    · next e => split at e <;> simp_all
    · next e => split at e <;> simp at e
  | @comb a as b bs E Z W h h1 h2 ih1 ih2 =>
    have ha := hX a (by simp)
    have hb := hY b (by simp)
    obtain ⟨k1, k2, k3⟩ := comb_ok ha hb h
    rw [coefL_cons, coefL_cons] at hc ⊢
    rw [degL_cons, degL_cons] at hd ⊢
    have e : a.coef * coefL as * (b.coef * coefL bs) = (a.coef * b.coef) * (coefL as * coefL bs) := by ring
    rw [e] at hc ⊢
    have hab : a.coef * b.coef ≠ 0 := mul_ne_zero (Item.coef_ne ha) (Item.coef_ne hb)
    have hX' := fun x hx => hX x (List.mem_cons_of_mem _ hx)
    have hY' := fun x hx => hY x (List.mem_cons_of_mem _ hx)
    obtain ⟨i1, i2, i3, i4⟩ := ih1 hX' hY' (lt_of_le_of_lt (natAbs_le hab) hc) (by omega)
    obtain ⟨j1, j2, j3, j4⟩ := ih2 k1 i2 (by rw [k2, i3]; exact hc) (by omega)
    refine ⟨?_, j2, by rw [j3, k2, i3], by rw [j4, k3, i4]; ring⟩
    have hne : coefL as * coefL bs ≠ 0 := by
      have : ∀ L : List Item, (∀ x ∈ L, x.Ok) → coefL L ≠ 0 := by
        intro L hL
        induction L with
        | nil => simp [coefL]
        | cons x L ih =>
          rw [coefL_cons]
          exact mul_ne_zero (Item.coef_ne (hL x (by simp))) (ih fun y hy => hL y (by simp [hy]))
      exact mul_ne_zero (this _ hX') (this _ hY')
    apply mul_rules (by simp) (by simp) hX hY
    refine mulHelper_first (e := prodL E) ?_ ?_ _
    · rw [mulHead_prodL, mulHead_prodL]
      refine firstOf_comb ha hb h (lt_of_le_of_lt ?_ hc) (by omega)
      rw [mul_comm (a.coef * b.coef)]
      exact natAbs_le hne
    · cases as with
      | nil =>
        cases bs with
        | nil =>
          cases merge_nil h1
          cases merge_nil h2
          simp only [mulTail, asMul_one]
        | cons b' bs =>
          cases merge_nil' h1
          simp only [mulTail, asMul_one, asMul_many, mkMul_prodL hY', Option.bind_eq_bind, Option.bind_some, j1]
      | cons a' as =>
        cases bs with
        | nil =>
          cases merge_nil h1
          simp only [mulTail, asMul_one, asMul_many, mkMul_prodL hX', Option.bind_eq_bind, Option.bind_some, j1]
        | cons b' bs =>
          simp only [mulTail, asMul_many, mkMul_prodL hX', mkMul_prodL hY', Option.bind_eq_bind, Option.bind_some, i1, j1]
  | @lt1 a b bs h hl =>
    refine ⟨?_, ?_, by simp [coefL], by simp [degL]⟩
    · apply mul_merge hX hY h
      have hok : ∀ x ∈ a :: b :: bs, x.Ok := by
        intro x hx
        rw [List.mem_cons] at hx
        rcases hx with rfl | hx
        · exact hX _ (by simp)
        · exact hY x hx
      have hk := mkMul_prodL hok
      have hl' : Expr.lt a.expr b.expr = true := hl
      rw [applyRules]
      cases bs with
      | nil =>
        simp only [List.map_cons, List.map_nil] at hk
        simp only [mulMergeLt, Item.notMul, show prodL [a] = a.expr from rfl, show prodL [b] = b.expr from rfl, hl', if_true,
          hk, fire, Option.map_some]
      | cons b' bs =>
        simp only [List.map_cons] at hk
        simp only [mulMergeLt, Item.notMul, asMul_many, show prodL [a] = a.expr from rfl, hl', if_true, List.map_cons,
          hk, fire, Option.map_some]
    · intro x hx
      rw [List.mem_cons] at hx
      rcases hx with rfl | hx
      · exact hX _ (by simp)
      · exact hY x hx
  | @lt2 a as b bs Z W h hl hn h1 h2 ih1 ih2 =>
    have ha := hX a (by simp)
    have hX' := fun x hx => hX x (List.mem_cons_of_mem _ hx)
    rw [coefL_cons, mul_assoc] at hc ⊢
    rw [degL_cons, add_assoc] at hd ⊢
    obtain ⟨i1, i2, i3, i4⟩ := ih1 hX' hY (lt_of_le_of_lt (natAbs_le (Item.coef_ne ha)) hc) (by omega)
    have e1 : coefL [a] = a.coef := by simp [coefL]
    have e2 : degL [a] = a.deg := by simp [degL]
    obtain ⟨j1, j2, j3, j4⟩ := ih2 (by intro x hx; rw [List.mem_singleton] at hx; subst hx; exact ha) i2
      (by rw [i3, e1]; exact hc) (by omega)
    refine ⟨?_, j2, by rw [j3, e1, i3], by rw [j4, e2, i4]⟩
    apply mul_merge hX hY h
    have hl' : Expr.lt a.expr b.expr = true := hl
    cases as with
    | nil => exact absurd rfl hn
    | cons a' as =>
      rw [applyRules]
      have j1' : limit .mul a.expr (prodL Z) = _ := j1
      cases bs with
      | nil =>
        simp only [mulMergeLt, Item.notMul, asMul_many, show prodL [b] = b.expr from rfl] at i1 ⊢
        simp only [hl', if_true, mkMul_prodL hX', Option.bind_eq_bind, Option.bind_some, i1, j1', fire, Option.map_some]
      | cons b' bs =>
        simp only [mulMergeLt, asMul_many, hl', if_true, mkMul_prodL hX', Option.bind_eq_bind, Option.bind_some, i1, j1', fire,
          Option.map_some]
  | @gt1 a as b h hl hg =>
    have hok : ∀ x ∈ b :: a :: as, x.Ok := by
      intro x hx
      rw [List.mem_cons] at hx
      rcases hx with rfl | hx
      · exact hY _ (by simp)
      · exact hX x hx
    refine ⟨?_, hok, by simp [coefL, mul_comm], by simp [degL]; ring⟩
    apply mul_merge hX hY h
    have hk := mkMul_prodL hok
    have hl' : Expr.lt a.expr b.expr = false := hl
    have hg' : Expr.lt b.expr a.expr = true := hg
    rw [applyRules]
    cases as with
    | nil =>
      simp only [List.map_cons, List.map_nil] at hk
      simp only [mulMergeLt, Item.notMul, show prodL [a] = a.expr from rfl, show prodL [b] = b.expr from rfl, hl',
        Bool.false_eq_true, if_false]
      rw [applyRules]
      have := a.notMul
      have := b.notMul
      simp only [mulMergeGt, *, if_true, fire, Option.map_some]
    | cons a' as =>
      simp only [List.map_cons] at hk
      simp only [mulMergeLt, Item.notMul, asMul_many, show prodL [b] = b.expr from rfl, hl', Bool.false_eq_true, if_false]
      rw [applyRules]
      have := b.notMul
      simp only [mulMergeGt, asMul_many, *, if_true, List.map_cons, fire, Option.map_some]
  | @gt2 a as b bs Z W h hl hg hn h1 h2 ih1 ih2 =>
    have hb := hY b (by simp)
    have hY' := fun x hx => hY x (List.mem_cons_of_mem _ hx)
    rw [coefL_cons b, mul_left_comm] at hc ⊢
    rw [degL_cons b, add_left_comm] at hd ⊢
    obtain ⟨i1, i2, i3, i4⟩ := ih1 hX hY' (lt_of_le_of_lt (natAbs_le (Item.coef_ne hb)) hc) (by omega)
    have e1 : coefL [b] = b.coef := by simp [coefL]
    have e2 : degL [b] = b.deg := by simp [degL]
    obtain ⟨j1, j2, j3, j4⟩ := ih2 (by intro x hx; rw [List.mem_singleton] at hx; subst hx; exact hb) i2
      (by rw [i3, e1]; exact hc) (by omega)
    refine ⟨?_, j2, by rw [j3, e1, i3], by rw [j4, e2, i4]⟩
    apply mul_merge hX hY h
    have hl' : Expr.lt a.expr b.expr = false := hl
    have hg' : Expr.lt b.expr a.expr = true := hg
    have j1' : limit .mul b.expr (prodL Z) = _ := j1
    cases bs with
    | nil => exact absurd rfl hn
    | cons b' bs =>
      rw [applyRules]
      cases as with
      | nil =>
        simp only [mulMergeLt, Item.notMul, asMul_many, show prodL [a] = a.expr from rfl, hl', Bool.false_eq_true, if_false] at i1 ⊢
        rw [applyRules]
        simp only [mulMergeGt, asMul_many, a.notMul, hg', if_true, mkMul_prodL hY', Option.bind_eq_bind, Option.bind_some, i1, j1',
          fire, Option.map_some]
      | cons a' as =>
        simp only [mulMergeLt, asMul_many, hl', Bool.false_eq_true, if_false]
        rw [applyRules]
        simp only [mulMergeGt, asMul_many, hg', if_true, mkMul_prodL hY', Option.bind_eq_bind, Option.bind_some, i1, j1', fire,
          Option.map_some]

end GATL.Total
