import Verif.Proofs.Mappings

/-!
# Expressions with integer values

A computable evaluator for expressions over integers and bitsets, to compute what a given expression denotes.
-/

namespace GATL

open Expr Spec

/-- Integers, bitsets and truth values. -/
inductive IntVal
  | num (x : Int)
  | bits (w : Word)
  | bool (b : Bool)
  deriving DecidableEq

namespace IntVal

noncomputable def cast : IntVal → Val
  | .num x => .num x
  | .bits w => .bits w
  | .bool b => .bool b

def sum : List (Option IntVal) → Option IntVal
  | [] => some (.num 0)
  | some (.num x) :: vs =>
    match sum vs with
    | some (.num s) => some (.num (x + s))
    | _ => none
  | _ :: _ => none

def prod : List (Option IntVal) → Option IntVal
  | [] => some (.num 1)
  | some (.num x) :: vs =>
    match prod vs with
    | some (.num s) => some (.num (x * s))
    | _ => none
  | _ :: _ => none

def interp : Name → List (Option IntVal) → Option IntVal
  | .reorderingSign, [some (.bits a), some (.bits b)] => some (.num (reorderingSign a b))
  | .countOneBits, [some (.bits a)] => some (.num (ones a))
  | .uminus, [some (.bits a)] => some (.bits (-a))
  | .dec, [some (.bits a)] => some (.bits (a - 1))
  | .band, [some (.bits a), some (.bits b)] => some (.bits (a &&& b))
  | .bor, [some (.bits a), some (.bits b)] => some (.bits (a ||| b))
  | .bxor, [some (.bits a), some (.bits b)] => some (.bits (a ^^^ b))
  | .equal, [some (.num a), some (.num b)] => some (.bool (a = b))
  | .equal, [some (.bits a), some (.bits b)] => some (.bool (a = b))
  | .lessOrEqual, [some (.num a), some (.num b)] => some (.bool (a ≤ b))
  | .logicalAnd, [some (.bool false), _] => some (.bool false)
  | .logicalAnd, [some (.bool true), some (.bool b)] => some (.bool b)
  | .logicalOr, [some (.bool true), _] => some (.bool true)
  | .logicalOr, [some (.bool false), some (.bool b)] => some (.bool b)
  | .ifElse, [some (.bool true), a, _] => a
  | .ifElse, [some (.bool false), _, b] => b
  | .mul, v :: vs => prod (v :: vs)
  | .add, v :: vs => sum (v :: vs)
  | _, _ => none

variable (v : Nat → Nat → Int) (b : Nat → Nat → Word)

mutual
def den : Expr → Option IntVal
  | .const c => some (.num c)
  | .value t i => some (.num (v t i))
  | .cbits w => some (.bits w)
  | .bitset t i => some (.bits (b t i))
  | .cbool c => some (.bool c)
  | .fn name args => interp name (denList args)
  | _ => none
def denList : List Expr → List (Option IntVal)
  | [] => []
  | a :: as => den a :: denList as
end

/-- The values of the first list are those of the second, where these are known. -/
def Knows : List (Option IntVal) → List (Option Val) → Prop := List.Forall₂ fun x y => ∀ i, x = some i → y = some i.cast

theorem sum_ok {xs : List (Option IntVal)} {ys : List (Option Val)} (h : Knows xs ys) :
    ∀ i, sum xs = some i → sumVals ys = some i.cast := by
  induction h with
  | nil => intro i hi; simp only [sum, Option.some.injEq] at hi; subst hi; simp [sumVals, cast]
  | cons h _ ih =>
    intro i hi
    unfold sum at hi
    split at hi
    · rename_i heq; simp at heq
    · rename_i heq
      simp only [List.cons.injEq] at heq
      obtain ⟨rfl, rfl⟩ := heq
      split at hi
      · rename_i s hs
        rw [h _ rfl]
        simp only [cast, sumVals, ih _ hs]
        simp only [Option.some.injEq] at hi
        subst hi
        simp [cast]
      · simp at hi
    · simp at hi

theorem prod_ok {xs : List (Option IntVal)} {ys : List (Option Val)} (h : Knows xs ys) :
    ∀ i, prod xs = some i → prodVals ys = some i.cast := by
  induction h with
  | nil => intro i hi; simp only [prod, Option.some.injEq] at hi; subst hi; simp [prodVals, cast]
  | cons h _ ih =>
    intro i hi
    unfold prod at hi
    split at hi
    · rename_i heq; simp at heq
    · rename_i heq
      simp only [List.cons.injEq] at heq
      obtain ⟨rfl, rfl⟩ := heq
      split at hi
      · rename_i s hs
        rw [h _ rfl]
        simp only [cast, prodVals, ih _ hs]
        simp only [Option.some.injEq] at hi
        subst hi
        simp [cast]
      · simp at hi
    · simp at hi

theorem interp_ok {name : Name} {xs : List (Option IntVal)} {ys : List (Option Val)} (h : Knows xs ys) (i : IntVal)
    (hi : interp name xs = some i) : Spec.interp name ys = some i.cast := by
  unfold interp at hi
  split at hi
  case h_17 =>
    obtain ⟨y, ys, rfl⟩ : ∃ y t, ys = y :: t := by cases h; exact ⟨_, _, rfl⟩
    exact prod_ok h _ hi
  case h_18 =>
    obtain ⟨y, ys, rfl⟩ : ∃ y t, ys = y :: t := by cases h; exact ⟨_, _, rfl⟩
    exact sum_ok h _ hi
  case h_19 => simp at hi
  case h_15 => 
    cases h with | cons h1 h => cases h with | cons h2 h => cases h with | cons h3 h => 
      cases h
      rw [h1 _ rfl]
      simp only [cast, Spec.interp]
      exact h2 _ hi
  case h_16 => 
    cases h with | cons h1 h => cases h with | cons h2 h => cases h with | cons h3 h => 
      cases h
      rw [h1 _ rfl]
      simp only [cast, Spec.interp]
      exact h3 _ hi
  all_goals
    simp only [Option.some.injEq] at hi
    subst hi
    cases h with | cons h1 h => ?_
    rw [h1 _ rfl]
    first
    | (cases h
       simp [cast, Spec.interp, ones_eq_card]
       done)
    | (cases h with | cons h2 h => ?_
       cases h
       first
       | rw [h2 _ rfl]; simp [cast, Spec.interp, orderSign_eq]; done
       | simp [cast, Spec.interp])

theorem denList_ok (as : List Expr) (h : ∀ a ∈ as, ∀ i, den v b a = some i →
    Spec.den ⟨fun t j => v t j, b⟩ a = some i.cast) : Knows (denList v b as) (Spec.denList ⟨fun t j => v t j, b⟩ as) := by
  induction as with
  | nil => exact .nil
  | cons a as ih =>
    exact .cons (h a (by simp)) (ih fun x hx => h x (by simp [hx]))

/-- What the evaluator computes is what the expression denotes. -/
theorem den_ok (e : Expr) (i : IntVal) (h : den v b e = some i) : Spec.den ⟨fun t j => v t j, b⟩ e = some i.cast := by
  induction e using Expr.rec (motive_2 := fun as => ∀ a ∈ as, ∀ i, den v b a = some i →
    Spec.den ⟨fun t j => v t j, b⟩ a = some i.cast) generalizing i with
  | fn name args ih =>
    rw [den] at h
    rw [Spec.den]
    exact interp_ok (denList_ok v b args ih) i h
  | nil => rename_i hx _ _; simp at hx
  | cons a as ih1 ih2 =>
    rename_i x hx i hi
    rcases List.mem_cons.1 hx with rfl | hx
    · exact ih1 i hi
    · exact ih2 x hx i hi
  | _ => simp [den] at h <;> (try subst h) <;> simp [Spec.den, cast]

/-- Numbers and blades of a sum of components. -/
def components (s : CSum) : Option (List (Int × Word)) := s.mapM fun c =>
  match den v b c.coef, den v b c.blade.bits with
  | some (.num x), some (.bits w) => some (x, w)
  | _, _ => none

theorem components_ok : ∀ (s : CSum) (l : List (Int × Word)), components v b s = some l →
    ∃ A : List (ℝ × TBlade), List.Forall₂ (CompDenotes ⟨fun t j => v t j, b⟩) s A ∧
      (A.map fun a => (Finsupp.single a.2.bits a.1 : MV ℝ)) = l.map fun c => Finsupp.single c.2 (c.1 : ℝ) := by
  intro s
  induction s with
  | nil => intro l h; simp [components] at h; subst h; exact ⟨[], .nil, rfl⟩
  | cons c s ih =>
    intro l h
    simp only [components, List.mapM_cons, Option.bind_eq_bind, Option.bind_eq_some_iff, Option.pure_def,
      Option.some.injEq] at h
    obtain ⟨⟨x, w⟩, hx, l', hl', rfl⟩ := h
    obtain ⟨A, hA, hs⟩ := ih l' hl'
    split at hx
    · rename_i x' w' h1 h2
      simp only [Option.some.injEq, Prod.mk.injEq] at hx
      obtain ⟨rfl, rfl⟩ := hx
      have e1 := den_ok v b _ _ h1
      have e2 := den_ok v b _ _ h2
      refine ⟨((x' : ℝ), match c.blade with | .const _ => .const w' | .dyn G _ => .dyn G w') :: A, .cons ⟨e1, ?_⟩ hA, ?_⟩
      · cases hb : c.blade with
        | const d => rw [hb] at h2; simp [Blade.bits, den] at h2; simp [BladeDenotes, h2]
        | dyn G e => rw [hb] at e2; exact ⟨w', e2, rfl⟩
      · rw [List.map_cons, List.map_cons, hs]
        congr 2
        cases c.blade <;> rfl
    · simp at hx

end IntVal
end GATL
