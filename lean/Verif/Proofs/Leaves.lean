import Verif.Model.Components
import Verif.Proofs.SimplifyProd

/-!
# The simplifier introduces no leaves but constants and no functions but sums, products and powers
-/

namespace GATL

open Expr

/-- Every result satisfies `Q`. -/
def OAll {α : Type} (Q : α → Prop) (o : Option α) : Prop := ∀ x, o = some x → Q x

theorem OAll.none {α : Type} {Q : α → Prop} : OAll Q none := by simp [OAll]

theorem OAll.some {α : Type} {Q : α → Prop} {a : α} (h : Q a) : OAll Q (some a) := by
  simpa [OAll] using h

theorem OAll.bind {α β : Type} {Q : α → Prop} {R : β → Prop} {o : Option α} {f : α → Option β}
    (h : OAll Q o) (hf : ∀ a, Q a → OAll R (f a)) : OAll R (o >>= f) := by
  intro x hx
  simp only [Option.bind_eq_bind, Option.bind_eq_some_iff] at hx
  obtain ⟨a, ha, hx⟩ := hx
  exact hf a (h a ha) x hx

theorem OAll.bind' {α β : Type} {R : β → Prop} {o : Option α} {f : α → Option β}
    (hf : ∀ a, OAll R (f a)) : OAll R (o >>= f) :=
  OAll.bind (Q := fun _ => True) (fun _ _ => trivial) fun a _ => hf a

section Leaves

variable (P : Expr → Prop) (N : Name → Prop) (E : Expr → Prop)

mutual
/-- Every leaf satisfies `P`, every function name satisfies `N`, every exponent satisfies `E`. -/
def Over : Expr → Prop
  | .fn name args => N name ∧ OverAll args ∧ (name = .power → ∀ l r, args = [l, r] → E r)
  | e => P e
/-- The same for every argument. -/
def OverAll : List Expr → Prop
  | [] => True
  | a :: as => Over a ∧ OverAll as
end

variable {P N E}

theorem overAll_iff {args : List Expr} : OverAll P N E args ↔ ∀ a ∈ args, Over P N E a := by
  induction args with
  | nil => simp [OverAll]
  | cons a as ih => simp [OverAll, ih]

theorem over_fn {name : Name} {args : List Expr} :
    Over P N E (.fn name args) ↔ N name ∧ (∀ a ∈ args, Over P N E a) ∧
      (name = .power → ∀ l r, args = [l, r] → E r) := by
  rw [Over, overAll_iff]

/-- Closed under the simplifier's vocabulary. -/
structure Voc (P : Expr → Prop) (N : Name → Prop) (E : Expr → Prop) : Prop where
  const : ∀ v, P (.const v)
  add : N .add
  mul : N .mul
  power : N .power
  econst : ∀ v, 0 < v → E (.const v)
  eneg : ∀ v, v ≤ 0 → E (.const v) → E (.const (-1))

variable (h : Voc P N E)
include h

theorem over_const (v : Int) : Over P N E (.const v) := by rw [Over]; exact h.const v; simp

theorem over_power {l r : Expr} (hl : Over P N E l) (hr : Over P N E r) (he : E r) :
    Over P N E (powerOf l r) := by
  rw [over_fn]; exact ⟨h.power, by simp [hl, hr], by simpa using he⟩

theorem over_mkAdd {args : List Expr} (ha : ∀ a ∈ args, Over P N E a) :
    OAll (Over P N E) (mkAdd args) := by
  unfold mkAdd
  split
  · exact .some (over_const h 0)
  · exact .some (ha _ (by simp))
  · split
    · exact .none
    · exact .some (over_fn.2 ⟨h.add, ha, by simp⟩)

theorem over_mkMul {args : List Expr} (ha : ∀ a ∈ args, Over P N E a) :
    OAll (Over P N E) (mkMul args) := by
  unfold mkMul
  split
  · exact .some (over_const h 0)
  · exact .some (ha _ (by simp))
  · split
    · exact .none
    · exact .some (over_fn.2 ⟨h.mul, ha, by simp⟩)

theorem over_mkConst (v : Int) : OAll (Over P N E) (mkConst v) := by
  intro e he
  simp only [mkConst, Option.map_eq_some_iff] at he
  obtain ⟨_, _, rfl⟩ := he
  exact over_const h _

omit h

theorem over_asAdd {e a : Expr} {as : List Expr} (ho : Over P N E e) (he : asAdd e = some (a, as)) :
    Over P N E a ∧ ∀ b ∈ as, Over P N E b := by
  unfold asAdd at he
  split at he
  · simp only [Option.some.injEq, Prod.mk.injEq] at he
    obtain ⟨rfl, rfl⟩ := he
    rw [over_fn] at ho
    exact ⟨ho.2.1 _ (by simp), fun b hb => ho.2.1 b (by simp [hb])⟩
  · simp at he

theorem over_asMul {e a : Expr} {as : List Expr} (ho : Over P N E e) (he : asMul e = some (a, as)) :
    Over P N E a ∧ ∀ b ∈ as, Over P N E b := by
  unfold asMul at he
  split at he
  · simp only [Option.some.injEq, Prod.mk.injEq] at he
    obtain ⟨rfl, rfl⟩ := he
    rw [over_fn] at ho
    exact ⟨ho.2.1 _ (by simp), fun b hb => ho.2.1 b (by simp [hb])⟩
  · simp at he

theorem over_asPower {e a p : Expr} (ho : Over P N E e) (he : asPower e = some (a, p)) :
    Over P N E a ∧ Over P N E p ∧ E p := by
  unfold asPower at he
  split at he
  · simp only [Option.some.injEq, Prod.mk.injEq] at he
    obtain ⟨rfl, rfl⟩ := he
    rw [over_fn] at ho
    exact ⟨ho.2.1 _ (by simp), ho.2.1 _ (by simp), ho.2.2 rfl _ _ rfl⟩
  · simp at he

theorem over_asRecip {e : Expr} {a : Int} (ho : Over P N E e) (he : asRecip e = some a) :
    E (.const (-1)) := by
  unfold asRecip at he
  split at he
  · rw [over_fn] at ho
    exact ho.2.2 rfl _ _ rfl
  · simp at he

theorem over_asRatio {e : Expr} {a : Int × Int} (ho : Over P N E e) (he : asRatio e = some a) :
    E (.const (-1)) := by
  unfold asRatio at he
  split at he
  · next a b =>
      rw [over_fn] at ho
      have := ho.2.1 (.fn .power [.const b, .const (-1)]) (by simp)
      rw [over_fn] at this
      exact this.2.2 rfl _ _ rfl
  · simp at he

/-- The metafunctions keep within the vocabulary. -/
structure SimpOver (P : Expr → Prop) (N : Name → Prop) (E : Expr → Prop) (S : Simp) : Prop where
  add : ∀ l r, Over P N E l → Over P N E r → OAll (Over P N E) (S .add l r)
  mul : ∀ l r, Over P N E l → Over P N E r → OAll (Over P N E) (S .mul l r)
  pow : ∀ l r, Over P N E l → Over P N E r → E r → OAll (Over P N E) (S .pow l r)
  eadd : ∀ l r, E l → E r → OAll E (S .add l r)
  emul : ∀ l r, E l → E r → OAll E (S .mul l r)

/-- A rule keeps within the vocabulary. -/
def RuleOver (P : Expr → Prop) (N : Name → Prop) (E : Expr → Prop) (R : Rule) : Prop :=
  ∀ l r, Over P N E l → Over P N E r → OAll (OAll (Over P N E)) (R l r)

/-- A rule for powers keeps within the vocabulary. -/
def PowOver (P : Expr → Prop) (N : Name → Prop) (E : Expr → Prop) (R : Rule) : Prop :=
  ∀ l r, Over P N E l → Over P N E r → E r → OAll (OAll (Over P N E)) (R l r)

theorem OAll.and {α : Type} {Q R : α → Prop} {o : Option α} (h : OAll Q o) (h' : OAll R o) :
    OAll (fun x => Q x ∧ R x) o := fun x hx => ⟨h x hx, h' x hx⟩

theorem OAll.fire {Q : Expr → Prop} {o : Option Expr} (ho : OAll Q o) : OAll (OAll Q) (fire o) := by
  intro x hx
  cases o with
  | none => simp [GATL.fire] at hx
  | some a =>
    simp only [GATL.fire, Option.map_some, Option.some.injEq] at hx
    subst hx
    exact .some (ho a rfl)

end Leaves

macro "ev" : tactic => `(tactic| first
  | assumption
  | (apply Voc.econst <;> first | assumption | decide))

macro "ov" : tactic => `(tactic| first
  | assumption
  | (apply over_const; assumption)
  | (simp_all only [List.mem_cons, forall_eq_or_imp, List.not_mem_nil, false_imp_iff, implies_true,
      and_self, over_fn, reduceCtorEq]; done)
  | (refine over_power ?_ ?_ ?_ ?_ <;> first
      | assumption | (apply over_const; assumption) | ev))

/-- Solve `OAll` goals of the rules. -/
macro "oall" h:ident hS:ident : tactic => `(tactic|
  repeat' first
    | exact OAll.none
    | (refine OAll.some OAll.none)
    | (refine OAll.some (OAll.some ?_); ov)
    | refine OAll.fire ?_
    | (refine OAll.bind (over_mkAdd $h (by ov)) fun _ _ => ?_)
    | (refine OAll.bind (over_mkMul $h (by ov)) fun _ _ => ?_)
    | (refine OAll.bind (over_mkConst $h _) fun _ _ => ?_)
    | (refine OAll.bind (OAll.and (SimpOver.add $hS _ _ (by ov) (by ov))
        (SimpOver.eadd $hS _ _ (by ev) (by ev))) fun _ ⟨_, _⟩ => ?_)
    | (refine OAll.bind (OAll.and (SimpOver.mul $hS _ _ (by ov) (by ov))
        (SimpOver.emul $hS _ _ (by ev) (by ev))) fun _ ⟨_, _⟩ => ?_)
    | (refine OAll.bind (SimpOver.add $hS _ _ (by ov) (by ov)) fun _ _ => ?_)
    | (refine OAll.bind (SimpOver.mul $hS _ _ (by ov) (by ov)) fun _ _ => ?_)
    | (refine OAll.bind (SimpOver.pow $hS _ _ (by ov) (by ov) (by ev)) fun _ _ => ?_)
    | (refine OAll.bind' fun _ => ?_)
    | exact over_mkAdd $h (by ov)
    | exact over_mkMul $h (by ov)
    | exact over_mkConst $h _
    | exact SimpOver.add $hS _ _ (by ov) (by ov)
    | exact SimpOver.mul $hS _ _ (by ov) (by ov)
    | exact SimpOver.pow $hS _ _ (by ov) (by ov) (by ev)
    | split)

section Rules

variable {P : Expr → Prop} {N : Name → Prop} (h : Voc P N E) {S : Simp} (hS : SimpOver P N E S)
include h hS

theorem addHelper_over {R : Rule} (hR : RuleOver P N E R) : RuleOver P N E (addHelper S R) := by
  intro l r hl hr
  unfold addHelper
  rcases el : asAdd l with _ | ⟨a, as⟩ <;> rcases er : asAdd r with _ | ⟨b, bs⟩
  · exact hR l r hl hr
  · have := over_asAdd hr er
    refine OAll.bind (hR _ _ hl this.1) fun o ho => ?_
    cases o with
    | none => exact .some .none
    | some e => have he := ho e rfl; obtain ⟨h1, h2⟩ := this; oall h hS
  · have := over_asAdd hl el
    refine OAll.bind (hR _ _ this.1 hr) fun o ho => ?_
    cases o with
    | none => exact .some .none
    | some e => have he := ho e rfl; obtain ⟨h1, h2⟩ := this; oall h hS
  · obtain ⟨h1, h2⟩ := over_asAdd hl el
    obtain ⟨h3, h4⟩ := over_asAdd hr er
    refine OAll.bind (hR _ _ h1 h3) fun o ho => ?_
    cases o with
    | none => exact .some .none
    | some e => have he := ho e rfl; oall h hS

theorem mulHelper_over {R : Rule} (hR : RuleOver P N E R) : RuleOver P N E (mulHelper S R) := by
  intro l r hl hr
  unfold mulHelper
  rcases el : asMul l with _ | ⟨a, as⟩ <;> rcases er : asMul r with _ | ⟨b, bs⟩
  · exact hR l r hl hr
  · have := over_asMul hr er
    refine OAll.bind (hR _ _ hl this.1) fun o ho => ?_
    cases o with
    | none => exact .some .none
    | some e => have he := ho e rfl; obtain ⟨h1, h2⟩ := this; oall h hS
  · have := over_asMul hl el
    refine OAll.bind (hR _ _ this.1 hr) fun o ho => ?_
    cases o with
    | none => exact .some .none
    | some e => have he := ho e rfl; obtain ⟨h1, h2⟩ := this; oall h hS
  · obtain ⟨h1, h2⟩ := over_asMul hl el
    obtain ⟨h3, h4⟩ := over_asMul hr er
    refine OAll.bind (hR _ _ h1 h3) fun o ho => ?_
    cases o with
    | none => exact .some .none
    | some e => have he := ho e rfl; oall h hS

theorem addCollect1_over : RuleOver P N E (addCollect1 S) := by
  intro l r hl hr; unfold addCollect1; oall h hS
theorem addCollect2_over : RuleOver P N E (addCollect2 S) := by
  intro l r hl hr; unfold addCollect2; oall h hS
theorem addCollect3_over : RuleOver P N E (addCollect3 S) := by
  intro l r hl hr; unfold addCollect3; oall h hS
theorem addCollect4_over : RuleOver P N E (addCollect4 S) := by
  intro l r hl hr; unfold addCollect4; oall h hS
theorem addCollect5_over : RuleOver P N E (addCollect5 S) := by
  intro l r hl hr; unfold addCollect5; oall h hS
theorem addCollect6_over : RuleOver P N E (addCollect6 S) := by
  intro l r hl hr; unfold addCollect6; oall h hS
theorem addCollect7_over : RuleOver P N E (addCollect7 S) := by
  intro l r hl hr; unfold addCollect7; oall h hS

theorem quotient_over (hr : E (.const (-1))) (n d : Option Int) : OAll (Over P N E) (quotient S n d) := by
  unfold quotient
  refine OAll.bind' fun _ => OAll.bind' fun _ => ?_
  oall h hS

theorem simplerRational_over (hr : E (.const (-1))) (n d : Int) : OAll (Over P N E) (simplerRational S n d) := by
  unfold simplerRational
  refine OAll.bind' fun _ => OAll.bind' fun _ => ?_
  simp only
  split
  · refine OAll.bind (hS.pow _ _ (over_const h _) (over_const h _) hr) fun e he => over_mkMul h ?_
    simp [he, over_const h]
  · oall h hS

theorem addConst2_over : RuleOver P N E (addConst2 S) := by
  intro l r hl hr; unfold addConst2
  repeat' first
    | exact .some .none
    | exact .fire (quotient_over h hS (over_asRecip hl (by assumption)) _ _)
    | exact .fire (quotient_over h hS (over_asRecip hr (by assumption)) _ _)
    | exact .fire (quotient_over h hS (over_asRatio hl (by assumption)) _ _)
    | split
theorem addConst3_over : RuleOver P N E (addConst3 S) := by
  intro l r hl hr; unfold addConst3
  repeat' first
    | exact .some .none
    | exact .fire (quotient_over h hS (over_asRecip hl (by assumption)) _ _)
    | exact .fire (quotient_over h hS (over_asRecip hr (by assumption)) _ _)
    | exact .fire (quotient_over h hS (over_asRatio hl (by assumption)) _ _)
    | split
theorem addConst4_over : RuleOver P N E (addConst4 S) := by
  intro l r hl hr; unfold addConst4
  repeat' first
    | exact .some .none
    | exact .fire (quotient_over h hS (over_asRecip hl (by assumption)) _ _)
    | exact .fire (quotient_over h hS (over_asRecip hr (by assumption)) _ _)
    | exact .fire (quotient_over h hS (over_asRatio hl (by assumption)) _ _)
    | split
theorem addConst5_over : RuleOver P N E (addConst5 S) := by
  intro l r hl hr; unfold addConst5
  repeat' first
    | exact .some .none
    | exact .fire (quotient_over h hS (over_asRecip hl (by assumption)) _ _)
    | exact .fire (quotient_over h hS (over_asRecip hr (by assumption)) _ _)
    | exact .fire (quotient_over h hS (over_asRatio hl (by assumption)) _ _)
    | split
theorem mulConst2_over : RuleOver P N E (mulConst2 S) := by
  intro l r hl hr; unfold mulConst2
  repeat' first
    | exact .some .none
    | exact .fire (simplerRational_over h hS (over_asRecip hl (by assumption)) _ _)
    | exact .fire (simplerRational_over h hS (over_asRecip hr (by assumption)) _ _)
    | exact .fire (simplerRational_over h hS (over_asRatio hl (by assumption)) _ _)
    | split
theorem addMergeLt_over : RuleOver P N E (addMergeLt S) := by
  intro l r hl hr
  unfold addMergeLt
  rcases el : asAdd l with _ | ⟨a, as⟩ <;> rcases er : asAdd r with _ | ⟨b, bs⟩
  · dsimp only; oall h hS
  · obtain ⟨h1, h2⟩ := over_asAdd hr er; dsimp only; oall h hS
  · obtain ⟨h1, h2⟩ := over_asAdd hl el; dsimp only; oall h hS
  · obtain ⟨h1, h2⟩ := over_asAdd hl el; obtain ⟨h3, h4⟩ := over_asAdd hr er; dsimp only; oall h hS
theorem addMergeGt_over : RuleOver P N E (addMergeGt S) := by
  intro l r hl hr
  unfold addMergeGt
  rcases el : asAdd l with _ | ⟨a, as⟩ <;> rcases er : asAdd r with _ | ⟨b, bs⟩
  · dsimp only; oall h hS
  · obtain ⟨h1, h2⟩ := over_asAdd hr er; dsimp only; oall h hS
  · obtain ⟨h1, h2⟩ := over_asAdd hl el; dsimp only; oall h hS
  · obtain ⟨h1, h2⟩ := over_asAdd hl el; obtain ⟨h3, h4⟩ := over_asAdd hr er; dsimp only; oall h hS
theorem addMergeEq_over : RuleOver P N E (addMergeEq S) := by
  intro l r hl hr
  unfold addMergeEq
  rcases el : asAdd l with _ | ⟨a, as⟩ <;> rcases er : asAdd r with _ | ⟨b, bs⟩
  · dsimp only; oall h hS
  · obtain ⟨h1, h2⟩ := over_asAdd hr er; dsimp only; oall h hS
  · obtain ⟨h1, h2⟩ := over_asAdd hl el; dsimp only; oall h hS
  · obtain ⟨h1, h2⟩ := over_asAdd hl el; obtain ⟨h3, h4⟩ := over_asAdd hr er; dsimp only; oall h hS
theorem mulDistribute_over : RuleOver P N E (mulDistribute S) := by
  intro l r hl hr
  unfold mulDistribute
  rcases el : asAdd l with _ | ⟨a, as⟩ <;> rcases er : asAdd r with _ | ⟨b, bs⟩
  · dsimp only; oall h hS
  · obtain ⟨h1, h2⟩ := over_asAdd hr er; dsimp only; oall h hS
  · obtain ⟨h1, h2⟩ := over_asAdd hl el; dsimp only; oall h hS
  · obtain ⟨h1, h2⟩ := over_asAdd hl el; obtain ⟨h3, h4⟩ := over_asAdd hr er; dsimp only; oall h hS
theorem mulMergeLt_over : RuleOver P N E (mulMergeLt S) := by
  intro l r hl hr
  unfold mulMergeLt
  rcases el : asMul l with _ | ⟨a, as⟩ <;> rcases er : asMul r with _ | ⟨b, bs⟩
  · dsimp only; oall h hS
  · obtain ⟨h1, h2⟩ := over_asMul hr er; dsimp only; oall h hS
  · obtain ⟨h1, h2⟩ := over_asMul hl el; dsimp only; oall h hS
  · obtain ⟨h1, h2⟩ := over_asMul hl el; obtain ⟨h3, h4⟩ := over_asMul hr er; dsimp only; oall h hS
theorem mulMergeGt_over : RuleOver P N E (mulMergeGt S) := by
  intro l r hl hr
  unfold mulMergeGt
  rcases el : asMul l with _ | ⟨a, as⟩ <;> rcases er : asMul r with _ | ⟨b, bs⟩
  · dsimp only; oall h hS
  · obtain ⟨h1, h2⟩ := over_asMul hr er; dsimp only; oall h hS
  · obtain ⟨h1, h2⟩ := over_asMul hl el; dsimp only; oall h hS
  · obtain ⟨h1, h2⟩ := over_asMul hl el; obtain ⟨h3, h4⟩ := over_asMul hr er; dsimp only; oall h hS
theorem mulMergeEq_over : RuleOver P N E (mulMergeEq S) := by
  intro l r hl hr
  unfold mulMergeEq
  rcases el : asMul l with _ | ⟨a, as⟩ <;> rcases er : asMul r with _ | ⟨b, bs⟩
  · dsimp only; oall h hS
  · obtain ⟨h1, h2⟩ := over_asMul hr er; dsimp only; oall h hS
  · obtain ⟨h1, h2⟩ := over_asMul hl el; dsimp only; oall h hS
  · obtain ⟨h1, h2⟩ := over_asMul hl el; obtain ⟨h3, h4⟩ := over_asMul hr er; dsimp only; oall h hS
theorem mulCollect2_over : RuleOver P N E (mulCollect2 S) := by
  intro l r hl hr
  unfold mulCollect2
  rcases el : asPower l with _ | ⟨a, as⟩ <;> rcases er : asPower r with _ | ⟨b, bs⟩
  · dsimp only; oall h hS
  · obtain ⟨h1, h2, h2'⟩ := over_asPower hr er; dsimp only; oall h hS
  · obtain ⟨h1, h2, h2'⟩ := over_asPower hl el; dsimp only; oall h hS
  · obtain ⟨h1, h2, h2'⟩ := over_asPower hl el; obtain ⟨h3, h4, h4'⟩ := over_asPower hr er; dsimp only; oall h hS
theorem mulCollect3_over : RuleOver P N E (mulCollect3 S) := by
  intro l r hl hr
  unfold mulCollect3
  rcases el : asPower l with _ | ⟨a, as⟩ <;> rcases er : asPower r with _ | ⟨b, bs⟩
  · dsimp only; oall h hS
  · obtain ⟨h1, h2, h2'⟩ := over_asPower hr er; dsimp only; oall h hS
  · obtain ⟨h1, h2, h2'⟩ := over_asPower hl el; dsimp only; oall h hS
  · obtain ⟨h1, h2, h2'⟩ := over_asPower hl el; obtain ⟨h3, h4, h4'⟩ := over_asPower hr er; dsimp only; oall h hS
theorem mulCollect1_over : RuleOver P N E (mulCollect1 S) := by
  intro l r hl hr; unfold mulCollect1; oall h hS
theorem mulConst1_over : RuleOver P N E (mulConst1 S) := by
  intro l r hl hr; unfold mulConst1
  split
  · exact .fire (over_mkConst h _)
  · split
    · have he := over_asRecip hl (by assumption)
      refine .fire (OAll.bind (over_mkConst h _) fun e ho => hS.pow _ _ ho (over_const h _) he)
    · exact .some .none

theorem powDistribute_over : PowOver P N E (powDistribute S) := by
  intro l r hl hr he
  unfold powDistribute
  rcases el : asMul l with _ | ⟨a, as⟩
  · rcases er : asPower l with _ | ⟨b, bs⟩
    · exact .some (.some (over_power h hl hr he))
    · obtain ⟨h1, h2, h2'⟩ := over_asPower hl er; oall h hS
  · obtain ⟨h1, h2⟩ := over_asMul hl el; oall h hS

omit hS

theorem addZero_over : RuleOver P N E addZero := by
  intro l r hl hr; unfold addZero
  split
  · exact .some (.some hr)
  · split
    · exact .some (.some hl)
    · exact .some .none

theorem addConst1_over : RuleOver P N E addConst1 := by
  intro l r hl hr; unfold addConst1
  split
  · exact .fire (over_mkConst h _)
  · exact .some .none

theorem mulZero_over : RuleOver P N E mulZero := by
  intro l r hl hr; unfold mulZero
  split
  · exact .some (.some (over_const h 0))
  · exact .some .none

theorem mulOne_over : RuleOver P N E mulOne := by
  intro l r hl hr; unfold mulOne
  split
  · exact .some (.some hr)
  · split
    · exact .some (.some hl)
    · exact .some .none

theorem powMisc1_over : PowOver P N E powMisc1 := by
  intro l r hl hr he; unfold powMisc1
  repeat' first
    | exact .some .none
    | exact .some (.some (over_const h _))
    | refine OAll.bind' fun _ => ?_
    | split

theorem powMisc2_over : PowOver P N E powMisc2 := by
  intro l r hl hr he; unfold powMisc2
  repeat' first
    | exact .some .none
    | exact .some (.some (over_const h _))
    | exact .some (.some hl)
    | split

theorem simplerIsqrt_over (hh' : Over P N E half) (hh : E half) (v : Int) : OAll (Over P N E) (simplerIsqrt v) := by
  unfold simplerIsqrt
  repeat' first
    | exact .none
    | exact .some (over_const h _)
    | exact .some (over_power h (over_const h _) hh' hh)
    | refine OAll.bind' fun _ => ?_
    | split

theorem simplerIpow_over (b e : Int) : OAll (Over P N E) (simplerIpow b e) := by
  intro x hx
  simp only [simplerIpow, Option.map_eq_some_iff] at hx
  obtain ⟨_, _, rfl⟩ := hx
  exact over_const h _

theorem powMisc3_over : PowOver P N E powMisc3 := by
  intro l r hl hr he; unfold powMisc3
  split
  · exact .some .none
  · split
    · next hh => exact .fire (simplerIsqrt_over h (hh ▸ hr) (hh ▸ he) _)
    · split
      · exact .some .none
      · next k hk =>
        refine OAll.bind' fun _ => OAll.bind (simplerIpow_over h _ _) fun p hp => ?_
        obtain rfl : r = .const k := by
          unfold asConst at hk
          split at hk <;> simp_all
        split
        · exact .some (.some (by split <;> exact over_const h _))
        · split
          · exact .some (.some hp)
          · refine .some (.some (over_power h hp (over_const h _) ?_))
            exact h.eneg k (by omega) he

omit h in
theorem applyRules_over {Q : Expr → Prop} {L : List Rule} {l r : Expr}
    (hL : ∀ R ∈ L, OAll (OAll Q) (R l r)) : OAll Q (applyRules L l r) := by
  induction L with
  | nil => exact .none
  | cons R L ih =>
    unfold applyRules
    split
    · exact .none
    · next e he => exact .some (hL R (by simp) _ he e rfl)
    · exact ih fun R hR => hL R (by simp [hR])

/-- The exponents are closed under sums and products. -/
def ExpClosed (E : Expr → Prop) : Prop :=
  ∀ n l r, E l → E r → OAll E (simp n .add l r) ∧ OAll E (simp n .mul l r)

/-- The simplifier introduces no leaves but constants and no functions but sums, products and
powers. -/
theorem simp_over (hE : ExpClosed E) (n : Nat) : SimpOver P N E (simp n) := by
  induction n with
  | zero => constructor <;> intros <;> exact .none
  | succ n hS =>
    refine ⟨fun l r hl hr => ?_, fun l r hl hr => ?_, fun l r hl hr he => ?_,
      fun l r hl hr => (hE _ l r hl hr).1, fun l r hl hr => (hE _ l r hl hr).2⟩
    all_goals refine applyRules_over ?_; intro R hR
    · suffices RuleOver P N E R from this l r hl hr
      simp only [rulesOf, addRules, List.mem_cons, List.not_mem_nil, or_false] at hR
      rcases hR with rfl | rfl | rfl | rfl | rfl | rfl | rfl | rfl | rfl | rfl | rfl | rfl | rfl |
        rfl | rfl | rfl
      · exact addZero_over h
      · exact addHelper_over h hS (addCollect1_over h hS)
      · exact addHelper_over h hS (addCollect2_over h hS)
      · exact addHelper_over h hS (addCollect3_over h hS)
      · exact addHelper_over h hS (addCollect4_over h hS)
      · exact addHelper_over h hS (addCollect5_over h hS)
      · exact addHelper_over h hS (addCollect6_over h hS)
      · exact addHelper_over h hS (addCollect7_over h hS)
      · exact addHelper_over h hS (addConst1_over h)
      · exact addHelper_over h hS (addConst2_over h hS)
      · exact addHelper_over h hS (addConst3_over h hS)
      · exact addHelper_over h hS (addConst4_over h hS)
      · exact addHelper_over h hS (addConst5_over h hS)
      · exact addMergeLt_over h hS
      · exact addMergeGt_over h hS
      · exact addMergeEq_over h hS
    · suffices RuleOver P N E R from this l r hl hr
      simp only [rulesOf, mulRules, List.mem_cons, List.not_mem_nil, or_false] at hR
      rcases hR with rfl | rfl | rfl | rfl | rfl | rfl | rfl | rfl | rfl | rfl | rfl
      · exact mulZero_over h
      · exact mulOne_over h
      · exact mulDistribute_over h hS
      · exact mulHelper_over h hS (mulCollect1_over h hS)
      · exact mulHelper_over h hS (mulCollect2_over h hS)
      · exact mulHelper_over h hS (mulCollect3_over h hS)
      · exact mulHelper_over h hS (mulConst1_over h hS)
      · exact mulConst2_over h hS
      · exact mulMergeLt_over h hS
      · exact mulMergeGt_over h hS
      · exact mulMergeEq_over h hS
    · suffices PowOver P N E R from this l r hl hr he
      simp only [rulesOf, powRules, List.mem_cons, List.not_mem_nil, or_false] at hR
      rcases hR with rfl | rfl | rfl | rfl
      · exact powMisc1_over h
      · exact powMisc2_over h
      · exact powMisc3_over h
      · exact powDistribute_over h hS


end Rules

theorem expClosed_true : ExpClosed (fun _ => True) :=
  fun _ _ _ _ _ => ⟨fun _ _ => trivial, fun _ _ => trivial⟩

/-- An integer literal. -/
def IsConst (e : Expr) : Prop := ∃ k, e = .const k

theorem isConst_mkConst (v : Int) : OAll IsConst (mkConst v) := by
  intro e he
  simp only [mkConst, Option.map_eq_some_iff] at he
  obtain ⟨k, _, rfl⟩ := he
  exact ⟨k, rfl⟩

theorem isConst_const (v : Int) : IsConst (.const v) := ⟨v, rfl⟩

theorem applyRules_skip {R : Rule} {L : List Rule} {l r : Expr} (h : R l r = some none) :
    applyRules (R :: L) l r = applyRules L l r := by
  rw [applyRules, h]

theorem applyRules_fire {R : Rule} {L : List Rule} {l r : Expr} {o : Option Expr}
    (h : R l r = fire o) : applyRules (R :: L) l r = o := by
  rw [applyRules, h]
  cases o <;> simp [fire]

theorem const_closed (n : Nat) : (∀ a b, OAll IsConst (simp n .add (.const a) (.const b))) ∧
    (∀ a b, OAll IsConst (simp n .mul (.const a) (.const b))) ∧
    ∀ a, OAll IsConst (simp n .pow (.const a) (.const 2)) := by
  induction n with
  | zero => exact ⟨fun _ _ => .none, fun _ _ => .none, fun _ => .none⟩
  | succ n ih =>
    refine ⟨fun a b => ?_, fun a b => ?_, fun a => ?_⟩
    · show OAll IsConst (applyRules (addRules (simp n)) (.const a) (.const b))
      unfold addRules
      by_cases h1 : a = 0
      · rw [applyRules_fire (o := some (.const b)) (by simp [addZero, h1, fire])]
        exact .some (isConst_const b)
      by_cases h2 : b = 0
      · rw [applyRules_fire (o := some (.const a)) (by simp [addZero, h1, h2, fire])]
        exact .some (isConst_const a)
      rw [applyRules_skip (by simp [addZero, h1, h2])]
      by_cases h3 : a = b
      · rw [applyRules_fire (o := simp n .mul (.const 2) (.const a))
          (by simp [addHelper, asAdd, addCollect1, h3])]
        exact ih.2.1 _ _
      rw [applyRules_skip (by simp [addHelper, asAdd, addCollect1, h3]),
        applyRules_skip rfl, applyRules_skip rfl, applyRules_skip rfl, applyRules_skip rfl,
        applyRules_skip rfl, applyRules_skip rfl,
        applyRules_fire (o := mkConst (a + b)) rfl]
      exact isConst_mkConst _
    · show OAll IsConst (applyRules (mulRules (simp n)) (.const a) (.const b))
      unfold mulRules
      by_cases h1 : a = 0 ∨ b = 0
      · rw [applyRules_fire (o := some (.const 0)) (by simp [mulZero, h1, fire])]
        exact .some (isConst_const 0)
      rw [applyRules_skip (by simp [mulZero, h1])]
      by_cases h2 : a = 1
      · rw [applyRules_fire (o := some (.const b)) (by simp [mulOne, h2, fire])]
        exact .some (isConst_const b)
      by_cases h2' : b = 1
      · rw [applyRules_fire (o := some (.const a)) (by simp [mulOne, h2, h2', fire])]
        exact .some (isConst_const a)
      rw [applyRules_skip (by simp [mulOne, h2, h2']), applyRules_skip rfl]
      by_cases h3 : a = b
      · rw [applyRules_fire (o := simp n .pow (.const a) (.const 2))
          (by simp [mulHelper, asMul, mulCollect1, h3])]
        exact ih.2.2 _
      rw [applyRules_skip (by simp [mulHelper, asMul, mulCollect1, h3]),
        applyRules_skip rfl, applyRules_skip rfl,
        applyRules_fire (o := mkConst (a * b)) rfl]
      exact isConst_mkConst _
    · show OAll IsConst (applyRules (powRules (simp n)) (.const a) (.const 2))
      unfold powRules
      by_cases h1 : a = 0
      · rw [applyRules_fire (o := some (.const 0)) (by simp [powMisc1, h1, fire, asConst])]
        exact .some (isConst_const 0)
      by_cases h2 : a = 1
      · rw [applyRules_fire (o := some (.const 1)) (by simp [powMisc1, h1, h2, fire])]
        exact .some (isConst_const 1)
      rw [applyRules_skip (by simp [powMisc1, h1, h2]),
        applyRules_skip (by simp [powMisc2])]
      have hp : powMisc3 (.const a) (.const 2) = (simplerIpow a 2).bind fun p =>
          some (some (if a = -1 then .const 1 else p)) := by
        simp only [powMisc3, asConst, half, reduceCtorEq, if_false, iabs]
        have e2 : (if (2 : Int) ≥ 0 then some 2 else i64 (-2)) = some 2 := by simp
        rw [e2]
        simp only [Option.bind_eq_bind, Option.bind_some]
        congr 1
        funext p
        by_cases h3 : a = -1 <;> simp [h3]
      rw [applyRules, hp]
      intro e he
      simp only [simplerIpow] at he
      rcases hi : ipow 66 a 2 with _ | k
      · simp [hi] at he
      · simp only [hi, Option.map_some, Option.bind_some, Option.some.injEq] at he
        subst he
        split_ifs
        · exact ⟨1, rfl⟩
        · exact ⟨k, rfl⟩

theorem expClosed_const : ExpClosed IsConst := by
  rintro n _ _ ⟨a, rfl⟩ ⟨b, rfl⟩
  exact ⟨(const_closed n).1 a b, (const_closed n).2.1 a b⟩
/-- A positive integer literal. -/
def IsPos (e : Expr) : Prop := ∃ k : Int, 0 < k ∧ e = .const k

theorem expClosed_pos : ExpClosed IsPos := by
  rintro n _ _ ⟨a, ha, rfl⟩ ⟨b, hb, rfl⟩
  let ρ : Spec.Env := ⟨fun _ _ => 0, fun _ _ => 0⟩
  refine ⟨fun e he => ?_, fun e he => ?_⟩
  · obtain ⟨k, rfl⟩ := (const_closed n).1 a b e he
    have := ((simp_sound ρ n).add _ _ _ _ _ (V.const a) (V.const b) he).const_eq
    exact ⟨k, by have : (a + b : Int) = k := by exact_mod_cast this
                 omega, rfl⟩
  · obtain ⟨k, rfl⟩ := (const_closed n).2.1 a b e he
    have := ((simp_sound ρ n).mul _ _ _ _ _ (V.const a) (V.const b) he).const_eq
    exact ⟨k, by have : (a * b : Int) = k := by exact_mod_cast this
                 rw [← this]; exact Int.mul_pos ha hb, rfl⟩

end GATL
