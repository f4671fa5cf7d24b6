import Verif.Proofs.Linear
import Verif.Proofs.LazyProgram
import Verif.Proofs.Take

/-!
# The simplifier leaves no constant polynomials but literals
-/

namespace GATL

open Expr Spec

/-- Something that the simplifier does not look into. -/
def Opaque (e : Expr) : Prop :=
  isConstant e = false ∧ asAdd e = none ∧ asMul e = none ∧ asPower e = none

/-- A polynomial in the atoms `A`: constants come first in sums and products. -/
inductive Strict (A : Expr → Prop) : Expr → Prop
  | const (v : Int) : Strict A (.const v)
  | atom (e : Expr) (h : A e) : Strict A e
  | add (h : Expr) (t : List Expr) (hne : t ≠ []) (hh : Strict A h) (ht : ∀ x ∈ t, Strict A x)
      (hv : ∀ x ∈ t, isConstant x = false) : Strict A (.fn .add (h :: t))
  | mul (h : Expr) (t : List Expr) (hne : t ≠ []) (hh : Strict A h) (ht : ∀ x ∈ t, Strict A x)
      (hv : ∀ x ∈ t, isConstant x = false) : Strict A (.fn .mul (h :: t))
  | power (l : Expr) (k : Int) (hk : 0 < k) (hl : Strict A l) (hv : isConstant l = false) :
      Strict A (.fn .power [l, .const k])

section
variable {A : Expr → Prop} (hA : ∀ e, A e → Opaque e)
include hA

theorem strict_lit {e : Expr} (h : Strict A e) : Lit e := by
  cases h with
  | const v => exact lit_const v
  | atom _ h => intro hc; rw [(hA e h).1] at hc; cases hc
  | add h t hne hh ht hv =>
    intro hc
    obtain ⟨x, t', rfl⟩ := List.exists_cons_of_ne_nil hne
    simp [isConstant, isConstantAll, hv x (by simp)] at hc
  | mul h t hne hh ht hv =>
    intro hc
    obtain ⟨x, t', rfl⟩ := List.exists_cons_of_ne_nil hne
    simp [isConstant, isConstantAll, hv x (by simp)] at hc
  | power l k hk hl hv => intro hc; simp [isConstant, isConstantAll, hv] at hc

theorem strict_var {e : Expr} (h : Strict A e) (hn : ∀ v, e ≠ .const v) : isConstant e = false := by
  by_contra hc
  obtain ⟨v, hv⟩ := strict_lit hA h (by simpa using hc)
  exact hn v hv

theorem strict_asAdd {e a : Expr} {as : List Expr} (h : Strict A e) (he : asAdd e = some (a, as)) :
    as ≠ [] ∧ Strict A a ∧ (∀ x ∈ as, Strict A x) ∧ ∀ x ∈ as, isConstant x = false := by
  cases h with
  | const v => simp [asAdd] at he
  | atom _ h => rw [(hA e h).2.1] at he; cases he
  | add h t hne hh ht hv =>
    simp only [asAdd, Option.some.injEq, Prod.mk.injEq] at he
    obtain ⟨rfl, rfl⟩ := he
    exact ⟨hne, hh, ht, hv⟩
  | mul h t hne hh ht hv => simp [asAdd] at he
  | power l k hk hl hv => simp [asAdd] at he

theorem strict_asMul {e a : Expr} {as : List Expr} (h : Strict A e) (he : asMul e = some (a, as)) :
    as ≠ [] ∧ Strict A a ∧ (∀ x ∈ as, Strict A x) ∧ ∀ x ∈ as, isConstant x = false := by
  cases h with
  | const v => simp [asMul] at he
  | atom _ h => rw [(hA e h).2.2.1] at he; cases he
  | add h t hne hh ht hv => simp [asMul] at he
  | mul h t hne hh ht hv =>
    simp only [asMul, Option.some.injEq, Prod.mk.injEq] at he
    obtain ⟨rfl, rfl⟩ := he
    exact ⟨hne, hh, ht, hv⟩
  | power l k hk hl hv => simp [asMul] at he

theorem strict_asPower {e a p : Expr} (h : Strict A e) (he : asPower e = some (a, p)) :
    Strict A a ∧ isConstant a = false ∧ IsPos p := by
  cases h with
  | const v => simp [asPower] at he
  | atom _ h => rw [(hA e h).2.2.2] at he; cases he
  | add h t hne hh ht hv => simp [asPower] at he
  | mul h t hne hh ht hv => simp [asPower] at he
  | power l k hk hl hv =>
    simp only [asPower, Option.some.injEq, Prod.mk.injEq] at he
    obtain ⟨rfl, rfl⟩ := he
    exact ⟨hl, hv, k, hk, rfl⟩

theorem strict_asRecip {e : Expr} (h : Strict A e) : asRecip e = none := by
  cases he : asRecip e with
  | none => rfl
  | some v =>
    unfold asRecip at he
    split at he
    · next b =>
      obtain ⟨-, h', -⟩ := strict_asPower hA h (a := .const b) (p := .const (-1)) rfl
      simp [isConstant] at h'
    · simp at he

theorem strict_asRatio {e : Expr} (h : Strict A e) : asRatio e = none := by
  cases he : asRatio e with
  | none => rfl
  | some v =>
    unfold asRatio at he
    split at he
    · next a b =>
      obtain ⟨-, -, h', -⟩ := strict_asMul hA h (a := .const a) rfl
      have := strict_asRecip hA (h' (.fn .power [.const b, .const (-1)]) (by simp))
      simp [asRecip] at this
    · simp at he

omit hA in
theorem strict_mkAdd {a : Expr} {as : List Expr} (ha : Strict A a) (h : ∀ x ∈ as, Strict A x)
    (hv : ∀ x ∈ as, isConstant x = false) : OAll (Strict A) (mkAdd (a :: as)) := by
  rcases as with _ | ⟨b, bs⟩
  · exact .some ha
  · simp only [mkAdd]
    split
    · exact .none
    · exact .some (.add _ _ (by simp) ha h hv)

omit hA in
theorem strict_mkMul {a : Expr} {as : List Expr} (ha : Strict A a) (h : ∀ x ∈ as, Strict A x)
    (hv : ∀ x ∈ as, isConstant x = false) : OAll (Strict A) (mkMul (a :: as)) := by
  rcases as with _ | ⟨b, bs⟩
  · exact .some ha
  · simp only [mkMul]
    split
    · exact .none
    · exact .some (.mul _ _ (by simp) ha h hv)

omit hA in
theorem strict_mkAdd' {as : List Expr} (h : ∀ x ∈ as, Strict A x)
    (hv : ∀ x ∈ as, isConstant x = false) : OAll (Strict A) (mkAdd as) := by
  rcases as with _ | ⟨b, bs⟩
  · exact .some (.const 0)
  · exact strict_mkAdd (h b (by simp)) (fun x hx => h x (by simp [hx])) fun x hx => hv x (by simp [hx])

omit hA in
theorem strict_mkMul' {as : List Expr} (h : ∀ x ∈ as, Strict A x)
    (hv : ∀ x ∈ as, isConstant x = false) : OAll (Strict A) (mkMul as) := by
  rcases as with _ | ⟨b, bs⟩
  · exact .some (.const 0)
  · exact strict_mkMul (h b (by simp)) (fun x hx => h x (by simp [hx])) fun x hx => hv x (by simp [hx])

omit hA in
theorem strict_mkConst (v : Int) : OAll (Strict A) (mkConst v) := by
  intro e he
  obtain ⟨k, rfl⟩ := isConst_mkConst v e he
  exact .const k

omit hA in
theorem lt_literal {e : Expr} {v : Int} (h : lt e (.const v) = true) : ∃ w, e = .const w := by
  unfold lt at h
  cases e with
  | const w => exact ⟨w, rfl⟩
  | fn name args =>
    rw [show size (.fn name args) + size (.const v) + 1 = (size (.fn name args) + size (.const v)) + 1 from rfl] at h
    rcases args with _ | ⟨a, as⟩
    · simp [ltF] at h
    · simp [ltF, isLiteral] at h
  | _ => exact absurd (show false = true from h) (by simp)

theorem strict_after {e : Expr} (h : Strict A e) {v : Int} (hn : ∀ w, e ≠ .const w) : lt (.const v) e = true ∨ A e := by
  cases h with
  | const v => exact absurd rfl (hn v)
  | atom _ h => exact .inr h
  | add h t hne hh ht hv => left; simp [lt, ltF, isLiteral]
  | mul h t hne hh ht hv => left; simp [lt, ltF, isLiteral]
  | power l k hk hl hv => left; simp [lt, ltF, isLiteral]

omit hA in
theorem applyRules_step {Q : Expr → Prop} {R : Rule} {L : List Rule} {l r : Expr} (h1 : OAll (OAll Q) (R l r))
    (h2 : R l r = some none → OAll Q (applyRules L l r)) : OAll Q (applyRules (R :: L) l r) := by
  unfold applyRules
  split
  · exact .none
  · next e he => exact .some (h1 _ he e rfl)
  · next he => exact h2 he

/-- The metafunctions keep within the class. -/
structure StrictSimp (A : Expr → Prop) (S : Simp) : Prop where
  add : ∀ l r, Strict A l → Strict A r → OAll (Strict A) (S .add l r)
  mul : ∀ l r, Strict A l → Strict A r → OAll (Strict A) (S .mul l r)
  pow : ∀ l r, Strict A l → IsPos r → OAll (Strict A) (S .pow l r)
  eadd : ∀ l r, IsPos l → IsPos r → OAll IsPos (S .add l r)
  emul : ∀ l r, IsPos l → IsPos r → OAll IsPos (S .mul l r)

/-- A rule keeps within the class. -/
def StrictRule (A : Expr → Prop) (R : Rule) : Prop :=
  ∀ l r, Strict A l → Strict A r → OAll (OAll (Strict A)) (R l r)

variable {S : Simp} (hS : StrictSimp A S)
include hS

theorem addHelper_strict {R : Rule} (hR : StrictRule A R) : StrictRule A (addHelper S R) := by
  intro l r hl hr
  unfold addHelper
  rcases el : asAdd l with _ | ⟨a, as⟩ <;> rcases er : asAdd r with _ | ⟨b, bs⟩
  · exact hR l r hl hr
  · obtain ⟨-, b1, b2, b3⟩ := strict_asAdd hA hr er
    refine OAll.bind (hR _ _ hl b1) fun o ho => ?_
    cases o with
    | none => exact .some .none
    | some e => exact .fire (.bind (strict_mkAdd' b2 b3) fun x hx => hS.add _ _ (ho e rfl) hx)
  · obtain ⟨-, a1, a2, a3⟩ := strict_asAdd hA hl el
    refine OAll.bind (hR _ _ a1 hr) fun o ho => ?_
    cases o with
    | none => exact .some .none
    | some e => exact .fire (.bind (strict_mkAdd' a2 a3) fun x hx => hS.add _ _ (ho e rfl) hx)
  · obtain ⟨-, a1, a2, a3⟩ := strict_asAdd hA hl el
    obtain ⟨-, b1, b2, b3⟩ := strict_asAdd hA hr er
    refine OAll.bind (hR _ _ a1 b1) fun o ho => ?_
    cases o with
    | none => exact .some .none
    | some e =>
      exact .fire (.bind (strict_mkAdd' a2 a3) fun x hx => .bind (strict_mkAdd' b2 b3) fun y hy =>
        .bind (hS.add _ _ hx hy) fun z hz => hS.add _ _ (ho e rfl) hz)

theorem mulHelper_strict {R : Rule} (hR : StrictRule A R) : StrictRule A (mulHelper S R) := by
  intro l r hl hr
  unfold mulHelper
  rcases el : asMul l with _ | ⟨a, as⟩ <;> rcases er : asMul r with _ | ⟨b, bs⟩
  · exact hR l r hl hr
  · obtain ⟨-, b1, b2, b3⟩ := strict_asMul hA hr er
    refine OAll.bind (hR _ _ hl b1) fun o ho => ?_
    cases o with
    | none => exact .some .none
    | some e => exact .fire (.bind (strict_mkMul' b2 b3) fun x hx => hS.mul _ _ (ho e rfl) hx)
  · obtain ⟨-, a1, a2, a3⟩ := strict_asMul hA hl el
    refine OAll.bind (hR _ _ a1 hr) fun o ho => ?_
    cases o with
    | none => exact .some .none
    | some e => exact .fire (.bind (strict_mkMul' a2 a3) fun x hx => hS.mul _ _ (ho e rfl) hx)
  · obtain ⟨-, a1, a2, a3⟩ := strict_asMul hA hl el
    obtain ⟨-, b1, b2, b3⟩ := strict_asMul hA hr er
    refine OAll.bind (hR _ _ a1 b1) fun o ho => ?_
    cases o with
    | none => exact .some .none
    | some e =>
      exact .fire (.bind (strict_mkMul' a2 a3) fun x hx => .bind (strict_mkMul' b2 b3) fun y hy =>
        .bind (hS.mul _ _ hx hy) fun z hz => hS.mul _ _ (ho e rfl) hz)

omit hA in
theorem addCollect1_strict : StrictRule A (addCollect1 S) := by
  intro l r hl hr
  unfold addCollect1
  split
  · exact .fire (hS.mul _ _ (.const 2) hl)
  · exact .some .none

omit hA in
theorem collect_end {p q : Expr} (hp : Strict A p) (hq : Strict A q) {x : Option Expr} (hx : OAll (Strict A) x) :
    OAll (OAll (Strict A)) (do
      if ← simplifies S p q then fire do S .mul (← S .add p q) (← x) else some none) := by
  refine OAll.bind' fun b => ?_
  split
  · exact .fire (.bind (hS.add _ _ hp hq) fun u hu => .bind hx fun v hv => hS.mul _ _ hu hv)
  · exact .some .none

omit hA in
theorem collect_end' {p q a : Expr} (hp : Strict A p) (hq : Strict A q) (ha : Strict A a) :
    OAll (OAll (Strict A)) (do
      if ← simplifies S p q then fire do S .mul a (← S .add p q) else some none) := by
  refine OAll.bind' fun b => ?_
  split
  · exact .fire (.bind (hS.add _ _ hp hq) fun u hu => hS.mul _ _ ha hu)
  · exact .some .none

theorem addCollect2_strict : StrictRule A (addCollect2 S) := by
  intro l r hl hr
  unfold addCollect2
  split
  · next p as =>
    obtain ⟨-, h1, h2, h3⟩ := strict_asMul hA hl (a := p) (as := as) rfl
    split
    · exact collect_end hS h1 (.const 1) (strict_mkMul' h2 h3)
    · exact .some .none
  · exact .some .none

theorem addCollect3_strict : StrictRule A (addCollect3 S) := by
  intro l r hl hr
  unfold addCollect3
  split
  · next p as =>
    obtain ⟨-, h1, h2, h3⟩ := strict_asMul hA hr (a := p) (as := as) rfl
    split
    · exact collect_end hS (.const 1) h1 (strict_mkMul' h2 h3)
    · exact .some .none
  · exact .some .none

theorem addCollect4_strict : StrictRule A (addCollect4 S) := by
  intro l r hl hr
  unfold addCollect4
  split
  · next p as q bs =>
    obtain ⟨-, h1, h2, h3⟩ := strict_asMul hA hl (a := p) (as := as) rfl
    obtain ⟨-, g1, g2, g3⟩ := strict_asMul hA hr (a := q) (as := bs) rfl
    split
    · exact collect_end hS h1 g1 (strict_mkMul' h2 h3)
    · exact .some .none
  · exact .some .none

theorem addCollect5_strict : StrictRule A (addCollect5 S) := by
  intro l r hl hr
  unfold addCollect5
  split
  · next a as =>
    obtain ⟨-, h1, h2, h3⟩ := strict_asMul hA hl (a := a) (as := as) rfl
    split
    · exact .bind (strict_mkMul' h2 h3) fun x hx => collect_end' hS hx (.const 1) h1
    · exact .some .none
  · exact .some .none

theorem addCollect6_strict : StrictRule A (addCollect6 S) := by
  intro l r hl hr
  unfold addCollect6
  split
  · next a as =>
    obtain ⟨-, h1, h2, h3⟩ := strict_asMul hA hr (a := a) (as := as) rfl
    split
    · exact .bind (strict_mkMul' h2 h3) fun x hx => collect_end' hS (.const 1) hx h1
    · exact .some .none
  · exact .some .none

theorem addCollect7_strict : StrictRule A (addCollect7 S) := by
  intro l r hl hr
  unfold addCollect7
  split
  · next a as b bs =>
    obtain ⟨-, h1, h2, h3⟩ := strict_asMul hA hl (a := a) (as := as) rfl
    obtain ⟨-, g1, g2, g3⟩ := strict_asMul hA hr (a := b) (as := bs) rfl
    split
    · exact .bind (strict_mkMul' h2 h3) fun x hx => .bind (strict_mkMul' g2 g3) fun y hy =>
        collect_end' hS hx hy h1
    · exact .some .none
  · exact .some .none

omit hA hS in
theorem addZero_strict : StrictRule A addZero := by
  intro l r hl hr
  unfold addZero
  split
  · exact .some (.some hr)
  · split
    · exact .some (.some hl)
    · exact .some .none

omit hA hS in
theorem addConst1_strict : StrictRule A addConst1 := by
  intro l r hl hr
  unfold addConst1
  split
  · exact .fire (strict_mkConst _)
  · exact .some .none

omit hS in
theorem addConst_skip {R : Rule} (hR : R = addConst2 S ∨ R = addConst3 S ∨ R = addConst4 S ∨ R = addConst5 S) :
    StrictRule A R := by
  intro l r hl hr
  rcases hR with rfl | rfl | rfl | rfl <;>
    simp only [addConst2, addConst3, addConst4, addConst5, strict_asRecip hA hl, strict_asRecip hA hr,
      strict_asRatio hA hl, strict_asRatio hA hr] <;>
    · cases asConst l <;> exact .some .none

omit hS in
theorem strict_heads {a b : Expr} (hAv : ∀ e v, A e → lt (.const v) e = true) (ha : Strict A a) (hb : Strict A b)
    (hno : ∀ v w, ¬ (a = .const v ∧ b = .const w)) :
    (lt a b = true → isConstant b = false) ∧ (lt b a = true → isConstant a = false) ∧
      (lt a b = false → lt b a = false → isConstant a = false ∧ isConstant b = false) := by
  have after : ∀ {e : Expr} {v : Int}, Strict A e → (∀ w, e ≠ .const w) → lt (.const v) e = true := fun h hn =>
    (strict_after hA h hn).elim id (hAv _ _)
  refine ⟨fun h1 => strict_var hA hb ?_, fun h1 => strict_var hA ha ?_, fun h1 h2 => ?_⟩
  · rintro w rfl
    obtain ⟨v, rfl⟩ := lt_literal h1
    exact hno v w ⟨rfl, rfl⟩
  · rintro w rfl
    obtain ⟨v, rfl⟩ := lt_literal h1
    exact hno w v ⟨rfl, rfl⟩
  · constructor
    · refine strict_var hA ha ?_
      rintro v rfl
      have := after (v := v) hb fun w hw => hno v w ⟨rfl, hw⟩
      rw [h1] at this; cases this
    · refine strict_var hA hb ?_
      rintro v rfl
      have := after (v := v) ha fun w hw => hno w v ⟨hw, rfl⟩
      rw [h2] at this; cases this

omit hA hS in
theorem strict_cons {x : Expr} {xs : List Expr} (h1 : Strict A x) (h2 : isConstant x = false)
    (h3 : ∀ y ∈ xs, Strict A y) (h4 : ∀ y ∈ xs, isConstant y = false) :
    (∀ y ∈ x :: xs, Strict A y) ∧ ∀ y ∈ x :: xs, isConstant y = false := by
  constructor <;> simp_all

omit hA hS in
theorem skip_if {c : Bool} {o : Option Expr} (h : (if c = true then fire o else some none) = some none) : c = false := by
  by_contra hc
  rw [if_pos (by simpa using hc)] at h
  exact fire_ne h

omit hA hS in
theorem bind_mkConst {z : Int} {f : Expr → Option Expr} :
    ((fire (mkConst z)).bind fun o => match o with | none => some none | some e => fire (f e)) ≠ some none := by
  cases mkConst z with
  | none => simp [fire]
  | some x => exact fire_ne

omit hA hS in
theorem addConst_heads {l r : Expr} (h : addHelper S addConst1 l r = some none) :
    ∀ v w, ¬ (((asAdd l).map Prod.fst).getD l = .const v ∧ ((asAdd r).map Prod.fst).getD r = .const w) := by
  rintro v w ⟨h1, h2⟩
  unfold addHelper at h
  rcases el : asAdd l with _ | ⟨a, as⟩ <;> rcases er : asAdd r with _ | ⟨b, bs⟩ <;>
    simp only [el, er, Option.map_none, Option.map_some, Option.getD_none, Option.getD_some] at h h1 h2 <;>
    subst h1 <;> subst h2 <;> simp only [addConst1, asConst] at h
  · exact fire_ne h
  all_goals exact bind_mkConst h

omit hA hS in
theorem mulConst_heads {l r : Expr} (h : mulHelper S (mulConst1 S) l r = some none) :
    ∀ v w, ¬ (((asMul l).map Prod.fst).getD l = .const v ∧ ((asMul r).map Prod.fst).getD r = .const w) := by
  rintro v w ⟨h1, h2⟩
  unfold mulHelper at h
  rcases el : asMul l with _ | ⟨a, as⟩ <;> rcases er : asMul r with _ | ⟨b, bs⟩ <;>
    simp only [el, er, Option.map_none, Option.map_some, Option.getD_none, Option.getD_some] at h h1 h2 <;>
    subst h1 <;> subst h2 <;> simp only [mulConst1, asConst] at h
  · exact fire_ne h
  all_goals exact bind_mkConst h

omit hS in
theorem addMerge_strict {l r : Expr} (hl : Strict A l) (hr : Strict A r)
    (hS : StrictSimp A S) (hc : addHelper S addConst1 l r = some none) (hAv : ∀ e v, A e → lt (.const v) e = true) :
    OAll (Strict A) (applyRules [addMergeLt S, addMergeGt S, addMergeEq S] l r) := by
  have hno := addConst_heads hc
  rcases el : asAdd l with _ | ⟨a, as⟩ <;> rcases er : asAdd r with _ | ⟨b, bs⟩ <;>
    simp only [el, er, Option.map_none, Option.map_some, Option.getD_none, Option.getD_some] at hno
  · obtain ⟨k1, k2, k3⟩ := strict_heads hA hAv hl hr hno
    refine applyRules_step ?_ fun s1 => applyRules_step ?_ fun s2 => applyRules_step ?_ fun s3 => .none
    · simp only [addMergeLt, el, er]
      split
      · next h => exact .fire (strict_mkAdd hl (by simpa using hr) (by simpa using k1 h))
      · exact .some .none
    · simp only [addMergeGt, el, er]
      split
      · next h => exact .fire (strict_mkAdd hr (by simpa using hl) (by simpa using k2 h))
      · exact .some .none
    · simp only [addMergeLt, addMergeGt, el, er] at s1 s2
      simp only [addMergeEq, el, er]
      exact .fire (strict_mkAdd hl (by simpa using hr) (by simpa using (k3 (skip_if s1) (skip_if s2)).2))
  · obtain ⟨-, b1, b2, b3⟩ := strict_asAdd hA hr er
    obtain ⟨k1, k2, k3⟩ := strict_heads hA hAv hl b1 hno
    refine applyRules_step ?_ fun s1 => applyRules_step ?_ fun s2 => applyRules_step ?_ fun s3 => .none
    · simp only [addMergeLt, el, er]
      split
      · next h => exact .fire (strict_mkAdd hl (strict_cons b1 (k1 h) b2 b3).1 (strict_cons b1 (k1 h) b2 b3).2)
      · exact .some .none
    · simp only [addMergeGt, el, er]
      split
      · exact .fire (.bind (strict_mkAdd' b2 b3) fun x hx => .bind (hS.add _ _ hl hx) fun y hy =>
          hS.add _ _ b1 hy)
      · exact .some .none
    · simp only [addMergeLt, addMergeGt, el, er] at s1 s2
      simp only [addMergeEq, el, er]
      have := strict_cons b1 (k3 (skip_if s1) (skip_if s2)).2 b2 b3
      exact .fire (strict_mkAdd hl this.1 this.2)
  · obtain ⟨-, b1, b2, b3⟩ := strict_asAdd hA hl el
    obtain ⟨k1, k2, k3⟩ := strict_heads hA hAv b1 hr hno
    refine applyRules_step ?_ fun s1 => applyRules_step ?_ fun s2 => applyRules_step ?_ fun s3 => .none
    · simp only [addMergeLt, el, er]
      split
      · exact .fire (.bind (strict_mkAdd' b2 b3) fun x hx => .bind (hS.add _ _ hx hr) fun y hy =>
          hS.add _ _ b1 hy)
      · exact .some .none
    · simp only [addMergeGt, el, er]
      split
      · next h => exact .fire (strict_mkAdd hr (strict_cons b1 (k2 h) b2 b3).1 (strict_cons b1 (k2 h) b2 b3).2)
      · exact .some .none
    · simp only [addMergeLt, addMergeGt, el, er] at s1 s2
      simp only [addMergeEq, el, er]
      have := strict_cons hr (k3 (skip_if s1) (skip_if s2)).2 b2 b3
      exact .fire (strict_mkAdd b1 this.1 this.2)
  · obtain ⟨-, a1, a2, a3⟩ := strict_asAdd hA hl el
    obtain ⟨-, b1, b2, b3⟩ := strict_asAdd hA hr er
    obtain ⟨k1, k2, k3⟩ := strict_heads hA hAv a1 b1 hno
    refine applyRules_step ?_ fun s1 => applyRules_step ?_ fun s2 => applyRules_step ?_ fun s3 => .none
    · simp only [addMergeLt, el, er]
      split
      · exact .fire (.bind (strict_mkAdd' a2 a3) fun x hx => .bind (hS.add _ _ hx hr) fun y hy =>
          hS.add _ _ a1 hy)
      · exact .some .none
    · simp only [addMergeGt, el, er]
      split
      · exact .fire (.bind (strict_mkAdd' b2 b3) fun x hx => .bind (hS.add _ _ hl hx) fun y hy =>
          hS.add _ _ b1 hy)
      · exact .some .none
    · simp only [addMergeLt, addMergeGt, el, er] at s1 s2
      simp only [addMergeEq, el, er]
      exact .fire (.bind (strict_mkAdd a1 (by simpa using b1) (by simpa using (k3 (skip_if s1) (skip_if s2)).2))
        fun u hu => .bind (strict_mkAdd' a2 a3) fun x hx => .bind (strict_mkAdd' b2 b3) fun y hy =>
        .bind (hS.add _ _ hx hy) fun z hz => hS.add _ _ hu hz)

omit hS in
theorem mulMerge_strict {l r : Expr} (hl : Strict A l) (hr : Strict A r)
    (hS : StrictSimp A S) (hc : mulHelper S (mulConst1 S) l r = some none) (hAv : ∀ e v, A e → lt (.const v) e = true) :
    OAll (Strict A) (applyRules [mulMergeLt S, mulMergeGt S, mulMergeEq S] l r) := by
  have hno := mulConst_heads hc
  rcases el : asMul l with _ | ⟨a, as⟩ <;> rcases er : asMul r with _ | ⟨b, bs⟩ <;>
    simp only [el, er, Option.map_none, Option.map_some, Option.getD_none, Option.getD_some] at hno
  · obtain ⟨k1, k2, k3⟩ := strict_heads hA hAv hl hr hno
    refine applyRules_step ?_ fun s1 => applyRules_step ?_ fun s2 => applyRules_step ?_ fun s3 => .none
    · simp only [mulMergeLt, el, er]
      split
      · next h => exact .fire (strict_mkMul hl (by simpa using hr) (by simpa using k1 h))
      · exact .some .none
    · simp only [mulMergeGt, el, er]
      split
      · next h => exact .fire (strict_mkMul hr (by simpa using hl) (by simpa using k2 h))
      · exact .some .none
    · simp only [mulMergeLt, mulMergeGt, el, er] at s1 s2
      simp only [mulMergeEq, el, er]
      exact .fire (strict_mkMul hl (by simpa using hr) (by simpa using (k3 (skip_if s1) (skip_if s2)).2))
  · obtain ⟨-, b1, b2, b3⟩ := strict_asMul hA hr er
    obtain ⟨k1, k2, k3⟩ := strict_heads hA hAv hl b1 hno
    refine applyRules_step ?_ fun s1 => applyRules_step ?_ fun s2 => applyRules_step ?_ fun s3 => .none
    · simp only [mulMergeLt, el, er]
      split
      · next h => exact .fire (strict_mkMul hl (strict_cons b1 (k1 h) b2 b3).1 (strict_cons b1 (k1 h) b2 b3).2)
      · exact .some .none
    · simp only [mulMergeGt, el, er]
      split
      · exact .fire (.bind (strict_mkMul' b2 b3) fun x hx => .bind (hS.mul _ _ hl hx) fun y hy =>
          hS.mul _ _ b1 hy)
      · exact .some .none
    · simp only [mulMergeLt, mulMergeGt, el, er] at s1 s2
      simp only [mulMergeEq, el, er]
      have := strict_cons b1 (k3 (skip_if s1) (skip_if s2)).2 b2 b3
      exact .fire (strict_mkMul hl this.1 this.2)
  · obtain ⟨-, b1, b2, b3⟩ := strict_asMul hA hl el
    obtain ⟨k1, k2, k3⟩ := strict_heads hA hAv b1 hr hno
    refine applyRules_step ?_ fun s1 => applyRules_step ?_ fun s2 => applyRules_step ?_ fun s3 => .none
    · simp only [mulMergeLt, el, er]
      split
      · exact .fire (.bind (strict_mkMul' b2 b3) fun x hx => .bind (hS.mul _ _ hx hr) fun y hy =>
          hS.mul _ _ b1 hy)
      · exact .some .none
    · simp only [mulMergeGt, el, er]
      split
      · next h => exact .fire (strict_mkMul hr (strict_cons b1 (k2 h) b2 b3).1 (strict_cons b1 (k2 h) b2 b3).2)
      · exact .some .none
    · simp only [mulMergeLt, mulMergeGt, el, er] at s1 s2
      simp only [mulMergeEq, el, er]
      have := strict_cons hr (k3 (skip_if s1) (skip_if s2)).2 b2 b3
      exact .fire (strict_mkMul b1 this.1 this.2)
  · obtain ⟨-, a1, a2, a3⟩ := strict_asMul hA hl el
    obtain ⟨-, b1, b2, b3⟩ := strict_asMul hA hr er
    obtain ⟨k1, k2, k3⟩ := strict_heads hA hAv a1 b1 hno
    refine applyRules_step ?_ fun s1 => applyRules_step ?_ fun s2 => applyRules_step ?_ fun s3 => .none
    · simp only [mulMergeLt, el, er]
      split
      · exact .fire (.bind (strict_mkMul' a2 a3) fun x hx => .bind (hS.mul _ _ hx hr) fun y hy =>
          hS.mul _ _ a1 hy)
      · exact .some .none
    · simp only [mulMergeGt, el, er]
      split
      · exact .fire (.bind (strict_mkMul' b2 b3) fun x hx => .bind (hS.mul _ _ hl hx) fun y hy =>
          hS.mul _ _ b1 hy)
      · exact .some .none
    · simp only [mulMergeLt, mulMergeGt, el, er] at s1 s2
      simp only [mulMergeEq, el, er]
      exact .fire (.bind (strict_mkMul a1 (by simpa using b1) (by simpa using (k3 (skip_if s1) (skip_if s2)).2))
        fun u hu => .bind (strict_mkMul' a2 a3) fun x hx => .bind (strict_mkMul' b2 b3) fun y hy =>
        .bind (hS.mul _ _ hx hy) fun z hz => hS.mul _ _ hu hz)

omit hA hS in
theorem mulZero_strict : StrictRule A mulZero := by
  intro l r hl hr
  unfold mulZero
  split
  · exact .some (.some (.const 0))
  · exact .some .none

omit hA hS in
theorem mulOne_strict : StrictRule A mulOne := by
  intro l r hl hr
  unfold mulOne
  split
  · exact .some (.some hr)
  · split
    · exact .some (.some hl)
    · exact .some .none

theorem mulDistribute_strict : StrictRule A (mulDistribute S) := by
  intro l r hl hr
  unfold mulDistribute
  rcases el : asAdd l with _ | ⟨a, as⟩ <;> rcases er : asAdd r with _ | ⟨b, bs⟩
  · exact .some .none
  · obtain ⟨-, b1, b2, b3⟩ := strict_asAdd hA hr er
    exact .fire (.bind (hS.mul _ _ hl b1) fun x hx => .bind (strict_mkAdd' b2 b3) fun y hy =>
      .bind (hS.mul _ _ hl hy) fun z hz => hS.add _ _ hx hz)
  · obtain ⟨-, a1, a2, a3⟩ := strict_asAdd hA hl el
    exact .fire (.bind (hS.mul _ _ a1 hr) fun x hx => .bind (strict_mkAdd' a2 a3) fun y hy =>
      .bind (hS.mul _ _ hy hr) fun z hz => hS.add _ _ hx hz)
  · obtain ⟨-, a1, a2, a3⟩ := strict_asAdd hA hl el
    obtain ⟨-, b1, b2, b3⟩ := strict_asAdd hA hr er
    exact .fire (.bind (hS.mul _ _ a1 b1) fun x hx => .bind (strict_mkAdd' a2 a3) fun y hy =>
      .bind (hS.mul _ _ hy b1) fun z hz => .bind (hS.add _ _ hx hz) fun w hw =>
      .bind (strict_mkAdd' b2 b3) fun y' hy' => .bind (hS.mul _ _ a1 hy') fun x' hx' =>
      .bind (strict_mkAdd' a2 a3) fun y2 hy2 => .bind (strict_mkAdd' b2 b3) fun y3 hy3 =>
      .bind (hS.mul _ _ hy2 hy3) fun z' hz' => .bind (hS.add _ _ hx' hz') fun w' hw' => hS.add _ _ hw hw')

omit hA in
theorem mulCollect1_strict : StrictRule A (mulCollect1 S) := by
  intro l r hl hr
  unfold mulCollect1
  split
  · exact .fire (hS.pow _ _ hl ⟨2, by norm_num, rfl⟩)
  · exact .some .none

theorem mulCollect2_strict : StrictRule A (mulCollect2 S) := by
  intro l r hl hr
  have one : IsPos (.const 1) := ⟨1, by norm_num, rfl⟩
  have right : OAll (OAll (Strict A)) (match asPower r with
      | some (b, q) => if b = l then fire do S .pow b (← S .add (.const 1) q) else some none
      | none => some none) := by
    rcases er : asPower r with _ | ⟨b, q⟩
    · exact .some .none
    · obtain ⟨b1, b2, b3⟩ := strict_asPower hA hr er
      dsimp only
      split
      · exact .fire (.bind (hS.eadd _ _ one b3) fun x hx => hS.pow _ _ b1 hx)
      · exact .some .none
  unfold mulCollect2
  rcases el : asPower l with _ | ⟨a, p⟩
  · exact right
  · obtain ⟨a1, a2, a3⟩ := strict_asPower hA hl el
    dsimp only
    split
    · exact .fire (.bind (hS.eadd _ _ a3 one) fun x hx => hS.pow _ _ a1 hx)
    · exact right

theorem mulCollect3_strict : StrictRule A (mulCollect3 S) := by
  intro l r hl hr
  unfold mulCollect3
  rcases el : asPower l with _ | ⟨a, p⟩
  · exact .some .none
  rcases er : asPower r with _ | ⟨b, q⟩
  · exact .some .none
  obtain ⟨a1, a2, a3⟩ := strict_asPower hA hl el
  obtain ⟨b1, b2, b3⟩ := strict_asPower hA hr er
  dsimp only
  split
  · exact .fire (.bind (hS.eadd _ _ a3 b3) fun x hx => hS.pow _ _ a1 hx)
  · exact .some .none

omit hS in
theorem mulConst1_strict : StrictRule A (mulConst1 S) := by
  intro l r hl hr
  unfold mulConst1
  split
  · exact .fire (strict_mkConst _)
  · simp only [strict_asRecip hA hl]
    exact .some .none

omit hS in
theorem mulConst2_strict : StrictRule A (mulConst2 S) := by
  intro l r hl hr
  simp only [mulConst2, strict_asRecip hA hl, strict_asRecip hA hr]
  cases asConst l <;> exact .some .none

theorem pow_strict {l r : Expr} (hl : Strict A l) (hr : IsPos r) :
    OAll (Strict A) (applyRules (powRules S) l r) := by
  obtain ⟨k, hk, rfl⟩ := hr
  unfold powRules
  refine applyRules_step ?_ fun s1 => applyRules_step ?_ fun s2 => applyRules_step ?_ fun s3 =>
    applyRules_step ?_ fun _ => .none
  · unfold powMisc1
    split
    · simp only [asConst, hk, if_true]
      exact .some (.some (.const 0))
    · split
      · exact .some (.some (.const 1))
      · exact .some .none
  · unfold powMisc2
    split
    · split
      · exact .some (.some (.const 1))
      · exact .some .none
    · split
      · exact .some (.some hl)
      · exact .some .none
  · unfold powMisc3
    split
    · exact .some .none
    · simp only [half, recip, powerOf, reduceCtorEq, if_false, asConst]
      refine OAll.bind' fun _ => OAll.bind (Q := IsConst) ?_ fun p hp => ?_
      · intro x hx
        simp only [simplerIpow, Option.map_eq_some_iff] at hx
        obtain ⟨q, -, rfl⟩ := hx
        exact ⟨q, rfl⟩
      · obtain ⟨q, rfl⟩ := hp
        split
        · exact .some (.some (by split <;> exact .const _))
        · exact .some (.some (.const q))
  · have hv : isConstant l = false := by
      refine strict_var hA hl ?_
      rintro v rfl
      simp only [powMisc3, asConst, half, recip, powerOf, reduceCtorEq, if_false] at s3
      revert s3
      simp only [Option.bind_eq_bind, Option.bind_eq_some_iff]
      rintro ⟨_, _, p, _, h⟩
      split at h
      · simp at h
      · simp at h
    unfold powDistribute
    rcases el : asMul l with _ | ⟨a, as⟩
    · rcases ep : asPower l with _ | ⟨b, q⟩
      · exact .some (.some (.power l k hk hl hv))
      · obtain ⟨b1, b2, b3⟩ := strict_asPower hA hl ep
        exact .fire (.bind (hS.emul _ _ b3 ⟨k, hk, rfl⟩) fun x hx => hS.pow _ _ b1 hx)
    · obtain ⟨-, a1, a2, a3⟩ := strict_asMul hA hl el
      exact .fire (.bind (hS.pow _ _ a1 ⟨k, hk, rfl⟩) fun x hx => .bind (strict_mkMul' a2 a3) fun y hy =>
        .bind (hS.pow _ _ hy ⟨k, hk, rfl⟩) fun z hz => hS.mul _ _ hx hz)

omit hS in
theorem simp_strict (hAv : ∀ e v, A e → lt (.const v) e = true) (n : Nat) : StrictSimp A (simp n) := by
  induction n with
  | zero => constructor <;> intros <;> exact .none
  | succ n hS =>
    refine ⟨fun l r hl hr => ?_, fun l r hl hr => ?_, fun l r hl hr => ?_,
      fun l r hl hr => (expClosed_pos _ l r hl hr).1, fun l r hl hr => (expClosed_pos _ l r hl hr).2⟩
    · show OAll (Strict A) (applyRules (addRules (simp n)) l r)
      unfold addRules
      refine applyRules_step (addZero_strict l r hl hr) fun _ =>
        applyRules_step (addHelper_strict hA hS (addCollect1_strict hS) l r hl hr) fun _ =>
        applyRules_step (addHelper_strict hA hS (addCollect2_strict hA hS) l r hl hr) fun _ =>
        applyRules_step (addHelper_strict hA hS (addCollect3_strict hA hS) l r hl hr) fun _ =>
        applyRules_step (addHelper_strict hA hS (addCollect4_strict hA hS) l r hl hr) fun _ =>
        applyRules_step (addHelper_strict hA hS (addCollect5_strict hA hS) l r hl hr) fun _ =>
        applyRules_step (addHelper_strict hA hS (addCollect6_strict hA hS) l r hl hr) fun _ =>
        applyRules_step (addHelper_strict hA hS (addCollect7_strict hA hS) l r hl hr) fun _ =>
        applyRules_step (addHelper_strict hA hS addConst1_strict l r hl hr) fun hc =>
        applyRules_step (addHelper_strict hA hS (addConst_skip hA (.inl rfl)) l r hl hr) fun _ =>
        applyRules_step (addHelper_strict hA hS (addConst_skip hA (.inr (.inl rfl))) l r hl hr) fun _ =>
        applyRules_step (addHelper_strict hA hS (addConst_skip hA (.inr (.inr (.inl rfl)))) l r hl hr) fun _ =>
        applyRules_step (addHelper_strict hA hS (addConst_skip hA (.inr (.inr (.inr rfl)))) l r hl hr) fun _ => ?_
      exact addMerge_strict hA hl hr hS hc hAv
    · show OAll (Strict A) (applyRules (mulRules (simp n)) l r)
      unfold mulRules
      refine applyRules_step (mulZero_strict l r hl hr) fun _ =>
        applyRules_step (mulOne_strict l r hl hr) fun _ =>
        applyRules_step (mulDistribute_strict hA hS l r hl hr) fun _ =>
        applyRules_step (mulHelper_strict hA hS (mulCollect1_strict hS) l r hl hr) fun _ =>
        applyRules_step (mulHelper_strict hA hS (mulCollect2_strict hA hS) l r hl hr) fun _ =>
        applyRules_step (mulHelper_strict hA hS (mulCollect3_strict hA hS) l r hl hr) fun _ =>
        applyRules_step (mulHelper_strict hA hS (mulConst1_strict hA) l r hl hr) fun hc =>
        applyRules_step (mulConst2_strict hA l r hl hr) fun _ => ?_
      exact mulMerge_strict hA hl hr hS hc hAv
    · exact pow_strict hA hS hl hr

end

/-! ## Polynomials in the variables of a context -/

/-- A variable of the context. -/
def Var (L U : Nat) (e : Expr) : Prop := ∃ t i, L ≤ t ∧ t ≤ U ∧ e = .value t i

variable {L U : Nat}

theorem var_opaque {e : Expr} (h : Var L U e) : Opaque e := by
  obtain ⟨t, i, -, -, rfl⟩ := h
  exact ⟨rfl, rfl, rfl, rfl⟩

theorem var_after {e : Expr} (v : Int) (h : Var L U e) : lt (.const v) e = true := by
  obtain ⟨t, i, -, -, rfl⟩ := h
  rfl

theorem strict_closed : ExpClosed (Strict (Var L U)) := fun n l r hl hr =>
  ⟨(simp_strict (fun _ => var_opaque) (fun _ v => var_after v) n).add l r hl hr,
    (simp_strict (fun _ => var_opaque) (fun _ v => var_after v) n).mul l r hl hr⟩

theorem leaf_strict {e : Expr} (h : Leaf L U e) : Strict (Var L U) e := by
  rcases h with ⟨v, rfl⟩ | h
  · exact .const v
  · exact .atom e h

end GATL
