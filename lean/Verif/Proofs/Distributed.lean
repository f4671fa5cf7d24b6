import Verif.Spec.Write
import Verif.Proofs.Leaves

/-!
# Simplified expressions are sums of products

The rules of the simplifier keep the form in which products are distributed over sums.
-/

namespace GATL

open Expr Spec

theorem form_const (v : Int) : SumForm (.const v) := .one _ (.one _ (.const v))

theorem form_power {l r : Expr} (hl : SumForm l) (hr : SumForm r) : FactorForm (powerOf l r) :=
  .fn .power [l, r] (by simp [arity]) (by simp [arity]) (by
    intro a ha
    simp only [List.mem_cons, List.not_mem_nil, or_false] at ha
    rcases ha with rfl | rfl <;> assumption)

theorem form_half : SumForm half := .one _ (.one _ (form_power (form_const 2) (form_const (-1))))

/-- The summands of a sum of products. -/
theorem form_asAdd {e a : Expr} {as : List Expr} (h : SumForm e) (ha : asAdd e = some (a, as)) :
    ProductForm a ∧ ∀ x ∈ as, ProductForm x := by
  unfold asAdd at ha
  split at ha
  · cases ha
    cases h with
    | one _ h => cases h with
      | one _ h => cases h with
        | fn _ _ hn _ _ => simp [arity] at hn
    | add _ _ h => exact ⟨h _ (by simp), fun x hx => h _ (by simp [hx])⟩
  · cases ha

/-- A sum of products that is not a sum is a product. -/
theorem form_single {e : Expr} (h : SumForm e) (ha : asAdd e = none) : ProductForm e := by
  cases h with
  | one _ h => exact h
  | add args hl _ =>
    match args, hl, ha with
    | a :: as, _, ha => simp [asAdd] at ha

theorem form_asMul {e a : Expr} {as : List Expr} (h : ProductForm e) (ha : asMul e = some (a, as)) :
    FactorForm a ∧ ∀ x ∈ as, FactorForm x := by
  unfold asMul at ha
  split at ha
  · cases ha
    cases h with
    | one _ h => cases h with
      | fn _ _ hn _ _ => simp [arity] at hn
    | mul _ _ h => exact ⟨h _ (by simp), fun x hx => h _ (by simp [hx])⟩
  · cases ha

theorem form_factor {e : Expr} (h : ProductForm e) (ha : asMul e = none) : FactorForm e := by
  cases h with
  | one _ h => exact h
  | mul args hl _ =>
    match args, hl, ha with
    | a :: as, _, ha => simp [asMul] at ha

theorem form_asPower {e a p : Expr} (h : SumForm e) (ha : asPower e = some (a, p)) : SumForm a ∧ SumForm p := by
  unfold asPower at ha
  split at ha
  · cases ha
    cases h with
    | one _ h => cases h with
      | one _ h => cases h with
        | fn _ _ _ _ h => exact ⟨h _ (by simp), h _ (by simp)⟩
  · cases ha

theorem form_mkAdd {args : List Expr} (h : ∀ x ∈ args, ProductForm x) : OAll SumForm (mkAdd args) := by
  match args, h with
  | [], _ => exact .some (form_const 0)
  | [a], h => exact .some (.one _ (h a (by simp)))
  | a :: b :: as, h =>
    simp only [mkAdd]
    split
    · exact .none
    · exact .some (.add _ (by simp) h)

theorem form_mkMul {args : List Expr} (h : ∀ x ∈ args, FactorForm x) : OAll ProductForm (mkMul args) := by
  match args, h with
  | [], _ => exact .some (.one _ (.const 0))
  | [a], h => exact .some (.one _ (h a (by simp)))
  | a :: b :: as, h =>
    simp only [mkMul]
    split
    · exact .none
    · exact .some (.mul _ (by simp) h)

theorem form_mkConst (v : Int) : OAll FactorForm (mkConst v) := by
  intro e he
  simp only [mkConst, Option.map_eq_some_iff] at he
  obtain ⟨k, _, rfl⟩ := he
  exact .const k

/-- The metafunctions keep sums of products; powers of constants are factors. -/
structure Forms (S : Simp) : Prop where
  all : ∀ op l r, SumForm l → SumForm r → OAll SumForm (S op l r)
  recip : ∀ d, OAll FactorForm (S .pow (.const d) (.const (-1)))

section
variable {S : Simp} (hS : Forms S)
include hS

theorem form_bind2 {op : Op} {l r : Option Expr} (hl : OAll SumForm l) (hr : OAll SumForm r) :
    OAll SumForm (do S op (← l) (← r)) :=
  .bind hl fun _ h => .bind hr fun _ h' => hS.all _ _ _ h h'

omit hS in
theorem products {o : Option Expr} (h : OAll ProductForm o) : OAll SumForm o := fun x hx => .one _ (h x hx)

/-- A rule that keeps sums of products when it is applied to products. -/
def OnProducts (R : Rule) : Prop := ∀ l r, ProductForm l → ProductForm r → OAll (OAll SumForm) (R l r)

/-- A rule that keeps sums of products when it is applied to factors. -/
def OnFactors (R : Rule) : Prop := ∀ l r, FactorForm l → FactorForm r → OAll (OAll SumForm) (R l r)

/-- A rule that keeps sums of products. -/
def OnSums (R : Rule) : Prop := ∀ l r, SumForm l → SumForm r → OAll (OAll SumForm) (R l r)

theorem addHelper_form {R : Rule} (hR : OnProducts R) : OnSums (addHelper S R) := by
  intro l r hl hr
  unfold addHelper
  rcases el : asAdd l with _ | ⟨a, as⟩ <;> rcases er : asAdd r with _ | ⟨b, bs⟩
  · exact hR _ _ (form_single hl el) (form_single hr er)
  · obtain ⟨h1, h2⟩ := form_asAdd hr er
    refine OAll.bind (hR _ _ (form_single hl el) h1) fun o ho => ?_
    cases o with
    | none => exact .some .none
    | some e => exact .fire (.bind (form_mkAdd h2) fun _ h => hS.all _ _ _ (ho e rfl) h)
  · obtain ⟨h1, h2⟩ := form_asAdd hl el
    refine OAll.bind (hR _ _ h1 (form_single hr er)) fun o ho => ?_
    cases o with
    | none => exact .some .none
    | some e => exact .fire (.bind (form_mkAdd h2) fun _ h => hS.all _ _ _ (ho e rfl) h)
  · obtain ⟨h1, h2⟩ := form_asAdd hl el
    obtain ⟨h3, h4⟩ := form_asAdd hr er
    refine OAll.bind (hR _ _ h1 h3) fun o ho => ?_
    cases o with
    | none => exact .some .none
    | some e =>
      exact .fire (.bind (form_mkAdd h2) fun _ h => .bind (form_mkAdd h4) fun _ h' =>
        .bind (hS.all _ _ _ h h') fun _ h => hS.all _ _ _ (ho e rfl) h)

theorem mulHelper_form {R : Rule} (hR : OnFactors R) : OnProducts (mulHelper S R) := by
  intro l r hl hr
  unfold mulHelper
  rcases el : asMul l with _ | ⟨a, as⟩ <;> rcases er : asMul r with _ | ⟨b, bs⟩
  · exact hR _ _ (form_factor hl el) (form_factor hr er)
  · obtain ⟨h1, h2⟩ := form_asMul hr er
    refine OAll.bind (hR _ _ (form_factor hl el) h1) fun o ho => ?_
    cases o with
    | none => exact .some .none
    | some e => exact .fire (.bind (form_mkMul h2) fun _ h => hS.all _ _ _ (ho e rfl) (.one _ h))
  · obtain ⟨h1, h2⟩ := form_asMul hl el
    refine OAll.bind (hR _ _ h1 (form_factor hr er)) fun o ho => ?_
    cases o with
    | none => exact .some .none
    | some e => exact .fire (.bind (form_mkMul h2) fun _ h => hS.all _ _ _ (ho e rfl) (.one _ h))
  · obtain ⟨h1, h2⟩ := form_asMul hl el
    obtain ⟨h3, h4⟩ := form_asMul hr er
    refine OAll.bind (hR _ _ h1 h3) fun o ho => ?_
    cases o with
    | none => exact .some .none
    | some e =>
      exact .fire (.bind (form_mkMul h2) fun _ h => .bind (form_mkMul h4) fun _ h' =>
        .bind (hS.all _ _ _ (.one _ h) (.one _ h')) fun _ h => hS.all _ _ _ (ho e rfl) h)

omit hS in
theorem product_mul {p : Expr} {as : List Expr} (h : ProductForm (.fn .mul (p :: as))) :
    FactorForm p ∧ ∀ x ∈ as, FactorForm x := form_asMul h rfl

omit hS in
theorem factor_sum {e : Expr} (h : FactorForm e) : SumForm e := .one _ (.one _ h)

/-- Solve the collection rules. -/
local macro "form_step" hS:term : tactic => `(tactic| first
  | assumption
  | exact OAll.some OAll.none
  | exact form_const _
  | exact factor_sum (by assumption)
  | exact SumForm.one _ (by assumption)
  | refine OAll.fire ?_
  | exact Forms.all $hS _ _ _ (by first | assumption | exact form_const _ | exact factor_sum (by assumption) | exact SumForm.one _ (by assumption)) (by first | assumption | exact form_const _ | exact factor_sum (by assumption) | exact SumForm.one _ (by assumption))
  | (refine OAll.bind (Forms.all $hS _ _ _ (by first | assumption | exact form_const _ | exact factor_sum (by assumption) | exact SumForm.one _ (by assumption)) (by first | assumption | exact form_const _ | exact factor_sum (by assumption) | exact SumForm.one _ (by assumption))) fun _ _ => ?_)
  | (refine OAll.bind (form_mkMul (by assumption)) fun _ _ => ?_)
  | (refine OAll.bind (form_mkAdd (by assumption)) fun _ _ => ?_)
  | (refine OAll.bind' fun _ => ?_)
  | split)

theorem addCollect1_form : OnProducts (addCollect1 S) := by
  intro l r hl hr; unfold addCollect1
  repeat' form_step hS

theorem addCollect2_form : OnProducts (addCollect2 S) := by
  intro l r hl hr; unfold addCollect2
  split
  · obtain ⟨h1, h2⟩ := product_mul hl
    repeat' form_step hS
  · exact .some .none

theorem addCollect3_form : OnProducts (addCollect3 S) := by
  intro l r hl hr; unfold addCollect3
  split
  · obtain ⟨h1, h2⟩ := product_mul hr
    repeat' form_step hS
  · exact .some .none

theorem addCollect4_form : OnProducts (addCollect4 S) := by
  intro l r hl hr; unfold addCollect4
  split
  · obtain ⟨h1, h2⟩ := product_mul hl
    obtain ⟨h3, h4⟩ := product_mul hr
    repeat' form_step hS
  · exact .some .none

theorem addCollect5_form : OnProducts (addCollect5 S) := by
  intro l r hl hr; unfold addCollect5
  split
  · obtain ⟨h1, h2⟩ := product_mul hl
    repeat' form_step hS
  · exact .some .none

theorem addCollect6_form : OnProducts (addCollect6 S) := by
  intro l r hl hr; unfold addCollect6
  split
  · obtain ⟨h1, h2⟩ := product_mul hr
    repeat' form_step hS
  · exact .some .none

theorem addCollect7_form : OnProducts (addCollect7 S) := by
  intro l r hl hr; unfold addCollect7
  split
  · obtain ⟨h1, h2⟩ := product_mul hl
    obtain ⟨h3, h4⟩ := product_mul hr
    repeat' form_step hS
  · exact .some .none

theorem quotient_form (n d : Option Int) : OAll SumForm (quotient S n d) := by
  unfold quotient
  refine OAll.bind' fun _ => OAll.bind' fun _ => .bind (hS.recip _) fun _ h => hS.all _ _ _ (form_const _) (factor_sum h)

theorem simplerRational_form (n d : Int) : OAll SumForm (simplerRational S n d) := by
  unfold simplerRational
  refine OAll.bind' fun _ => OAll.bind' fun _ => ?_
  dsimp only
  split
  · refine .bind (hS.recip _) fun e he => products (form_mkMul ?_)
    intro x hx
    simp only [List.mem_cons, List.not_mem_nil, or_false] at hx
    rcases hx with rfl | rfl
    · exact .const _
    · exact he
  · split
    · exact .none
    · exact .bind (hS.recip _) fun e he => hS.all _ _ _ (form_const _) (factor_sum he)

omit hS in
theorem addConst1_form : OnProducts addConst1 := by
  intro l r _ _; unfold addConst1
  split
  · exact .fire (products fun x hx => .one _ (form_mkConst _ x hx))
  · exact .some .none

theorem addConst2_form : OnProducts (addConst2 S) := by
  intro l r _ _; unfold addConst2
  repeat' first
    | exact .some .none
    | exact .fire (quotient_form hS _ _)
    | split

theorem addConst3_form : OnProducts (addConst3 S) := by
  intro l r _ _; unfold addConst3
  repeat' first
    | exact .some .none
    | exact .fire (quotient_form hS _ _)
    | split

theorem addConst4_form : OnProducts (addConst4 S) := by
  intro l r _ _; unfold addConst4
  repeat' first
    | exact .some .none
    | exact .fire (quotient_form hS _ _)
    | split

theorem addConst5_form : OnProducts (addConst5 S) := by
  intro l r _ _; unfold addConst5
  repeat' first
    | exact .some .none
    | exact .fire (quotient_form hS _ _)
    | split

omit hS in
theorem cons_all {Q : Expr → Prop} {a : Expr} {as : List Expr} (h : Q a) (h' : ∀ x ∈ as, Q x) : ∀ x ∈ a :: as, Q x := by
  simpa using ⟨h, h'⟩

omit hS in
theorem pair_all {Q : Expr → Prop} {a b : Expr} (h : Q a) (h' : Q b) : ∀ x ∈ [a, b], Q x := by
  simpa using ⟨h, h'⟩

theorem addMergeLt_form : OnSums (addMergeLt S) := by
  intro l r hl hr
  unfold addMergeLt
  rcases el : asAdd l with _ | ⟨a, as⟩ <;> rcases er : asAdd r with _ | ⟨b, bs⟩ <;> dsimp only <;> split <;>
    try exact .some .none
  · exact .fire (form_mkAdd (pair_all (form_single hl el) (form_single hr er)))
  · obtain ⟨h1, h2⟩ := form_asAdd hr er
    exact .fire (form_mkAdd (cons_all (form_single hl el) (cons_all h1 h2)))
  · obtain ⟨h1, h2⟩ := form_asAdd hl el
    repeat' form_step hS
  · obtain ⟨h1, h2⟩ := form_asAdd hl el
    repeat' form_step hS

theorem addMergeGt_form : OnSums (addMergeGt S) := by
  intro l r hl hr
  unfold addMergeGt
  rcases el : asAdd l with _ | ⟨a, as⟩ <;> rcases er : asAdd r with _ | ⟨b, bs⟩ <;> dsimp only <;> split <;>
    try exact .some .none
  · exact .fire (form_mkAdd (pair_all (form_single hr er) (form_single hl el)))
  · obtain ⟨h1, h2⟩ := form_asAdd hr er
    repeat' form_step hS
  · obtain ⟨h1, h2⟩ := form_asAdd hl el
    exact .fire (form_mkAdd (cons_all (form_single hr er) (cons_all h1 h2)))
  · obtain ⟨h1, h2⟩ := form_asAdd hr er
    repeat' form_step hS

theorem addMergeEq_form : OnSums (addMergeEq S) := by
  intro l r hl hr
  unfold addMergeEq
  rcases el : asAdd l with _ | ⟨a, as⟩ <;> rcases er : asAdd r with _ | ⟨b, bs⟩ <;> dsimp only
  · exact .fire (form_mkAdd (pair_all (form_single hl el) (form_single hr er)))
  · obtain ⟨h1, h2⟩ := form_asAdd hr er
    exact .fire (form_mkAdd (cons_all (form_single hl el) (cons_all h1 h2)))
  · obtain ⟨h1, h2⟩ := form_asAdd hl el
    exact .fire (form_mkAdd (cons_all h1 (cons_all (form_single hr er) h2)))
  · obtain ⟨h1, h2⟩ := form_asAdd hl el
    obtain ⟨h3, h4⟩ := form_asAdd hr er
    have h5 := pair_all h1 h3
    repeat' form_step hS

theorem mulDistribute_form : OnSums (mulDistribute S) := by
  intro l r hl hr
  unfold mulDistribute
  rcases el : asAdd l with _ | ⟨a, as⟩ <;> rcases er : asAdd r with _ | ⟨b, bs⟩ <;> dsimp only
  · exact .some .none
  · obtain ⟨h1, h2⟩ := form_asAdd hr er
    repeat' form_step hS
  · obtain ⟨h1, h2⟩ := form_asAdd hl el
    repeat' form_step hS
  · obtain ⟨h1, h2⟩ := form_asAdd hl el
    obtain ⟨h3, h4⟩ := form_asAdd hr er
    repeat' form_step hS

theorem mulCollect1_form : OnFactors (mulCollect1 S) := by
  intro l r hl hr; unfold mulCollect1
  repeat' form_step hS

theorem mulCollect2_form : OnFactors (mulCollect2 S) := by
  intro l r hl hr; unfold mulCollect2
  rcases el : asPower l with _ | ⟨a, p⟩ <;> rcases er : asPower r with _ | ⟨b, q⟩ <;> dsimp only
  · exact .some .none
  · obtain ⟨h1, h2⟩ := form_asPower (factor_sum hr) er
    repeat' form_step hS
  · obtain ⟨h1, h2⟩ := form_asPower (factor_sum hl) el
    repeat' form_step hS
  · obtain ⟨h1, h2⟩ := form_asPower (factor_sum hl) el
    obtain ⟨h3, h4⟩ := form_asPower (factor_sum hr) er
    repeat' form_step hS

theorem mulCollect3_form : OnFactors (mulCollect3 S) := by
  intro l r hl hr; unfold mulCollect3
  rcases el : asPower l with _ | ⟨a, p⟩ <;> rcases er : asPower r with _ | ⟨b, q⟩ <;> dsimp only <;>
    try exact .some .none
  obtain ⟨h1, h2⟩ := form_asPower (factor_sum hl) el
  obtain ⟨h3, h4⟩ := form_asPower (factor_sum hr) er
  repeat' form_step hS

theorem mulConst1_form : OnFactors (mulConst1 S) := by
  intro l r _ _; unfold mulConst1
  split
  · exact .fire fun x hx => factor_sum (form_mkConst _ x hx)
  · split
    · exact .fire (.bind (form_mkConst _) fun _ h => hS.all _ _ _ (factor_sum h) (form_const _))
    · exact .some .none

theorem mulConst2_form (l r : Expr) : OAll (OAll SumForm) (mulConst2 S l r) := by
  unfold mulConst2
  repeat' first
    | exact .some .none
    | exact .fire (simplerRational_form hS _ _)
    | split

theorem mulMergeLt_form : OnProducts (mulMergeLt S) := by
  intro l r hl hr
  unfold mulMergeLt
  rcases el : asMul l with _ | ⟨a, as⟩ <;> rcases er : asMul r with _ | ⟨b, bs⟩ <;> dsimp only <;> split <;>
    try exact .some .none
  · exact .fire (products (form_mkMul (pair_all (form_factor hl el) (form_factor hr er))))
  · obtain ⟨h1, h2⟩ := form_asMul hr er
    exact .fire (products (form_mkMul (cons_all (form_factor hl el) (cons_all h1 h2))))
  · obtain ⟨h1, h2⟩ := form_asMul hl el
    repeat' form_step hS
  · obtain ⟨h1, h2⟩ := form_asMul hl el
    repeat' form_step hS

theorem mulMergeGt_form : OnProducts (mulMergeGt S) := by
  intro l r hl hr
  unfold mulMergeGt
  rcases el : asMul l with _ | ⟨a, as⟩ <;> rcases er : asMul r with _ | ⟨b, bs⟩ <;> dsimp only <;> split <;>
    try exact .some .none
  · exact .fire (products (form_mkMul (pair_all (form_factor hr er) (form_factor hl el))))
  · obtain ⟨h1, h2⟩ := form_asMul hr er
    repeat' form_step hS
  · obtain ⟨h1, h2⟩ := form_asMul hl el
    exact .fire (products (form_mkMul (cons_all (form_factor hr er) (cons_all h1 h2))))
  · obtain ⟨h1, h2⟩ := form_asMul hr er
    repeat' form_step hS

theorem mulMergeEq_form : OnProducts (mulMergeEq S) := by
  intro l r hl hr
  unfold mulMergeEq
  rcases el : asMul l with _ | ⟨a, as⟩ <;> rcases er : asMul r with _ | ⟨b, bs⟩ <;> dsimp only
  · exact .fire (products (form_mkMul (pair_all (form_factor hl el) (form_factor hr er))))
  · obtain ⟨h1, h2⟩ := form_asMul hr er
    exact .fire (products (form_mkMul (cons_all (form_factor hl el) (cons_all h1 h2))))
  · obtain ⟨h1, h2⟩ := form_asMul hl el
    exact .fire (products (form_mkMul (cons_all h1 (cons_all (form_factor hr er) h2))))
  · obtain ⟨h1, h2⟩ := form_asMul hl el
    obtain ⟨h3, h4⟩ := form_asMul hr er
    have h5 := pair_all h1 h3
    repeat' form_step hS

/-- The product distributes over sums first; the other rules see products only. -/
theorem mul_form (l r : Expr) (hl : SumForm l) (hr : SumForm r) : OAll SumForm (applyRules (mulRules S) l r) := by
  by_cases hs : asAdd l = none ∧ asAdd r = none
  · refine applyRules_over ?_
    intro R hR
    have hl' := form_single hl hs.1
    have hr' := form_single hr hs.2
    simp only [mulRules, List.mem_cons, List.not_mem_nil, or_false] at hR
    rcases hR with rfl | rfl | rfl | rfl | rfl | rfl | rfl | rfl | rfl | rfl | rfl
    · unfold mulZero; split
      · exact .some (.some (form_const 0))
      · exact .some .none
    · unfold mulOne; split
      · exact .some (.some hr)
      · split
        · exact .some (.some hl)
        · exact .some .none
    · exact mulDistribute_form hS l r hl hr
    · exact mulHelper_form hS (mulCollect1_form hS) l r hl' hr'
    · exact mulHelper_form hS (mulCollect2_form hS) l r hl' hr'
    · exact mulHelper_form hS (mulCollect3_form hS) l r hl' hr'
    · exact mulHelper_form hS (mulConst1_form hS) l r hl' hr'
    · exact mulConst2_form hS l r
    · exact mulMergeLt_form hS l r hl' hr'
    · exact mulMergeGt_form hS l r hl' hr'
    · exact mulMergeEq_form hS l r hl' hr'
  · intro e he
    rw [mulRules, applyRules] at he
    unfold mulZero at he
    by_cases h0 : l = .const 0 ∨ r = .const 0
    · simp only [if_pos h0, Option.some.injEq] at he
      exact he ▸ form_const 0
    · simp only [if_neg h0] at he
      rw [applyRules] at he
      unfold mulOne at he
      by_cases h1 : l = .const 1
      · simp only [if_pos h1, Option.some.injEq] at he
        exact he ▸ hr
      · by_cases h2 : r = .const 1
        · simp only [if_neg h1, if_pos h2, Option.some.injEq] at he
          exact he ▸ hl
        · simp only [if_neg h1, if_neg h2] at he
          rw [applyRules] at he
          have hd := mulDistribute_form hS l r hl hr
          have hn : mulDistribute S l r ≠ some none := by
            unfold mulDistribute
            rcases el : asAdd l with _ | ⟨a, as⟩ <;> rcases er : asAdd r with _ | ⟨b, bs⟩
            · exact absurd ⟨el, er⟩ hs
            all_goals (dsimp only; intro hf; simp only [fire, Option.map_eq_some_iff, reduceCtorEq, and_false, exists_false] at hf)
          rcases hm : mulDistribute S l r with _ | _ | x
          · rw [hm] at he; cases he
          · exact absurd hm hn
          · rw [hm] at he
            exact hd _ hm _ (by simpa using he)

end

theorem isqrt_form (v : Int) : OAll FactorForm (simplerIsqrt v) := by
  unfold simplerIsqrt
  repeat' first
    | exact .none
    | exact .some (.const _)
    | exact .some (form_power (form_const _) form_half)
    | refine OAll.bind' fun _ => ?_
    | split

theorem ipow_form (b e : Int) : OAll FactorForm (simplerIpow b e) := by
  intro x hx
  simp only [simplerIpow, Option.map_eq_some_iff] at hx
  obtain ⟨_, _, rfl⟩ := hx
  exact .const _

theorem powMisc3_form (l r : Expr) : OAll (OAll FactorForm) (powMisc3 l r) := by
  unfold powMisc3
  split
  · exact .some .none
  · split
    · exact .fire (isqrt_form _)
    · split
      · exact .some .none
      · refine OAll.bind' fun _ => OAll.bind (ipow_form _ _) fun p hp => ?_
        split
        · exact .some (.some (by split <;> exact .const _))
        · split
          · exact .some (.some hp)
          · exact .some (.some (form_power (factor_sum hp) (form_const _)))

/-- Sums, products and powers of sums of products are sums of products. -/
theorem simp_forms (n : Nat) : Forms (simp n) := by
  induction n with
  | zero => exact ⟨fun _ _ _ _ _ => .none, fun _ => .none⟩
  | succ n hS =>
    refine ⟨fun op l r hl hr => ?_, fun d => ?_⟩
    · cases op with
      | add =>
        refine applyRules_over ?_
        intro R hR
        suffices OnSums R from this l r hl hr
        simp only [rulesOf, addRules, List.mem_cons, List.not_mem_nil, or_false] at hR
        rcases hR with rfl | rfl | rfl | rfl | rfl | rfl | rfl | rfl | rfl | rfl | rfl | rfl | rfl |
          rfl | rfl | rfl
        · intro l r hl hr; unfold addZero; split
          · exact .some (.some hr)
          · split
            · exact .some (.some hl)
            · exact .some .none
        · exact addHelper_form hS (addCollect1_form hS)
        · exact addHelper_form hS (addCollect2_form hS)
        · exact addHelper_form hS (addCollect3_form hS)
        · exact addHelper_form hS (addCollect4_form hS)
        · exact addHelper_form hS (addCollect5_form hS)
        · exact addHelper_form hS (addCollect6_form hS)
        · exact addHelper_form hS (addCollect7_form hS)
        · exact addHelper_form hS addConst1_form
        · exact addHelper_form hS (addConst2_form hS)
        · exact addHelper_form hS (addConst3_form hS)
        · exact addHelper_form hS (addConst4_form hS)
        · exact addHelper_form hS (addConst5_form hS)
        · exact addMergeLt_form hS
        · exact addMergeGt_form hS
        · exact addMergeEq_form hS
      | mul => exact mul_form hS l r hl hr
      | pow =>
        refine applyRules_over ?_
        intro R hR
        simp only [rulesOf, powRules, List.mem_cons, List.not_mem_nil, or_false] at hR
        rcases hR with rfl | rfl | rfl | rfl
        · unfold powMisc1
          repeat' first
            | exact .some .none
            | exact .some (.some (form_const _))
            | refine OAll.bind' fun _ => ?_
            | split
        · unfold powMisc2
          repeat' first
            | exact .some .none
            | exact .some (.some (form_const _))
            | exact .some (.some hl)
            | split
        · exact fun o ho x hx => factor_sum (powMisc3_form l r o ho x hx)
        · unfold powDistribute
          rcases el : asMul l with _ | ⟨a, as⟩
          · rcases er : asPower l with _ | ⟨b, q⟩
            · exact .some (.some (factor_sum (form_power hl hr)))
            · obtain ⟨h1, h2⟩ := form_asPower hl er
              exact .fire (.bind (hS.all _ _ _ h2 hr) fun _ h => hS.all _ _ _ h1 h)
          · have ha : asAdd l = none := by
              unfold asMul at el
              split at el
              · rfl
              · cases el
            obtain ⟨h1, h2⟩ := form_asMul (form_single hl ha) el
            exact .fire (.bind (hS.all _ _ _ (factor_sum h1) hr) fun _ h => .bind (form_mkMul h2) fun _ h' =>
              .bind (hS.all _ _ _ (.one _ h') hr) fun _ h'' => hS.all _ _ _ h h'')
    · refine applyRules_over ?_
      intro R hR
      simp only [rulesOf, powRules, List.mem_cons, List.not_mem_nil, or_false] at hR
      rcases hR with rfl | rfl | rfl | rfl
      · unfold powMisc1
        repeat' first
          | exact .some .none
          | exact .some (.some (.const _))
          | refine OAll.bind' fun _ => ?_
          | split
      · unfold powMisc2
        rw [if_neg (by simp), if_neg (by simp)]
        exact .some .none
      · exact powMisc3_form _ _
      · exact .some (.some (form_power (form_const _) (form_const _)))

end GATL
