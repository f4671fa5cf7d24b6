import Verif.Model.Components

/-!
# A greater instantiation depth does not change the result
-/

namespace GATL

open Expr

/-- The second result extends the first. -/
def OLe {α : Type} (o o' : Option α) : Prop := ∀ x, o = some x → o' = some x

theorem OLe.refl {α : Type} (o : Option α) : OLe o o := fun _ h => h

theorem OLe.bind {α β : Type} {o o' : Option α} {f f' : α → Option β} (h : OLe o o')
    (hf : ∀ a, OLe (f a) (f' a)) : OLe (o >>= f) (o' >>= f') := by
  intro x hx
  simp only [Option.bind_eq_bind, Option.bind_eq_some_iff] at hx ⊢
  obtain ⟨a, ha, hx⟩ := hx
  exact ⟨a, h a ha, hf a x hx⟩

theorem OLe.fire {o o' : Option Expr} (h : OLe o o') : OLe (fire o) (fire o') := by
  intro x hx
  cases o with
  | none => simp [GATL.fire] at hx
  | some a => rw [h a rfl]; exact hx

/-- `S'` gives every result of `S`. -/
def SimpExt (S S' : Simp) : Prop := ∀ op l r, OLe (S op l r) (S' op l r)

/-- A rule keeps its results in a greater depth. -/
def RuleMono (R R' : Rule) : Prop := ∀ l r, OLe (R l r) (R' l r)

variable {S S' : Simp}

theorem simplifies_ole (h : SimpExt S S') (p q : Expr) : OLe (simplifies S p q) (simplifies S' p q) := by
  unfold simplifies
  exact OLe.bind (h _ _ _) fun _ => OLe.refl _

macro "ole" h:ident : tactic => `(tactic|
  repeat first
    | exact OLe.refl _
    | exact $h _ _ _
    | exact simplifies_ole $h _ _
    | apply OLe.fire
    | (refine OLe.bind ?_ fun _ => ?_)
    | split)

theorem addHelper_mono (h : SimpExt S S') {R R' : Rule} (hR : RuleMono R R') :
    RuleMono (addHelper S R) (addHelper S' R') := by
  intro l r
  unfold addHelper
  rcases asAdd l with _ | ⟨a, as⟩ <;> rcases asAdd r with _ | ⟨b, bs⟩
  · exact hR l r
  · refine OLe.bind (hR _ _) fun o => ?_
    cases o <;> ole h
  · refine OLe.bind (hR _ _) fun o => ?_
    cases o <;> ole h
  · refine OLe.bind (hR _ _) fun o => ?_
    cases o <;> ole h

theorem mulHelper_mono (h : SimpExt S S') {R R' : Rule} (hR : RuleMono R R') :
    RuleMono (mulHelper S R) (mulHelper S' R') := by
  intro l r
  unfold mulHelper
  rcases asMul l with _ | ⟨a, as⟩ <;> rcases asMul r with _ | ⟨b, bs⟩
  · exact hR l r
  · refine OLe.bind (hR _ _) fun o => ?_
    cases o <;> ole h
  · refine OLe.bind (hR _ _) fun o => ?_
    cases o <;> ole h
  · refine OLe.bind (hR _ _) fun o => ?_
    cases o <;> ole h

theorem addCollect1_mono (h : SimpExt S S') : RuleMono (addCollect1 S) (addCollect1 S') := by
  intro l r; unfold addCollect1; ole h

theorem addCollect2_mono (h : SimpExt S S') : RuleMono (addCollect2 S) (addCollect2 S') := by
  intro l r; unfold addCollect2; ole h

theorem addCollect3_mono (h : SimpExt S S') : RuleMono (addCollect3 S) (addCollect3 S') := by
  intro l r; unfold addCollect3; ole h

theorem addCollect4_mono (h : SimpExt S S') : RuleMono (addCollect4 S) (addCollect4 S') := by
  intro l r; unfold addCollect4; ole h

theorem addCollect5_mono (h : SimpExt S S') : RuleMono (addCollect5 S) (addCollect5 S') := by
  intro l r; unfold addCollect5; ole h

theorem addCollect6_mono (h : SimpExt S S') : RuleMono (addCollect6 S) (addCollect6 S') := by
  intro l r; unfold addCollect6; ole h

theorem addCollect7_mono (h : SimpExt S S') : RuleMono (addCollect7 S) (addCollect7 S') := by
  intro l r; unfold addCollect7; ole h

theorem quotient_ole (h : SimpExt S S') (n d : Option Int) : OLe (quotient S n d) (quotient S' n d) := by
  unfold quotient; ole h

theorem addConst2_mono (h : SimpExt S S') : RuleMono (addConst2 S) (addConst2 S') := by
  intro l r; unfold addConst2; repeat first | exact OLe.refl _ | exact OLe.fire (quotient_ole h _ _) | split

theorem addConst3_mono (h : SimpExt S S') : RuleMono (addConst3 S) (addConst3 S') := by
  intro l r; unfold addConst3; repeat first | exact OLe.refl _ | exact OLe.fire (quotient_ole h _ _) | split

theorem addConst4_mono (h : SimpExt S S') : RuleMono (addConst4 S) (addConst4 S') := by
  intro l r; unfold addConst4; repeat first | exact OLe.refl _ | exact OLe.fire (quotient_ole h _ _) | split

theorem addConst5_mono (h : SimpExt S S') : RuleMono (addConst5 S) (addConst5 S') := by
  intro l r; unfold addConst5; repeat first | exact OLe.refl _ | exact OLe.fire (quotient_ole h _ _) | split

theorem addMergeLt_mono (h : SimpExt S S') : RuleMono (addMergeLt S) (addMergeLt S') := by
  intro l r; unfold addMergeLt; ole h

theorem addMergeGt_mono (h : SimpExt S S') : RuleMono (addMergeGt S) (addMergeGt S') := by
  intro l r; unfold addMergeGt; ole h

theorem addMergeEq_mono (h : SimpExt S S') : RuleMono (addMergeEq S) (addMergeEq S') := by
  intro l r; unfold addMergeEq; ole h

theorem mulDistribute_mono (h : SimpExt S S') : RuleMono (mulDistribute S) (mulDistribute S') := by
  intro l r; unfold mulDistribute; ole h

theorem mulCollect1_mono (h : SimpExt S S') : RuleMono (mulCollect1 S) (mulCollect1 S') := by
  intro l r; unfold mulCollect1; ole h

theorem mulCollect2_mono (h : SimpExt S S') : RuleMono (mulCollect2 S) (mulCollect2 S') := by
  intro l r; unfold mulCollect2; ole h

theorem mulCollect3_mono (h : SimpExt S S') : RuleMono (mulCollect3 S) (mulCollect3 S') := by
  intro l r; unfold mulCollect3; ole h

theorem mulConst1_mono (h : SimpExt S S') : RuleMono (mulConst1 S) (mulConst1 S') := by
  intro l r; unfold mulConst1; ole h

theorem simplerRational_ole (h : SimpExt S S') (n d : Int) :
    OLe (simplerRational S n d) (simplerRational S' n d) := by
  unfold simplerRational; dsimp only; ole h

theorem mulConst2_mono (h : SimpExt S S') : RuleMono (mulConst2 S) (mulConst2 S') := by
  intro l r; unfold mulConst2
  repeat first | exact OLe.refl _ | exact OLe.fire (simplerRational_ole h _ _) | split

theorem mulMergeLt_mono (h : SimpExt S S') : RuleMono (mulMergeLt S) (mulMergeLt S') := by
  intro l r; unfold mulMergeLt; ole h

theorem mulMergeGt_mono (h : SimpExt S S') : RuleMono (mulMergeGt S) (mulMergeGt S') := by
  intro l r; unfold mulMergeGt; ole h

theorem mulMergeEq_mono (h : SimpExt S S') : RuleMono (mulMergeEq S) (mulMergeEq S') := by
  intro l r; unfold mulMergeEq; ole h

theorem powDistribute_mono (h : SimpExt S S') : RuleMono (powDistribute S) (powDistribute S') := by
  intro l r; unfold powDistribute; ole h

theorem ruleMono_refl (R : Rule) : RuleMono R R := fun _ _ => OLe.refl _

theorem applyRules_mono {L L' : List Rule} (h : List.Forall₂ RuleMono L L') (l r : Expr) :
    OLe (applyRules L l r) (applyRules L' l r) := by
  induction h with
  | nil => exact OLe.refl _
  | @cons R R' L L' hR _ ih =>
    intro x hx
    simp only [applyRules] at hx ⊢
    cases hR' : R l r with
    | none => simp [hR'] at hx
    | some o =>
      rw [hR l r o hR']
      rw [hR'] at hx
      cases o with
      | none => exact ih x hx
      | some e => exact hx

theorem rulesOf_mono (h : SimpExt S S') (op : Op) :
    List.Forall₂ RuleMono (rulesOf S op) (rulesOf S' op) := by
  cases op with
  | add =>
    simp only [rulesOf, addRules, List.forall₂_cons, List.forall₂_nil_left_iff]
    exact ⟨ruleMono_refl _, addHelper_mono h (addCollect1_mono h),
      addHelper_mono h (addCollect2_mono h), addHelper_mono h (addCollect3_mono h),
      addHelper_mono h (addCollect4_mono h), addHelper_mono h (addCollect5_mono h),
      addHelper_mono h (addCollect6_mono h), addHelper_mono h (addCollect7_mono h),
      addHelper_mono h (ruleMono_refl _), addHelper_mono h (addConst2_mono h),
      addHelper_mono h (addConst3_mono h), addHelper_mono h (addConst4_mono h),
      addHelper_mono h (addConst5_mono h), addMergeLt_mono h, addMergeGt_mono h,
      addMergeEq_mono h, trivial⟩
  | mul =>
    simp only [rulesOf, mulRules, List.forall₂_cons, List.forall₂_nil_left_iff]
    exact ⟨ruleMono_refl _, ruleMono_refl _, mulDistribute_mono h,
      mulHelper_mono h (mulCollect1_mono h), mulHelper_mono h (mulCollect2_mono h),
      mulHelper_mono h (mulCollect3_mono h), mulHelper_mono h (mulConst1_mono h),
      mulConst2_mono h, mulMergeLt_mono h, mulMergeGt_mono h, mulMergeEq_mono h, trivial⟩
  | pow =>
    simp only [rulesOf, powRules, List.forall₂_cons, List.forall₂_nil_left_iff]
    exact ⟨ruleMono_refl _, ruleMono_refl _, ruleMono_refl _, powDistribute_mono h, trivial⟩

/-- A result of the value simplifier remains the result at every greater depth. -/
theorem simp_mono {j k : Nat} (h : j ≤ k) : SimpExt (simp j) (simp k) := by
  induction k generalizing j with
  | zero => obtain rfl : j = 0 := by omega
            exact fun _ _ _ => OLe.refl _
  | succ k ih =>
    cases j with
    | zero => intro op l r x hx; simp [simp] at hx
    | succ j =>
      intro op l r
      exact applyRules_mono (rulesOf_mono (ih (by omega)) op) l r

/-- The sum of components keeps its result at every greater depth. -/
theorem addC_mono {j k : Nat} (h : j ≤ k) (s t : CSum) : OLe (addC j s t) (addC k s t) := by
  induction k generalizing j s t with
  | zero => obtain rfl : j = 0 := by omega
            exact OLe.refl _
  | succ k ih =>
    cases j with
    | zero => intro x hx; simp [addC] at hx
    | succ j =>
      have hjk : j ≤ k := by omega
      rcases s with _ | ⟨a, as⟩
      · intro x hx; simp [addC] at hx
      rcases t with _ | ⟨b, bs⟩
      · intro x hx; simp [addC] at hx
      unfold addC
      repeat first
        | exact OLe.refl _
        | exact simp_mono hjk _ _ _
        | exact ih hjk _ _
        | (refine OLe.bind ?_ fun _ => ?_)
        | split

end GATL
