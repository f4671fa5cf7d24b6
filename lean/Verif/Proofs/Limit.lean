import Verif.Proofs.Depth

/-!
# The value simplifier with enough depth

`limit` gives the results of `simp` at a great enough depth; it satisfies the equations of the rules without
a depth.
-/

namespace GATL

open Expr Classical

/-- The result at a great enough depth, if there is one. -/
noncomputable def limit : Simp := fun op l r =>
  if h : ∃ e, ∃ k, simp k op l r = some e then some h.choose else none

theorem limit_iff {op : Op} {l r e : Expr} : limit op l r = some e ↔ ∃ k, ∀ j, k ≤ j → simp j op l r = some e := by
  unfold limit
  constructor
  · intro h
    split at h
    · next hx =>
      rw [Option.some_inj] at h
      subst h
      obtain ⟨k, hk⟩ := hx.choose_spec
      exact ⟨k, fun j hj => simp_mono hj _ _ _ _ hk⟩
    · cases h
  · rintro ⟨k, hk⟩
    have hx : ∃ e, ∃ k, simp k op l r = some e := ⟨e, k, hk k le_rfl⟩
    rw [dif_pos hx, Option.some_inj]
    obtain ⟨k', hk'⟩ := hx.choose_spec
    have h1 := simp_mono (le_max_left k k') _ _ _ _ (hk k le_rfl)
    have h2 := simp_mono (le_max_right k k') _ _ _ _ hk'
    exact Option.some_inj.1 (h2.symm.trans h1)

/-- What is computed from the limit is computed from all great enough depths. -/
def Cont {α : Type} (F : Simp → Option α) : Prop :=
  ∀ x, F limit = some x → ∃ k, ∀ j, k ≤ j → F (simp j) = some x

theorem Cont.const {α : Type} (o : Option α) : Cont fun _ => o := fun _ h => ⟨0, fun _ _ => h⟩

theorem Cont.call (op : Op) (l r : Expr) : Cont fun S => S op l r := fun _ h => limit_iff.1 h

theorem Cont.bind {α β : Type} {F : Simp → Option α} {G : α → Simp → Option β} (hF : Cont F)
    (hG : ∀ a, Cont (G a)) : Cont fun S => F S >>= fun a => G a S := by
  intro x h
  simp only [Option.bind_eq_bind, Option.bind_eq_some_iff] at h ⊢
  obtain ⟨a, h1, h2⟩ := h
  obtain ⟨k1, hk1⟩ := hF a h1
  obtain ⟨k2, hk2⟩ := hG a x h2
  exact ⟨max k1 k2, fun j hj => ⟨a, hk1 j (le_of_max_le_left hj), hk2 j (le_of_max_le_right hj)⟩⟩

theorem Cont.fire {F : Simp → Option Expr} (hF : Cont F) : Cont fun S => GATL.fire (F S) := by
  have : (fun S => GATL.fire (F S)) = fun S => F S >>= fun a => some (some a) := by
    funext S
    simp only [GATL.fire, Option.map_eq_bind]
    rfl
  rw [this]
  exact hF.bind fun a => .const _

theorem Cont.ite {α : Type} {p : Prop} [Decidable p] {F G : Simp → Option α} (hF : Cont F) (hG : Cont G) :
    Cont fun S => if p then F S else G S := by
  by_cases h : p <;> simp only [h, if_true, if_false] <;> assumption

theorem Cont.simplifies (p q : Expr) : Cont fun S => simplifies S p q := by
  unfold GATL.simplifies
  exact (Cont.call _ _ _).bind fun _ => .const _

macro "cont" : tactic => `(tactic|
  repeat first
    | exact Cont.const _
    | exact Cont.call _ _ _
    | exact Cont.simplifies _ _
    | apply Cont.fire
    | apply Cont.ite
    | (refine Cont.bind ?_ fun _ => ?_)
    | split)

/-- A rule that can be computed at great enough depths. -/
def RuleCont (R : Simp → Rule) : Prop := ∀ l r, Cont fun S => R S l r

theorem ruleCont_const (R : Rule) : RuleCont fun _ => R := fun _ _ => .const _

theorem addHelper_cont {R : Simp → Rule} (hR : RuleCont R) : RuleCont fun S => addHelper S (R S) := by
  intro l r
  rcases h1 : asAdd l with _ | ⟨a, as⟩ <;> rcases h2 : asAdd r with _ | ⟨b, bs⟩ <;>
    simp only [addHelper, h1, h2]
  · exact hR l r
  all_goals
    refine Cont.bind (hR _ _) fun o => ?_
    cases o <;> cont

theorem mulHelper_cont {R : Simp → Rule} (hR : RuleCont R) : RuleCont fun S => mulHelper S (R S) := by
  intro l r
  rcases h1 : asMul l with _ | ⟨a, as⟩ <;> rcases h2 : asMul r with _ | ⟨b, bs⟩ <;>
    simp only [mulHelper, h1, h2]
  · exact hR l r
  all_goals
    refine Cont.bind (hR _ _) fun o => ?_
    cases o <;> cont

theorem addCollect1_cont : RuleCont addCollect1 := by intro l r; unfold addCollect1; cont
theorem addCollect2_cont : RuleCont addCollect2 := by intro l r; unfold addCollect2; cont
theorem addCollect3_cont : RuleCont addCollect3 := by intro l r; unfold addCollect3; cont
theorem addCollect4_cont : RuleCont addCollect4 := by intro l r; unfold addCollect4; cont
theorem addCollect5_cont : RuleCont addCollect5 := by intro l r; unfold addCollect5; cont
theorem addCollect6_cont : RuleCont addCollect6 := by intro l r; unfold addCollect6; cont
theorem addCollect7_cont : RuleCont addCollect7 := by intro l r; unfold addCollect7; cont

theorem quotient_cont (n d : Option Int) : Cont fun S => quotient S n d := by unfold quotient; cont

theorem addConst2_cont : RuleCont addConst2 := by
  intro l r; unfold addConst2; repeat first | exact .const _ | exact .fire (quotient_cont _ _) | split
theorem addConst3_cont : RuleCont addConst3 := by
  intro l r; unfold addConst3; repeat first | exact .const _ | exact .fire (quotient_cont _ _) | split
theorem addConst4_cont : RuleCont addConst4 := by
  intro l r; unfold addConst4; repeat first | exact .const _ | exact .fire (quotient_cont _ _) | split
theorem addConst5_cont : RuleCont addConst5 := by
  intro l r; unfold addConst5; repeat first | exact .const _ | exact .fire (quotient_cont _ _) | split

theorem addMergeLt_cont : RuleCont addMergeLt := by intro l r; unfold addMergeLt; cont
theorem addMergeGt_cont : RuleCont addMergeGt := by intro l r; unfold addMergeGt; cont
theorem addMergeEq_cont : RuleCont addMergeEq := by intro l r; unfold addMergeEq; cont
theorem mulDistribute_cont : RuleCont mulDistribute := by intro l r; unfold mulDistribute; cont
theorem mulCollect1_cont : RuleCont mulCollect1 := by intro l r; unfold mulCollect1; cont
theorem mulCollect2_cont : RuleCont mulCollect2 := by intro l r; unfold mulCollect2; cont
theorem mulCollect3_cont : RuleCont mulCollect3 := by intro l r; unfold mulCollect3; cont
theorem mulConst1_cont : RuleCont mulConst1 := by intro l r; unfold mulConst1; cont

theorem simplerRational_cont (n d : Int) : Cont fun S => simplerRational S n d := by
  unfold simplerRational; dsimp only; cont

theorem mulConst2_cont : RuleCont mulConst2 := by
  intro l r; unfold mulConst2
  repeat first | exact .const _ | exact .fire (simplerRational_cont _ _) | split

theorem mulMergeLt_cont : RuleCont mulMergeLt := by intro l r; unfold mulMergeLt; cont
theorem mulMergeGt_cont : RuleCont mulMergeGt := by intro l r; unfold mulMergeGt; cont
theorem mulMergeEq_cont : RuleCont mulMergeEq := by intro l r; unfold mulMergeEq; cont
theorem powDistribute_cont : RuleCont powDistribute := by intro l r; unfold powDistribute; cont

theorem applyRules_cont {L : List (Simp → Rule)} (h : ∀ R ∈ L, RuleCont R) (l r : Expr) :
    Cont fun S => applyRules (L.map fun R => R S) l r := by
  induction L with
  | nil => exact .const _
  | cons R L ih =>
    intro x hx
    simp only [List.map_cons, applyRules] at hx ⊢
    cases hR : R limit l r with
    | none => simp [hR] at hx
    | some o =>
      rw [hR] at hx
      obtain ⟨k, hk⟩ := h R (by simp) l r o hR
      simp only at hk
      cases o with
      | some e => exact ⟨k, fun j hj => by rw [hk j hj]; exact hx⟩
      | none =>
        obtain ⟨k', hk'⟩ := ih (fun R hR => h R (by simp [hR])) x hx
        exact ⟨max k k', fun j hj => by
          rw [hk j (le_of_max_le_left hj)]; exact hk' j (le_of_max_le_right hj)⟩

theorem rulesOf_cont (op : Op) (l r : Expr) : Cont fun S => applyRules (rulesOf S op) l r := by
  cases op with
  | add =>
    refine applyRules_cont (L := [fun _ => addZero, fun S => addHelper S (addCollect1 S),
      fun S => addHelper S (addCollect2 S), fun S => addHelper S (addCollect3 S),
      fun S => addHelper S (addCollect4 S), fun S => addHelper S (addCollect5 S),
      fun S => addHelper S (addCollect6 S), fun S => addHelper S (addCollect7 S),
      fun S => addHelper S addConst1, fun S => addHelper S (addConst2 S), fun S => addHelper S (addConst3 S),
      fun S => addHelper S (addConst4 S), fun S => addHelper S (addConst5 S), addMergeLt, addMergeGt,
      addMergeEq]) ?_ l r
    simp only [List.forall_mem_cons, List.not_mem_nil, false_imp_iff, implies_true, and_true]
    exact ⟨ruleCont_const _, addHelper_cont addCollect1_cont, addHelper_cont addCollect2_cont,
      addHelper_cont addCollect3_cont, addHelper_cont addCollect4_cont, addHelper_cont addCollect5_cont,
      addHelper_cont addCollect6_cont, addHelper_cont addCollect7_cont, addHelper_cont (ruleCont_const _),
      addHelper_cont addConst2_cont, addHelper_cont addConst3_cont, addHelper_cont addConst4_cont,
      addHelper_cont addConst5_cont, addMergeLt_cont, addMergeGt_cont, addMergeEq_cont⟩
  | mul =>
    refine applyRules_cont (L := [fun _ => mulZero, fun _ => mulOne, mulDistribute,
      fun S => mulHelper S (mulCollect1 S), fun S => mulHelper S (mulCollect2 S),
      fun S => mulHelper S (mulCollect3 S), fun S => mulHelper S (mulConst1 S), mulConst2, mulMergeLt, mulMergeGt,
      mulMergeEq]) ?_ l r
    simp only [List.forall_mem_cons, List.not_mem_nil, false_imp_iff, implies_true, and_true]
    exact ⟨ruleCont_const _, ruleCont_const _, mulDistribute_cont, mulHelper_cont mulCollect1_cont,
      mulHelper_cont mulCollect2_cont, mulHelper_cont mulCollect3_cont, mulHelper_cont mulConst1_cont,
      mulConst2_cont, mulMergeLt_cont, mulMergeGt_cont, mulMergeEq_cont⟩
  | pow =>
    refine applyRules_cont (L := [fun _ => powMisc1, fun _ => powMisc2, fun _ => powMisc3, powDistribute]) ?_ l r
    simp only [List.forall_mem_cons, List.not_mem_nil, false_imp_iff, implies_true, and_true]
    exact ⟨ruleCont_const _, ruleCont_const _, ruleCont_const _, powDistribute_cont⟩

/-- The limit satisfies the rules. -/
theorem limit_rules {op : Op} {l r e : Expr} (h : applyRules (rulesOf limit op) l r = some e) :
    limit op l r = some e := by
  obtain ⟨k, hk⟩ := rulesOf_cont op l r e h
  refine limit_iff.2 ⟨k + 1, fun j hj => ?_⟩
  obtain ⟨j, rfl⟩ : ∃ i, j = i + 1 := ⟨j - 1, by omega⟩
  exact hk j (by omega)

end GATL
