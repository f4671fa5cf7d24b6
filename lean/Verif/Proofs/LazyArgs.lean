import Verif.Proofs.LazyComp
import Verif.Proofs.Components

/-!
# The arguments of a lazy context
-/

namespace GATL

open Expr Spec

variable {N : Nat} {ρ ρ' : Env}

mutual
theorem tag_symbolic (T v b : Nat) : ∀ e : Expr, hasStored e = false → tag T v b e = e
  | .fn name args, h => by
    rw [hasStored] at h
    rw [tag, tagAll_symbolic T v b args h]
  | .const _, _ => rfl
  | .cbits _, _ => rfl
  | .value _ _, _ => rfl
  | .mapValues _ _, _ => rfl
  | .bitset _ _, _ => rfl
  | .mapBitsets _ _, _ => rfl
  | .cbool _, _ => rfl
  | .stored, h => by simp [hasStored] at h
  | .storedMap, h => by simp [hasStored] at h
  | .storedBits, h => by simp [hasStored] at h
  | .storedMapBits, h => by simp [hasStored] at h
theorem tagAll_symbolic (T v b : Nat) : ∀ args : List Expr, hasStoredAny args = false →
    tagAll T v b args = args
  | [], _ => rfl
  | a :: as, h => by
    rw [hasStoredAny, Bool.or_eq_false_iff] at h
    rw [tagAll, tag_symbolic T v b a h.1, tagAll_symbolic T _ _ as h.2]
end

theorem mkDynBlade_var {G : Word} {e : Expr} (h : isConstant e = false) :
    mkDynBlade G e = some (if G = 1 then .const 0 else .dyn G e) := by
  unfold mkDynBlade
  split
  · simp [isConstant] at h
  · rfl

theorem gradeOf_zero {w : Word} (h : gradeOf w = 0) : w = 0 := by
  have h' : vecs w = ∅ := Finset.card_eq_zero.1 h
  refine word_ext fun i hi => ?_
  have : (⟨i, hi⟩ : Fin 64) ∉ vecs w := by rw [h']; simp
  rw [mem_vecs] at this
  simpa using this

theorem vecs_one {g : Fin 64} (h : g ∈ vecs 1) : g.val = 0 := by
  rw [mem_vecs] at h
  revert h
  fin_cases g <;> simp

/-- A run-time blade with the given possible grades. -/
theorem dynBlade_ok {c e : Expr} {x : ℝ} {G w : Word} {bl : Blade} (hb : Built c)
    (hx : Denotes ρ c x) (he : Built e) (hc : isConstant e = false)
    (hd : den ρ e = some (.bits w)) (hw : WellTyped N (x, .dyn G w))
    (h : mkDynBlade G e = some bl) : SumDenotes ρ N [⟨c, bl⟩] (Finsupp.single w x) := by
  rw [mkDynBlade_var hc, Option.some.injEq] at h
  subst h
  rw [SumDenotes.single_iff]
  by_cases h1 : G = 1
  · rw [if_pos h1]
    refine ⟨⟨hb, by simp⟩, (x, .const 0), ⟨hx, rfl⟩, by simp [WellTyped, vecs], ?_⟩
    by_cases h0 : x = 0
    · simp [h0]
    · obtain ⟨g, hg, e1⟩ := hw.2.2 h0
      rw [h1] at hg
      rw [vecs_one hg] at e1
      rw [gradeOf_zero e1.symm]
      rfl
  · rw [if_neg h1]
    refine ⟨⟨hb, ?_⟩, (x, .dyn G w), ⟨hx, w, hd, rfl⟩, hw, rfl⟩
    intro G' e' h
    obtain ⟨rfl, rfl⟩ := Blade.dyn.inj h
    exact ⟨he, hc⟩

/-- A tagged sum stands for the multivector stored in the object. -/
theorem tagC_reads {T B : Nat} (hN : N ≤ 63) (hag : Agree B ρ ρ') {s : CSum} {vs : List ℝ}
    {ws : List Word} {m : MV ℝ} (h : Reads ρ N s vs ws m) (hg : greaterIdC s ≤ B) :
    ∀ (v b : Nat) (a : CSum), (∀ i x, vs[i]? = some x → ρ'.val T (v + i) = x) →
      (∀ i x, ws[i]? = some x → ρ'.bits T (b + i) = x) → tagC T v b s = some a →
      SumDenotes ρ' N a m := by
  induction h with
  | nil =>
    intro v b a _ _ ha
    simp only [tagC, Option.some.injEq] at ha
    subst ha
    exact SumDenotes.nil
  | @cons c bl s vs ws vs' ws' x t m hc hb hw hs ih =>
    intro v b a hv hbs ha
    simp only [tagC, Option.bind_eq_bind, Option.bind_eq_some_iff, Option.some.injEq] at ha
    obtain ⟨bl', h1, rest, h2, rfl⟩ := ha
    simp only [greaterIdC] at hg
    have hcv : countValues c = vs.length ∧ countBits c = 0 ∧ Built (tag T v b c) ∧
        Denotes ρ' (tag T v b c) x := by
      cases hc with
      | stored x =>
        exact ⟨rfl, rfl, .value _ _, by
          have := hv 0 x (by simp)
          simpa [Denotes, tag, den] using this⟩
      | symbolic c x hs hb hd =>
        rw [tag_symbolic _ _ _ _ hs]
        exact ⟨(counts_zero _ hs).1, (counts_zero _ hs).2, hb, by
          rw [Denotes, ← den_agree hag c (by omega)]; exact hd⟩
    obtain ⟨c1, c2, c3, c4⟩ := hcv
    have hbl : bl.countValues = 0 ∧ bl.countBits = ws.length ∧
        SumDenotes ρ' N [⟨tag T v b c, bl'⟩] (Finsupp.single t.bits x) := by
      cases hb with
      | const b0 =>
        simp only [Blade.tag, Option.some.injEq] at h1
        subst h1
        exact ⟨rfl, rfl, SumDenotes.single_iff.2 ⟨⟨c3, by simp⟩, (x, .const b0), ⟨c4, rfl⟩, hw, rfl⟩⟩
      | stored G w =>
        refine ⟨rfl, rfl, dynBlade_ok (e := .bitset T (b + countBits c)) c3 c4 (.bitset _ _)
          (by simp [isConstant]) ?_ hw h1⟩
        have := hbs 0 w (by simp)
        rw [c2, den]
        simpa [TBlade.bits] using this
      | symbolic G e w hs hb hc hd =>
        have h1' : mkDynBlade G (tag T (v + countValues c) (b + countBits c) e) = some bl' := h1
        rw [tag_symbolic _ _ _ _ hs] at h1'
        have hge : greaterId e ≤ B := by
          have : (Blade.dyn G e).greaterId = greaterId e := rfl
          omega
        exact ⟨(counts_zero e hs).1, (counts_zero e hs).2,
          dynBlade_ok c3 c4 hb hc (by rw [← den_agree hag e hge]; exact hd) hw h1'⟩
    obtain ⟨b1, b2, b3⟩ := hbl
    refine SumDenotes.cons_iff.2 ⟨_, m, mkComp_ok hN b3, ?_, rfl⟩
    refine ih (by omega) _ _ _ ?_ ?_ h2
    · intro i y hi
      rw [Comp.countValues]
      simp only
      rw [c1, b1, Nat.add_zero, add_assoc]
      exact hv _ y (by rw [List.getElem?_append_right (by omega)]; simpa using hi)
    · intro i y hi
      rw [Comp.countBits]
      simp only
      rw [c2, b2, Nat.zero_add, add_assoc]
      exact hbs _ y (by rw [List.getElem?_append_right (by omega)]; simpa using hi)

theorem reads_symbolic {B : Nat} (hag : Agree B ρ ρ') {s : CSum} {vs : List ℝ}
    {ws : List Word} {m : MV ℝ} (h : Reads ρ N s vs ws m) (hg : greaterIdC s ≤ B)
    (hs : hasStoredC s = false) : SumDenotes ρ' N s m := by
  induction h with
  | nil => exact SumDenotes.nil
  | @cons c bl s vs ws vs' ws' x t m hc hb hw hs' ih =>
    simp only [greaterIdC] at hg
    simp only [hasStoredC, List.any_cons, Bool.or_eq_false_iff] at hs
    refine SumDenotes.cons_iff.2 ⟨_, m, ?_, ih (by omega) hs.2, rfl⟩
    rw [SumDenotes.single_iff]
    have hC : Built c ∧ Denotes ρ' c x := by
      cases hc with
      | stored x => simp [hasStored] at hs
      | symbolic c x _ hb hd =>
        exact ⟨hb, by rw [Denotes, ← den_agree hag c (by omega)]; exact hd⟩
    cases hb with
    | const b0 => exact ⟨⟨hC.1, by simp⟩, (x, .const b0), ⟨hC.2, rfl⟩, hw, rfl⟩
    | stored G w => simp [Blade.hasStored, hasStored] at hs
    | symbolic G e w _ hb hc hd =>
      have hge : greaterId e ≤ B := by
        have : (Blade.dyn G e).greaterId = greaterId e := rfl
        omega
      refine ⟨⟨hC.1, ?_⟩, (x, .dyn G w), ⟨hC.2, w, by rw [← den_agree hag e hge]; exact hd, rfl⟩,
        hw, rfl⟩
      intro G' e' h
      obtain ⟨rfl, rfl⟩ := Blade.dyn.inj h
      exact ⟨hb, hc⟩

theorem context_agree (outer : Env) (base : Nat) (stored : List Object) :
    Agree base outer (contextEnv outer base stored) := by
  intro t ht i
  simp [contextEnv, Nat.not_lt.2 ht]

/-- The arguments of a context stand for the multivectors of its inputs. -/
theorem arguments_reads (hN : N ≤ 63) {outer : Env} {base : Nat} :
    ∀ (Ms pre : List Object) (as : List CSum) (As : List (MV ℝ)),
      arguments (base + pre.length) Ms = some as →
      (∀ M ∈ Ms, greaterIdC M.expr ≤ base) →
      List.Forall₂ (fun M A => Reads outer N M.expr M.values M.bitsets A) Ms As →
      List.Forall₂ (SumDenotes (contextEnv outer base (pre ++ storedInputs Ms)) N) as As
  | [], pre, as, As, h, _, hR => by
    cases hR
    simp only [arguments, Option.some.injEq] at h
    subst h
    exact .nil
  | M :: Ms, pre, as, As, h, hg, hR => by
    cases hR with
    | @cons _ A _ As hM hMs =>
    unfold arguments at h
    by_cases hst : hasStoredC M.expr = true
    · rw [if_pos hst] at h
      simp only [Option.bind_eq_bind, Option.bind_eq_some_iff, Option.some.injEq] at h
      obtain ⟨a, h1, as', h2, rfl⟩ := h
      have hsi : storedInputs (M :: Ms) = M :: storedInputs Ms := by
        simp [storedInputs, hst]
      rw [hsi]
      have ih := arguments_reads hN Ms (pre ++ [M]) as' As
        (by rw [List.length_append, List.length_singleton, ← add_assoc]; exact h2)
        (fun M' hM' => hg M' (by simp [hM'])) hMs
      rw [List.append_assoc, List.singleton_append] at ih
      refine .cons ?_ ih
      refine tagC_reads hN (context_agree outer base _) hM (hg M (by simp)) 0 0 a ?_ ?_ h1
      · intro i x hx
        have hi : base < base + pre.length + 1 := by omega
        have e1 : base + pre.length + 1 - (base + 1) = pre.length := by omega
        simp only [contextEnv, hi, if_true, e1, Nat.zero_add]
        simp [List.getD, hx]
      · intro i x hx
        have hi : base < base + pre.length + 1 := by omega
        have e1 : base + pre.length + 1 - (base + 1) = pre.length := by omega
        simp only [contextEnv, hi, if_true, e1, Nat.zero_add]
        simp [List.getD, hx]
    · rw [if_neg hst] at h
      simp only [Option.bind_eq_bind, Option.bind_eq_some_iff, Option.some.injEq] at h
      obtain ⟨as', h2, rfl⟩ := h
      have hsi : storedInputs (M :: Ms) = storedInputs Ms := by
        simp [storedInputs, hst]
      rw [hsi]
      exact .cons (reads_symbolic (context_agree outer base _) hM (hg M (by simp)) (by simpa using hst))
        (arguments_reads hN Ms pre as' As h2 (fun M' hM' => hg M' (by simp [hM'])) hMs)

theorem le_baseId {Ms : List Object} : ∀ M ∈ Ms, greaterIdC M.expr ≤ baseId Ms := by
  induction Ms with
  | nil => simp
  | cons M Ms ih =>
    intro M' hM'
    simp only [baseId, List.map_cons, List.foldr_cons] at ih ⊢
    rcases List.mem_cons.1 hM' with rfl | h
    · exact le_max_left _ _
    · exact le_trans (ih M' h) (le_max_right _ _)

end GATL
