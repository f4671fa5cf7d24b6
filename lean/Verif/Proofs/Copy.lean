import Verif.Spec.Copy
import Verif.Proofs.Eval
import Verif.Spec.Quotients

/-! Helper lemmas: copies between multivector types. -/

namespace GATL

open Expr Spec

variable {ρ : Env} {τ : Types}

/-- the blades of evaluated multivectors -/
def SB (b : Blade) : Prop := (∃ w, b = .const w) ∨ ∃ G, b = .dyn G .storedBits

theorem lt_stored : Expr.lt .storedBits .storedBits = false := by rfl

theorem sb_eq {a b : Blade} (ha : SB a) (hb : SB b) (h : a.lt b = false) (h' : b.lt a = false) : a = b := by
  rcases ha with ⟨x, rfl⟩ | ⟨G, rfl⟩ <;> rcases hb with ⟨y, rfl⟩ | ⟨H, rfl⟩ <;>
    simp only [Blade.lt, lt_stored, Bool.or_eq_false_iff, decide_eq_false_iff_not, Bool.and_eq_false_iff,
      beq_eq_false_iff_ne, Bool.and_false, or_false, BitVec.not_lt, BitVec.not_le, Blade.const.injEq,
      Blade.dyn.injEq, and_true] at h h' ⊢
  · have e := BitVec.le_antisymm h'.1 h.1
    rcases h.2 with h2 | h2
    · exact absurd e h2
    · rcases h'.2 with h3 | h3
      · exact absurd e.symm h3
      · exact BitVec.le_antisymm h3 h2
  · exact absurd h (by simpa using h')
  · exact absurd h' (by simpa using h)
  · exact BitVec.le_antisymm h' h

theorem sb_irrefl {a : Blade} (ha : SB a) : a.lt a = false := by
  rcases ha with ⟨x, rfl⟩ | ⟨G, rfl⟩ <;> simp [Blade.lt, lt_stored]

theorem sb_trans {a b c : Blade} (ha : SB a) (hb : SB b) (hc : SB c) (h : a.lt b = true) (h' : b.lt c = true) :
    a.lt c = true := by
  rcases ha with ⟨x, rfl⟩ | ⟨G, rfl⟩ <;> rcases hb with ⟨y, rfl⟩ | ⟨H, rfl⟩ <;>
    rcases hc with ⟨z, rfl⟩ | ⟨I, rfl⟩ <;>
    simp only [Blade.lt, lt_stored, Bool.or_eq_true, decide_eq_true_eq, Bool.and_eq_true,
      beq_iff_eq, Bool.and_false, Bool.false_eq_true, or_false, BitVec.lt_def, BitVec.le_def,
      ← BitVec.toNat_inj] at h h' ⊢ <;> omega

theorem sb_asymm {a b : Blade} (ha : SB a) (hb : SB b) (h : a.lt b = true) : b.lt a = false := by
  cases h' : b.lt a with
  | false => rfl
  | true => have := sb_trans ha hb ha h h'; rw [sb_irrefl ha] at this; cases this

/-- sorted lists of components of evaluated multivectors -/
def Srt (s : CSum) : Prop :=
  (∀ c ∈ s, c.coef ≠ .const 0 ∧ SB c.blade) ∧ s.Pairwise fun c d => c.blade.lt d.blade = true

theorem srt_tail {c : Comp} {s : CSum} (h : Srt (c :: s)) : Srt s :=
  ⟨fun d hd => h.1 d (List.mem_cons_of_mem _ hd), (List.pairwise_cons.mp h.2).2⟩

theorem srt_head {c : Comp} {s : CSum} (h : Srt (c :: s)) : ∀ d ∈ s, c.blade.lt d.blade = true :=
  (List.pairwise_cons.mp h.2).1

/-- the empty list as it occurs in the recursion -/
def orZero : CSum → CSum
  | [] => [Comp.zero]
  | c :: s => c :: s

theorem advance_cons (c : Comp) (s : CSum) : advance (c :: s) = orZero s := by
  cases s <;> rfl

theorem truncate_int (z : ℤ) : truncate (z : ℝ) = z := by
  unfold truncate
  split_ifs <;> simp

theorem convert_exact {floats : Bool} {x : ℝ} (h : floats = true ∨ ∃ z : ℤ, x = z) : convertTo floats x = x := by
  unfold convertTo
  rcases h with h | ⟨z, rfl⟩
  · rw [if_pos h]
  · rw [truncate_int, ite_self]

theorem assignCoef_ok {floats : Bool} {i r : Expr} {vs iv : List ℝ} {x : ℝ} (hi : CoefReads ρ i vs x)
    (hq : NoIntQuotient τ i) (hx : floats = true ∨ ∃ z : ℤ, x = z) {o}
    (h : assignCoef τ ρ floats i r (vs ++ iv) = some o) :
    ∃ vs', o = some (vs', iv) ∧ CoefReads ρ r vs' x := by
  unfold assignCoef at h
  cases hi with
  | stored =>
    cases r <;> simp only [isConstant, Bool.false_eq_true, and_false, ↓reduceIte, reduceCtorEq] at h
    rw [List.singleton_append] at h
    simp only [Option.some.injEq] at h
    subst h
    rw [convert_exact hx]
    exact ⟨_, rfl, .stored x⟩
  | symbolic _ _ hs hb hd =>
    rw [List.nil_append] at h
    by_cases hr : r = .stored
    · subst hr
      have h2 : (if isConstant i then some ((eval τ ρ i).map fun v => ([convertTo floats (asNumber v)], iv))
          else none) = some o := by
        cases i <;> first | exact h | simp [hasStored] at hs
      split_ifs at h2 with hc
      rw [eval_ok hb hq hd] at h2
      simp only [Option.map_some, asNumber, Option.some.injEq] at h2
      subst h2
      rw [convert_exact hx]
      exact ⟨_, rfl, .stored x⟩
    · have h2 : (if i = r ∧ isConstant i then some (some (([] : List ℝ), iv)) else none) = some o := by
        cases r <;> first | exact h | exact absurd rfl hr
      split_ifs at h2 with hc
      cases h2
      obtain ⟨rfl, -⟩ := hc
      exact ⟨[], rfl, .symbolic _ _ hs hb hd⟩

theorem assign_ok {floats : Bool} {i r : Comp} {vs iv : List ℝ} {ws ib : List Word} {x : ℝ} {t : TBlade}
    (hi : CoefReads ρ i.coef vs x) (hb : BladeReads ρ i.blade ws t) (he : i.blade = r.blade)
    (hsb : SB i.blade)
    (hq : NoIntQuotient τ i.coef) (hx : floats = true ∨ ∃ z : ℤ, x = z) {o}
    (h : assign τ ρ floats i r (vs ++ iv) (ws ++ ib) = some o) :
    ∃ vs' ws', o = some ⟨vs', ws', iv, ib⟩ ∧ CoefReads ρ r.coef vs' x ∧ BladeReads ρ r.blade ws' t := by
  obtain ⟨ic, ibl⟩ := i
  obtain ⟨rc, rbl⟩ := r
  dsimp only at *
  subst he
  unfold assign at h
  dsimp only at h
  rcases hsb with ⟨w, rfl⟩ | ⟨G, rfl⟩
  · cases hb with
    | const =>
      simp only [↓reduceIte, Option.map_eq_some_iff] at h
      obtain ⟨s, hs, rfl⟩ := h
      obtain ⟨vs', rfl, hv⟩ := assignCoef_ok hi hq hx hs
      exact ⟨vs', [], rfl, hv, .const w⟩
  · cases hb with
    | stored _ w =>
      simp only [BitVec.and_self, ↓reduceIte, Option.map_eq_some_iff] at h
      obtain ⟨s, hs, rfl⟩ := h
      obtain ⟨vs', rfl, hv⟩ := assignCoef_ok hi hq hx hs
      exact ⟨vs', [w], rfl, hv, .stored G w⟩
    | symbolic _ _ _ hs => simp [hasStored] at hs

theorem setZero_ok {r : Comp} {vs : List ℝ} {ws : List Word} (h : setZero r = some (vs, ws)) :
    ∃ t, CoefReads ρ r.coef vs 0 ∧ BladeReads ρ r.blade ws t := by
  obtain ⟨c, b⟩ := r
  unfold setZero at h
  dsimp only at h
  split at h
  · rename_i w _ hb
    cases h
    dsimp only at hb ⊢
    subst_vars
    exact ⟨_, .stored 0, .const _⟩
  · cases h
    dsimp only at *
    subst_vars
    exact ⟨_, .stored 0, .stored _ _⟩
  · cases h

theorem checkZero_ok {tol : ℝ} {i : Comp} {vs iv : List ℝ} {ws ib : List Word} {x : ℝ} {t : TBlade}
    (hi : CoefReads ρ i.coef vs x) (hb : BladeReads ρ i.blade ws t) {o}
    (h : checkZero tol i (vs ++ iv) (ws ++ ib) = some o) : o = some (decide (tol < |x|), iv, ib) := by
  obtain ⟨c, b⟩ := i
  dsimp only at hi hb
  unfold checkZero at h
  dsimp only at h
  cases hi with
  | stored =>
    cases hb with
    | const => simp at h; exact h.symm
    | stored => simp at h; exact h.symm
    | symbolic _ e _ hs =>
      cases e <;> simp [hasStored] at h hs
  | symbolic _ _ hs => cases c <;> simp [hasStored] at h hs

theorem hasBlade_cons {c r : Comp} {s : CSum} : HasBlade (c :: s) r ↔ c.blade = r.blade ∨ HasBlade s r := by
  unfold HasBlade; simp

theorem lt_ne {a b : Blade} (ha : SB a) (h : a.lt b = true) : b ≠ a := by
  rintro rfl; rw [sb_irrefl ha] at h; cases h

theorem dropped_nil (L : List (ℝ × TBlade)) (R : CSum) : dropped [] L R = [] := by
  simp [dropped]

open Classical in
theorem dropped_cons (i : Comp) (I : CSum) (l : ℝ × TBlade) (L : List (ℝ × TBlade)) (R : CSum) :
    dropped (i :: I) (l :: L) R = if HasBlade R i then dropped I L R else (i, l) :: dropped I L R := by
  unfold dropped
  rw [List.zip_cons_cons, List.filter_cons]
  simp

theorem dropped_congr {I : CSum} (L : List (ℝ × TBlade)) {R R' : CSum}
    (h : ∀ i ∈ I, HasBlade R i ↔ HasBlade R' i) : dropped I L R = dropped I L R' := by
  unfold dropped
  apply List.filter_congr
  intro p hp
  exact decide_eq_decide.mpr (not_congr (h p.1 (List.of_mem_zip hp).1))

theorem copied_cons {I : CSum} {L : List (ℝ × TBlade)} {i r : Comp} {l m : ℝ × TBlade}
    (hne : i.blade ≠ r.blade) (h : Copied I L r m) : Copied (i :: I) (l :: L) r m := by
  rcases h with ⟨p, hp, h1, h2⟩ | ⟨h1, h2⟩
  · exact .inl ⟨p, by rw [List.zip_cons_cons]; exact List.mem_cons_of_mem _ hp, h1, h2⟩
  · refine .inr ⟨?_, h2⟩
    rw [hasBlade_cons]
    push Not
    exact ⟨hne, h1⟩

/-- what the theorems say about a copy -/
structure Correct (ρ : Env) (check : Bool) (tol : ℝ) (I : CSum) (L : List (ℝ × TBlade)) (R : CSum)
    (res : CopyResult) : Prop where
  defined : res ≠ .undefined
  throws : (∃ vs ws, res = .threw vs ws) ↔ ∃ p ∈ dropped I L R, tol < |p.2.1|
  finished : ∀ vs ws, res = .done vs ws → ∃ L', ReadsEach ρ R vs ws L' ∧ List.Forall₂ (Copied I L) R L' ∧
    sumOf L = sumOf L' + sumOf ((dropped I L R).map Prod.snd)
  all : check = false → dropped I L R = []

theorem after_threw {vs : List ℝ} {ws : List Word} {res : CopyResult} :
    (∃ a b, res.after vs ws = .threw a b) ↔ ∃ a b, res = .threw a b := by
  cases res <;> simp [CopyResult.after]

theorem after_done {vs a : List ℝ} {ws b : List Word} {res : CopyResult} :
    res.after vs ws = .done a b ↔ ∃ a' b', res = .done a' b' ∧ a = vs ++ a' ∧ b = ws ++ b' := by
  cases res <;> simp [CopyResult.after, eq_comm]

theorem after_undefined {vs : List ℝ} {ws : List Word} {res : CopyResult} :
    res.after vs ws = .undefined ↔ res = .undefined := by
  cases res <;> simp [CopyResult.after]

theorem sumOf_cons (l : ℝ × TBlade) (L : List (ℝ × TBlade)) :
    sumOf (l :: L) = Finsupp.single l.2.bits l.1 + sumOf L := by simp [sumOf]

section steps
variable {check : Bool} {tol : ℝ} {i r : Comp} {I R : CSum} {l : ℝ × TBlade} {L : List (ℝ × TBlade)}
  {res : CopyResult}

/-- a component of the result that the input does not have -/
theorem correct_zero {vs : List ℝ} {ws : List Word} {t : TBlade} (hc : CoefReads ρ r.coef vs 0)
    (hb : BladeReads ρ r.blade ws t) (hI : ¬ HasBlade I r)
    (h : Correct ρ check tol I L R res) : Correct ρ check tol I L (r :: R) (res.after vs ws) := by
  have hd : dropped I L (r :: R) = dropped I L R := dropped_congr L fun i hi => by
    rw [hasBlade_cons]
    refine ⟨fun h => ?_, .inr⟩
    rcases h with h | h
    · exact absurd ⟨i, hi, h.symm⟩ hI
    · exact h
  refine ⟨by rw [Ne, after_undefined]; exact h.defined, by rw [after_threw, hd]; exact h.throws, ?_,
    by rw [hd]; exact h.all⟩
  intro a b hab
  obtain ⟨a', b', rfl, rfl, rfl⟩ := after_done.mp hab
  obtain ⟨L', h1, h2, h3⟩ := h.finished _ _ rfl
  refine ⟨(0, t) :: L', .cons hc hb h1, .cons (.inr ⟨hI, rfl⟩) h2, ?_⟩
  rw [hd, h3, sumOf_cons, Finsupp.single_zero, zero_add]

/-- a component of the input that the result does not have -/
theorem correct_drop (hR : ¬ HasBlade R i) (h : Correct ρ true tol I L R res) :
    Correct ρ true tol (i :: I) (l :: L) R (if decide (tol < |l.1|) then .threw [] [] else res) := by
  have hd : dropped (i :: I) (l :: L) R = (i, l) :: dropped I L R := by
    rw [dropped_cons, if_neg hR]
  by_cases hx : tol < |l.1|
  · rw [if_pos (decide_eq_true hx)]
    refine ⟨by simp, ?_, (fun _ _ h => by cases h), (fun h => by cases h)⟩
    simp only [hd, List.mem_cons]
    exact ⟨fun _ => ⟨_, .inl rfl, hx⟩, fun _ => ⟨_, _, rfl⟩⟩
  · rw [if_neg (by simpa using hx)]
    refine ⟨h.defined, ?_, ?_, fun h => by cases h⟩
    · rw [h.throws, hd]
      simp [hx]
    · intro a b hab
      obtain ⟨L', h1, h2, h3⟩ := h.finished _ _ hab
      refine ⟨L', h1, ?_, ?_⟩
      · have : ∀ r ∈ R, i.blade ≠ r.blade := fun r hr he => hR ⟨r, hr, he.symm⟩
        clear h1 h3 hd hab h hR
        induction h2 with
        | nil => exact .nil
        | cons h _ ih => exact .cons (copied_cons (this _ (by simp)) h) (ih fun r hr => this r (by simp [hr]))
      · rw [hd, sumOf_cons, h3, List.map_cons, sumOf_cons]
        abel

/-- a common component -/
theorem correct_both {vs : List ℝ} {ws : List Word} (hc : CoefReads ρ r.coef vs l.1)
    (hb : BladeReads ρ r.blade ws l.2) (he : i.blade = r.blade) (hI : ¬ HasBlade I r) (hR : ¬ HasBlade R i)
    (h : Correct ρ check tol I L R res) : Correct ρ check tol (i :: I) (l :: L) (r :: R) (res.after vs ws) := by
  have hd : dropped (i :: I) (l :: L) (r :: R) = dropped I L R := by
    rw [dropped_cons, if_pos (hasBlade_cons.mpr (.inl he.symm))]
    refine dropped_congr L fun j hj => ?_
    rw [hasBlade_cons]
    refine ⟨fun h => ?_, .inr⟩
    rcases h with h | h
    · exact absurd ⟨j, hj, h.symm⟩ hI
    · exact h
  refine ⟨by rw [Ne, after_undefined]; exact h.defined, by rw [after_threw, hd]; exact h.throws, ?_,
    by rw [hd]; exact h.all⟩
  intro a b hab
  obtain ⟨a', b', rfl, rfl, rfl⟩ := after_done.mp hab
  obtain ⟨L', h1, h2, h3⟩ := h.finished _ _ rfl
  refine ⟨l :: L', .cons hc hb h1, .cons (.inl ⟨(i, l), by simp, he, rfl⟩) ?_, ?_⟩
  · have : ∀ r ∈ R, i.blade ≠ r.blade := fun r hr he => hR ⟨r, hr, he.symm⟩
    clear h1 h3 hd hab h hR
    induction h2 with
    | nil => exact .nil
    | cons h _ ih => exact .cons (copied_cons (this _ (by simp)) h) (ih fun r hr => this r (by simp [hr]))
  · rw [hd, sumOf_cons, sumOf_cons, h3, add_assoc]

theorem correct_nil : Correct ρ check tol [] [] [] (.done [] []) := by
  refine ⟨by simp, by simp [dropped], ?_, fun _ => dropped_nil _ _⟩
  intro vs ws h
  cases h
  exact ⟨[], .nil, .nil, by simp [dropped, sumOf]⟩

end steps

section rules
variable {check floats : Bool} {tol : ℝ} {n : Nat} {i r : Comp} {is rs : CSum} {iv : List ℝ} {ib : List Word}
  {res : CopyResult}

theorem copy_zero (h : copyFrom check τ ρ floats tol (n + 1) (i :: is) (r :: rs) iv ib = some res)
    (hlt : r.blade.lt i.blade = true ∧ i.blade.lt r.blade = false ∧ ¬ (rs = [] ∧ r.coef = .const 0) ∨
      i.blade.lt r.blade = true ∧ r.blade.lt i.blade = false ∧ is = [] ∧ i.coef = .const 0) :
    ∃ vs ws rest, setZero r = some (vs, ws) ∧
      copyFrom check τ ρ floats tol n (i :: is) (orZero rs) iv ib = some rest ∧ res = rest.after vs ws := by
  rw [copyFrom] at h
  rw [← advance_cons r]
  have h' : (do
      let (vs, ws) ← setZero r
      let rest ← copyFrom check τ ρ floats tol n (i :: is) (advance (r :: rs)) iv ib
      some (rest.after vs ws)) = some res := by
    rcases hlt with ⟨h1, h2, h3⟩ | ⟨h1, h2, h3⟩
    · simp only [h1, h2, if_neg h3] at h; exact h
    · simp only [h1, h2] at h; rw [if_pos h3] at h; exact h
  simp only [Option.bind_eq_bind, Option.bind_eq_some_iff, Option.some.injEq] at h'
  obtain ⟨⟨vs, ws⟩, h1, rest, h2, h3⟩ := h'
  exact ⟨vs, ws, rest, h1, h2, h3.symm⟩

theorem copy_check (h : copyFrom check τ ρ floats tol (n + 1) (i :: is) (r :: rs) iv ib = some res)
    (hlt : r.blade.lt i.blade = true ∧ i.blade.lt r.blade = false ∧ rs = [] ∧ r.coef = .const 0 ∨
      i.blade.lt r.blade = true ∧ r.blade.lt i.blade = false ∧ ¬ (is = [] ∧ i.coef = .const 0)) :
    check = true ∧ ∃ o, checkZero tol i iv ib = some o ∧ ∀ throws iv' ib', o = some (throws, iv', ib') →
      ∃ rest, copyFrom check τ ρ floats tol n (orZero is) (r :: rs) iv' ib' = some rest ∧
        res = if throws then .threw [] [] else rest := by
  rw [copyFrom] at h
  rw [← advance_cons i]
  have h' : (if check then
        match checkZero tol i iv ib with
        | none => none
        | some none => (copyFrom check τ ρ floats tol n (advance (i :: is)) (r :: rs) iv ib).map fun _ => CopyResult.undefined
        | some (some (throws, iv, ib)) =>
          (copyFrom check τ ρ floats tol n (advance (i :: is)) (r :: rs) iv ib).map fun rest =>
            if throws then .threw [] [] else rest
      else none) = some res := by
    rcases hlt with ⟨h1, h2, h3⟩ | ⟨h1, h2, h3⟩
    · simp only [h1, h2] at h; rw [if_pos h3] at h; exact h
    · simp only [h1, h2, if_neg h3] at h; exact h
  split_ifs at h' with hc
  refine ⟨hc, ?_⟩
  split at h'
  · cases h'
  · rename_i he
    exact ⟨_, he, fun _ _ _ h => by cases h⟩
  · rename_i t iv' ib' he
    rw [Option.map_eq_some_iff] at h'
    obtain ⟨rest, h1, h2⟩ := h'
    refine ⟨_, he, fun _ _ _ h => ?_⟩
    cases h
    exact ⟨rest, h1, h2.symm⟩

theorem copy_assign (h : copyFrom check τ ρ floats tol (n + 1) (i :: is) (r :: rs) iv ib = some res)
    (h1 : r.blade.lt i.blade = false) (h2 : i.blade.lt r.blade = false) :
    ∃ o, assign τ ρ floats i r iv ib = some o ∧ ∀ s, o = some s →
      if is = [] ∧ rs = [] then res = .done s.values s.bitsets
      else ∃ rest, copyFrom check τ ρ floats tol n (orZero is) (orZero rs) s.inputValues s.inputBitsets
          = some rest ∧ res = rest.after s.values s.bitsets := by
  rw [copyFrom] at h
  simp only [h1, h2] at h
  rw [← advance_cons i, ← advance_cons r]
  split at h
  · cases h
  · rename_i he
    exact ⟨_, he, fun _ h => by cases h⟩
  · rename_i s he
    refine ⟨_, he, fun _ h => ?_⟩
    cases h
    split_ifs at h ⊢ with hc
    · cases h; rfl
    · rw [Option.map_eq_some_iff] at h
      obtain ⟨rest, h1, h2⟩ := h
      exact ⟨rest, h1, h2.symm⟩

end rules

theorem zero_sb : SB Comp.zero.blade := .inl ⟨0, rfl⟩

theorem not_hasBlade {c : Comp} {s : CSum} (hs : ∀ d ∈ s, SB d.blade) (hc : SB c.blade)
    (h : ∀ d ∈ s, c.blade.lt d.blade = true) : ¬ HasBlade s c := by
  rintro ⟨d, hd, he⟩
  exact lt_ne hc (h d hd) he

theorem orZero_cons (c : Comp) (s : CSum) : orZero (c :: s) = c :: s := rfl
theorem orZero_nil : orZero [] = [Comp.zero] := rfl

theorem copyFrom_ok {check floats : Bool} {tol : ℝ} (n : Nat) : ∀ (I R : CSum) (L : List (ℝ × TBlade))
    (iv : List ℝ) (ib : List Word) (res : CopyResult), Srt I → Srt R → ReadsEach ρ I iv ib L →
    (∀ c ∈ I, NoIntQuotient τ c.coef) → (floats = true ∨ Integral L) →
    copyFrom check τ ρ floats tol n (orZero I) (orZero R) iv ib = some res →
    Correct ρ check tol I L R res := by
  induction n with
  | zero => intro I R L iv ib res _ _ _ _ _ h; simp [copyFrom] at h
  | succ n ih =>
    intro I R L iv ib res hI hR hL hq hf h
    have zz : Comp.zero.blade.lt Comp.zero.blade = false := sb_irrefl zero_sb
    cases hL with
    | nil =>
      cases R with
      | nil =>
        obtain ⟨o, ho, hs⟩ := copy_assign h zz zz
        have : assign τ ρ floats Comp.zero Comp.zero [] [] = some (some ⟨[], [], [], []⟩) := by
          simp [assign, assignCoef, isConstant]
        rw [this] at ho
        cases ho
        have := hs _ rfl
        rw [if_pos ⟨rfl, rfl⟩] at this
        rw [this]
        exact correct_nil
      | cons r R =>
        have hr := hR.1 r (by simp)
        rw [orZero_nil, orZero_cons] at h
        have key : ∀ vs ws rest, (∃ t, CoefReads ρ r.coef vs 0 ∧ BladeReads ρ r.blade ws t) →
            copyFrom check τ ρ floats tol n [Comp.zero] (orZero R) [] [] = some rest → res = rest.after vs ws →
            Correct ρ check tol [] [] (r :: R) res := by
          rintro vs ws rest ⟨t, ht1, ht2⟩ h1 rfl
          exact correct_zero ht1 ht2 (by simp [HasBlade])
            (ih [] R [] [] [] rest hI (srt_tail hR) .nil (by simp) hf (by rw [orZero_nil]; exact h1))
        cases h1 : r.blade.lt Comp.zero.blade with
        | true =>
          obtain ⟨vs, ws, rest, hz, hc, he⟩ := copy_zero h
            (.inl ⟨h1, sb_asymm hr.2 zero_sb h1, fun h => hr.1 h.2⟩)
          exact key vs ws rest (setZero_ok hz) hc he
        | false =>
          cases h2 : Comp.zero.blade.lt r.blade with
          | true =>
            obtain ⟨vs, ws, rest, hz, hc, he⟩ := copy_zero h (.inr ⟨h2, h1, rfl, rfl⟩)
            exact key vs ws rest (setZero_ok hz) hc he
          | false =>
            obtain ⟨o, ho, hs⟩ := copy_assign h h1 h2
            have he := sb_eq zero_sb hr.2 h2 h1
            have hz : CoefReads ρ Comp.zero.coef [] 0 := by
              refine .symbolic _ _ rfl (.const 0) ?_
              simp [Denotes, den]
            obtain ⟨vs', ws', rfl, hv, hb⟩ := assign_ok (τ := τ) (iv := []) (ib := []) hz (.const 0) he
              zero_sb (by simp [NoIntQuotient]) (.inr ⟨0, by simp⟩) ho
            have := hs _ rfl
            cases R with
            | nil =>
              rw [if_pos ⟨rfl, rfl⟩] at this
              rw [this]
              have e : CopyResult.done vs' ws' = CopyResult.after vs' ws' (.done [] []) := by
                simp [CopyResult.after]
              dsimp only
              rw [e]
              exact correct_zero hv hb (by simp [HasBlade]) correct_nil
            | cons r' R =>
              rw [if_neg (by simp)] at this
              obtain ⟨rest, h3, h4⟩ := this
              exact key vs' ws' rest ⟨_, hv, hb⟩ h3 h4
    | @cons ic ibl I vs ws iv ib x t L hc hb hs =>
      have hi := hI.1 _ (List.mem_cons_self)
      have hx : floats = true ∨ ∃ z : ℤ, x = z := hf.imp_right fun h => h (x, t) (by simp)
      have hf' : floats = true ∨ Integral L := hf.imp_right fun h p hp => h p (by simp [hp])
      have hq' : ∀ c ∈ I, NoIntQuotient τ c.coef := fun c hc => hq c (by simp [hc])
      have hq0 : NoIntQuotient τ ic := hq ⟨ic, ibl⟩ (by simp)
      rw [orZero_cons] at h
      have drop : ∀ R' : CSum, (∃ r rs, orZero R' = r :: rs ∧
          ∃ o, checkZero tol ⟨ic, ibl⟩ (vs ++ iv) (ws ++ ib) = some o ∧ ∀ throws iv' ib', o = some (throws, iv', ib') →
          ∃ rest, copyFrom check τ ρ floats tol n (orZero I) (r :: rs) iv' ib' = some rest ∧
            res = if throws then .threw [] [] else rest) → check = true → Srt R' → ¬ HasBlade R' ⟨ic, ibl⟩ →
          Correct ρ check tol (⟨ic, ibl⟩ :: I) ((x, t) :: L) R' res := by
        rintro R' ⟨r, rs, hr, o, ho, hrest⟩ rfl hR' hnb
        have := checkZero_ok (i := ⟨ic, ibl⟩) hc hb ho
        obtain ⟨rest, h1, rfl⟩ := hrest _ _ _ this
        rw [← hr] at h1
        exact correct_drop hnb (ih I R' L iv ib rest (srt_tail hI) hR' hs hq' hf' h1)
      cases R with
      | nil =>
        rw [orZero_nil] at h
        have hne : ¬ HasBlade [] (⟨ic, ibl⟩ : Comp) := by simp [HasBlade]
        cases h1 : Comp.zero.blade.lt ibl with
        | true =>
          obtain ⟨h3, h4⟩ := copy_check h (.inl ⟨h1, sb_asymm zero_sb hi.2 h1, rfl, rfl⟩)
          exact drop [] ⟨_, _, rfl, h4⟩ h3 hR hne
        | false =>
          cases h2 : ibl.lt Comp.zero.blade with
          | true =>
            obtain ⟨h3, h4⟩ := copy_check h (.inr ⟨h2, h1, fun h => hi.1 h.2⟩)
            exact drop [] ⟨_, _, rfl, h4⟩ h3 hR hne
          | false =>
            obtain ⟨o, ho, -⟩ := copy_assign h h1 h2
            exfalso
            have he := sb_eq zero_sb hi.2 h1 h2
            dsimp only at he
            unfold assign at ho
            rw [← he] at ho
            simp only [↓reduceIte, assignCoef, Option.map_eq_some_iff] at ho
            obtain ⟨s, hs, -⟩ := ho
            split_ifs at hs with hc
            exact hi.1 hc.1
      | cons r R =>
        have hr := hR.1 r (by simp)
        rw [orZero_cons] at h
        have hIs : ∀ d ∈ I, SB d.blade := fun d hd => (hI.1 d (by simp [hd])).2
        have hRs : ∀ d ∈ R, SB d.blade := fun d hd => (hR.1 d (by simp [hd])).2
        cases h1 : r.blade.lt ibl with
        | true =>
          obtain ⟨vs', ws', rest, hz, hc', rfl⟩ := copy_zero h
            (.inl ⟨h1, sb_asymm hr.2 hi.2 h1, fun h => hr.1 h.2⟩)
          obtain ⟨t', ht1, ht2⟩ := setZero_ok (ρ := ρ) hz
          refine correct_zero ht1 ht2 ?_
            (ih _ R _ _ _ rest hI (srt_tail hR) (.cons hc hb hs) hq hf (by rw [orZero_cons]; exact hc'))
          refine not_hasBlade (fun d hd => (hI.1 d hd).2) hr.2 fun d hd => ?_
          rcases List.mem_cons.mp hd with rfl | hd
          · exact h1
          · exact sb_trans hr.2 hi.2 (hIs d hd) h1 (srt_head hI d hd)
        | false =>
          cases h2 : ibl.lt r.blade with
          | true =>
            obtain ⟨h3, h4⟩ := copy_check h (.inr ⟨h2, h1, fun h => hi.1 h.2⟩)
            refine drop (r :: R) ⟨_, _, rfl, h4⟩ h3 hR ?_
            refine not_hasBlade (fun d hd => (hR.1 d hd).2) hi.2 fun d hd => ?_
            rcases List.mem_cons.mp hd with rfl | hd
            · exact h2
            · exact sb_trans hi.2 hr.2 (hRs d hd) h2 (srt_head hR d hd)
          | false =>
            have he : ibl = r.blade := sb_eq hi.2 hr.2 h2 h1
            obtain ⟨o, ho, hs'⟩ := copy_assign h h1 h2
            obtain ⟨vs', ws', rfl, hv, hb'⟩ := assign_ok (i := ⟨ic, ibl⟩) hc hb he hi.2 hq0 hx ho
            have := hs' _ rfl
            have hni : ¬ HasBlade I r := not_hasBlade hIs hr.2 fun d hd => by
              rw [← he]; exact srt_head hI d hd
            have hnr : ¬ HasBlade R ⟨ic, ibl⟩ := not_hasBlade hRs hi.2 fun d hd => by
              dsimp only; rw [he]; exact srt_head hR d hd
            by_cases hend : I = [] ∧ R = []
            · rw [if_pos hend] at this
              rw [this]
              have e : CopyResult.done vs' ws' = CopyResult.after vs' ws' (.done [] []) := by
                simp [CopyResult.after]
              dsimp only
              rw [e]
              obtain ⟨rfl, rfl⟩ := hend
              cases hs
              exact correct_both (l := (x, t)) hv hb' he hni hnr correct_nil
            · rw [if_neg hend] at this
              obtain ⟨rest, h3, rfl⟩ := this
              exact correct_both (l := (x, t)) hv hb' he hni hnr
                (ih I R L iv ib rest (srt_tail hI) (srt_tail hR) hs hq' hf' h3)

/-! ### which calls compile -/

theorem assignCoef_some {floats : Bool} {i r : Expr} {iv : List ℝ} (h : Assignable i r) :
    ∃ o, assignCoef τ ρ floats i r iv = some o := by
  unfold assignCoef
  rcases h with ⟨rfl, rfl | h⟩ | ⟨rfl, h⟩
  · cases iv <;> exact ⟨_, rfl⟩
  · cases i <;> simp [isConstant] at h <;> simp [h, isConstant]
  · cases i <;> simp [isConstant] at h <;> simp [h, isConstant]

theorem assign_some {floats : Bool} {i r : Comp} {iv : List ℝ} {ib : List Word} (hb : SB i.blade)
    (he : i.blade = r.blade) (h : Assignable i.coef r.coef) :
    ∃ o, assign τ ρ floats i r iv ib = some o := by
  obtain ⟨ic, ibl⟩ := i
  obtain ⟨rc, rbl⟩ := r
  dsimp only at *
  subst he
  obtain ⟨o, ho⟩ := assignCoef_some (τ := τ) (ρ := ρ) (floats := floats) (iv := iv) h
  unfold assign
  rcases hb with ⟨w, rfl⟩ | ⟨G, rfl⟩ <;> simp [ho]

theorem setZero_some {r : Comp} (hb : SB r.blade) (h : r.coef = .stored) : ∃ o, setZero r = some o := by
  unfold setZero
  rw [h]
  rcases hb with ⟨w, hw⟩ | ⟨G, hw⟩ <;> rw [hw] <;> exact ⟨_, rfl⟩

theorem checkZero_some {tol : ℝ} {i : Comp} {iv : List ℝ} {ib : List Word} (hb : SB i.blade)
    (h : i.coef = .stored) : ∃ o, checkZero tol i iv ib = some o := by
  unfold checkZero
  rw [h]
  rcases hb with ⟨w, hw⟩ | ⟨G, hw⟩ <;> rw [hw] <;> cases iv <;> cases ib <;> exact ⟨_, rfl⟩

theorem not_lt_zero {s : CSum} (h : Usable s) (hs : ∀ c ∈ s, SB c.blade) :
    ∀ c ∈ s, c.blade.lt Comp.zero.blade = false := by
  intro c hc
  have h1 : (1 : Word) <<< ones 0 = 1 := by decide +kernel
  rcases hs c hc with ⟨w, hw⟩ | ⟨G, hw⟩
  · have h2 := (h c hc).1 _ hw
    rw [hw]
    simp only [Blade.lt, h1]
    have h3 : ones w < 64 := by
      rw [ones_eq_card]
      have h4 : (vecs w).card ≤ (Finset.univ.erase (63 : Fin 64)).card :=
        Finset.card_le_card fun i hi => Finset.mem_erase.mpr ⟨fun h => by have := h2 i hi; rw [h] at this; simp at this, Finset.mem_univ i⟩
      simp at h4; omega
    have h4 : ¬ (1#64 <<< ones w = 0#64) := by
      intro h
      have := congrArg (fun b : Word => b.getLsbD (ones w)) h
      simp [h3] at this
    simp [h4]
  · have h2 := (h c hc).2 _ _ hw
    rw [hw]
    simp only [Blade.lt, h1, decide_eq_false_iff_not, BitVec.not_lt]
    rw [BitVec.le_def]
    have : G.toNat ≠ 0 := fun h => h2 (BitVec.eq_of_toNat_eq (by simpa using h))
    simp; omega

section rules
variable {check floats : Bool} {tol : ℝ} {n : Nat} {i r : Comp} {is rs : CSum} {iv : List ℝ} {ib : List Word}

theorem copy_zero_some
    (hlt : r.blade.lt i.blade = true ∧ i.blade.lt r.blade = false ∧ ¬ (rs = [] ∧ r.coef = .const 0) ∨
      i.blade.lt r.blade = true ∧ r.blade.lt i.blade = false ∧ is = [] ∧ i.coef = .const 0)
    (hz : ∃ o, setZero r = some o)
    (h : ∃ rest, copyFrom check τ ρ floats tol n (i :: is) (orZero rs) iv ib = some rest) :
    ∃ res, copyFrom check τ ρ floats tol (n + 1) (i :: is) (r :: rs) iv ib = some res := by
  obtain ⟨⟨vs, ws⟩, hz⟩ := hz
  obtain ⟨rest, h⟩ := h
  rw [← advance_cons r] at h
  refine ⟨rest.after vs ws, ?_⟩
  rw [copyFrom]
  rcases hlt with ⟨h1, h2, h3⟩ | ⟨h1, h2, h3⟩
  · simp only [h1, h2, if_neg h3, hz, h]; rfl
  · simp only [h1, h2, hz, h]; rw [if_pos h3]; rfl

theorem copy_check_some (hc : check = true)
    (hlt : r.blade.lt i.blade = true ∧ i.blade.lt r.blade = false ∧ rs = [] ∧ r.coef = .const 0 ∨
      i.blade.lt r.blade = true ∧ r.blade.lt i.blade = false ∧ ¬ (is = [] ∧ i.coef = .const 0))
    (hz : ∃ o, checkZero tol i iv ib = some o)
    (h : ∀ iv ib, ∃ rest, copyFrom check τ ρ floats tol n (orZero is) (r :: rs) iv ib = some rest) :
    ∃ res, copyFrom check τ ρ floats tol (n + 1) (i :: is) (r :: rs) iv ib = some res := by
  obtain ⟨o, hz⟩ := hz
  rw [← advance_cons i] at h
  rw [copyFrom]
  have : ∃ res, (if check then
        match checkZero tol i iv ib with
        | none => none
        | some none => (copyFrom check τ ρ floats tol n (advance (i :: is)) (r :: rs) iv ib).map fun _ => CopyResult.undefined
        | some (some (throws, iv, ib)) =>
          (copyFrom check τ ρ floats tol n (advance (i :: is)) (r :: rs) iv ib).map fun rest =>
            if throws then .threw [] [] else rest
      else none) = some res := by
    rw [if_pos hc, hz]
    rcases o with _ | ⟨t, iv', ib'⟩
    · obtain ⟨rest, h⟩ := h iv ib
      simp only [h]; exact ⟨_, rfl⟩
    · obtain ⟨rest, h⟩ := h iv' ib'
      simp only [h]; exact ⟨_, rfl⟩
  rcases hlt with ⟨h1, h2, h3⟩ | ⟨h1, h2, h3⟩
  · simp only [h1, h2]; rw [if_pos h3]; exact this
  · simp only [h1, h2, if_neg h3]; exact this

theorem copy_assign_some (h1 : r.blade.lt i.blade = false) (h2 : i.blade.lt r.blade = false)
    (ha : ∃ o, assign τ ρ floats i r iv ib = some o)
    (h : ¬ (is = [] ∧ rs = []) →
      ∀ iv ib, ∃ rest, copyFrom check τ ρ floats tol n (orZero is) (orZero rs) iv ib = some rest) :
    ∃ res, copyFrom check τ ρ floats tol (n + 1) (i :: is) (r :: rs) iv ib = some res := by
  obtain ⟨o, ha⟩ := ha
  rw [← advance_cons i, ← advance_cons r] at h
  rw [copyFrom]
  simp only [h1, h2, ha]
  rcases o with _ | s
  · dsimp only
    split_ifs with hc
    · exact ⟨_, rfl⟩
    · obtain ⟨rest, h⟩ := h hc iv ib
      rw [h]; exact ⟨_, rfl⟩
  · dsimp only
    split_ifs with hc
    · exact ⟨_, rfl⟩
    · obtain ⟨rest, h⟩ := h hc s.inputValues s.inputBitsets
      rw [h]; exact ⟨_, rfl⟩

end rules

theorem copy_compiles {check floats : Bool} {tol : ℝ} (n : Nat) : ∀ (I R : CSum) (iv : List ℝ) (ib : List Word),
    Srt I → Srt R → (∀ c ∈ I, c.blade.lt Comp.zero.blade = false) → (∀ c ∈ R, c.blade.lt Comp.zero.blade = false) →
    (R = [] → ∀ i ∈ I, i.blade ≠ Comp.zero.blade) →
    (∀ i ∈ I, ∀ r ∈ R, i.blade = r.blade → Assignable i.coef r.coef) →
    (∀ r ∈ R, ¬ HasBlade I r → r.coef = .stored) →
    (∀ i ∈ I, ¬ HasBlade R i → check = true ∧ i.coef = .stored) → I.length + R.length < n →
    ∃ res, copyFrom check τ ρ floats tol n (orZero I) (orZero R) iv ib = some res := by
  induction n with
  | zero => intro I R iv ib _ _ _ _ _ _ _ _ h; omega
  | succ n ih =>
    intro I R iv ib hI hR pI pR hz hcom hext hdrop hn
    have zz : Comp.zero.blade.lt Comp.zero.blade = false := sb_irrefl zero_sb
    cases I with
    | nil =>
      cases R with
      | nil =>
        refine copy_assign_some zz zz (assign_some zero_sb rfl (.inr ⟨rfl, rfl⟩)) fun h => absurd ⟨rfl, rfl⟩ h
      | cons r R =>
        have hr := hR.1 r (by simp)
        have hst : r.coef = .stored := hext r (by simp) (by simp [HasBlade])
        have hrec : ∀ iv ib, ∃ res, copyFrom check τ ρ floats tol n (orZero []) (orZero R) iv ib = some res :=
          fun iv ib => ih [] R iv ib hI (srt_tail hR) pI (fun c hc => pR c (by simp [hc])) (by simp) (by simp)
            (fun r hr _ => hext r (by simp [hr]) (by simp [HasBlade])) (by simp)
            (by simp only [List.length_cons, List.length_nil] at hn ⊢; omega)
        rw [orZero_nil, orZero_cons]
        have h1 := pR r (by simp)
        cases h2 : Comp.zero.blade.lt r.blade with
        | true => exact copy_zero_some (.inr ⟨h2, h1, rfl, rfl⟩) (setZero_some hr.2 hst) (hrec iv ib)
        | false =>
          exact copy_assign_some h1 h2 (assign_some zero_sb (sb_eq zero_sb hr.2 h2 h1) (.inl ⟨hst, .inr rfl⟩))
            fun _ => hrec
    | cons i I =>
      have hi := hI.1 i (by simp)
      have drop : (¬ HasBlade R i) → ∀ iv ib, ∃ res,
          copyFrom check τ ρ floats tol n (orZero I) (orZero R) iv ib = some res := by
        intro hnb iv ib
        refine ih I R iv ib (srt_tail hI) hR (fun c hc => pI c (by simp [hc])) pR
          (fun h j hj => hz h j (by simp [hj])) (fun j hj => hcom j (by simp [hj])) ?_
          (fun j hj => hdrop j (by simp [hj])) (by simp only [List.length_cons] at hn; omega)
        intro r hr hnr
        refine hext r hr ?_
        rw [hasBlade_cons]
        rintro (h | h)
        · exact hnb ⟨r, hr, h.symm⟩
        · exact hnr h
      cases R with
      | nil =>
        have hnb : ¬ HasBlade [] i := by simp [HasBlade]
        obtain ⟨hc, hst⟩ := hdrop i (by simp) hnb
        rw [orZero_nil, orZero_cons]
        have h1 := pI i (by simp)
        cases h2 : Comp.zero.blade.lt i.blade with
        | true =>
          exact copy_check_some hc (.inl ⟨h2, h1, rfl, rfl⟩) (checkZero_some hi.2 hst) (drop hnb)
        | false => exact absurd (sb_eq hi.2 zero_sb h1 h2) (hz rfl i (by simp))
      | cons r R =>
        have hr := hR.1 r (by simp)
        rw [orZero_cons, orZero_cons]
        have hIs : ∀ d ∈ I, SB d.blade := fun d hd => (hI.1 d (by simp [hd])).2
        have hRs : ∀ d ∈ R, SB d.blade := fun d hd => (hR.1 d (by simp [hd])).2
        cases h1 : r.blade.lt i.blade with
        | true =>
          have hnb : ¬ HasBlade (i :: I) r := not_hasBlade (fun d hd => (hI.1 d hd).2) hr.2 fun d hd => by
            rcases List.mem_cons.mp hd with rfl | hd
            · exact h1
            · exact sb_trans hr.2 hi.2 (hIs d hd) h1 (srt_head hI d hd)
          refine copy_zero_some (.inl ⟨h1, sb_asymm hr.2 hi.2 h1, fun h => hr.1 h.2⟩)
            (setZero_some hr.2 (hext r (by simp) hnb)) ?_
          have := ih (i :: I) R iv ib hI (srt_tail hR) pI (fun c hc => pR c (by simp [hc])) ?_
            (fun j hj r hr => hcom j hj r (by simp [hr])) (fun r hr => hext r (by simp [hr])) ?_
            (by simp only [List.length_cons] at hn ⊢; omega)
          · rwa [orZero_cons] at this
          · rintro - j hj he
            rcases List.mem_cons.mp hj with rfl | hj
            · rw [he, pR r (by simp)] at h1; cases h1
            · have := srt_head hI j hj
              rw [he, pI i (by simp)] at this; cases this
          · intro j hj hnr
            refine hdrop j hj ?_
            rw [hasBlade_cons]
            rintro (h | h)
            · exact hnb ⟨j, hj, h.symm⟩
            · exact hnr h
        | false =>
          cases h2 : i.blade.lt r.blade with
          | true =>
            have hnb : ¬ HasBlade (r :: R) i := not_hasBlade (fun d hd => (hR.1 d hd).2) hi.2 fun d hd => by
              rcases List.mem_cons.mp hd with rfl | hd
              · exact h2
              · exact sb_trans hi.2 hr.2 (hRs d hd) h2 (srt_head hR d hd)
            obtain ⟨hc, hst⟩ := hdrop i (by simp) hnb
            exact copy_check_some hc (.inr ⟨h2, h1, fun h => hi.1 h.2⟩) (checkZero_some hi.2 hst) (drop hnb)
          | false =>
            have he := sb_eq hi.2 hr.2 h2 h1
            refine copy_assign_some h1 h2 (assign_some hi.2 he (hcom i (by simp) r (by simp) he)) fun _ iv ib => ?_
            refine ih I R iv ib (srt_tail hI) (srt_tail hR) (fun c hc => pI c (by simp [hc]))
              (fun c hc => pR c (by simp [hc])) ?_ (fun j hj r hr => hcom j (by simp [hj]) r (by simp [hr])) ?_ ?_
              (by simp only [List.length_cons] at hn; omega)
            · rintro - j hj he'
              have := srt_head hI j hj
              rw [he', pI i (by simp)] at this; cases this
            · intro s hs hns
              refine hext s (by simp [hs]) ?_
              rw [hasBlade_cons]
              rintro (h | h)
              · have := srt_head hR s hs
                rw [← he, h, sb_irrefl (hRs s hs)] at this; cases this
              · exact hns h
            · intro j hj hnr
              refine hdrop j (by simp [hj]) ?_
              rw [hasBlade_cons]
              rintro (h | h)
              · have := srt_head hI j hj
                rw [he, h, sb_irrefl (hIs j hj)] at this; cases this
              · exact hnr h

/-! ### the constant zero as input or result -/

/-- the components of a type other than the component of the constant zero -/
noncomputable def core (s : CSum) : CSum := open Classical in if s = [Comp.zero] then [] else s

theorem core_srt {s : CSum} (h : Ordered s) : Srt (core s) := by
  unfold core
  split_ifs with he
  · exact ⟨by simp, List.Pairwise.nil⟩
  · rcases h with h | ⟨-, h1, h2⟩
    · exact absurd h he
    · exact ⟨h1, h2⟩

theorem orZero_core {s : CSum} (h : Ordered s) : orZero (core s) = s := by
  unfold core
  split_ifs with he
  · exact he.symm
  · rcases h with h | ⟨h, -⟩
    · exact absurd h he
    · cases s with
      | nil => exact absurd rfl h
      | cons c s => rfl

theorem readsEach_zero {vs : List ℝ} {ws : List Word} {L : List (ℝ × TBlade)} (h : ReadsEach ρ [Comp.zero] vs ws L) :
    vs = [] ∧ ws = [] ∧ L = [(0, .const 0)] := by
  cases h with
  | cons hc hb hs =>
    cases hs; cases hb; cases hc with
    | symbolic _ _ hst hbu hd =>
      refine ⟨rfl, rfl, ?_⟩
      have h1 := hd
      simp [Denotes, den] at h1
      simp [← h1]

theorem readsEach_forall {s : CSum} {vs : List ℝ} {ws : List Word} {L : List (ℝ × TBlade)}
    (h : ReadsEach ρ s vs ws L) :
    List.Forall₂ (fun c l => ∃ vs ws, CoefReads ρ c.coef vs l.1 ∧ BladeReads ρ c.blade ws l.2) s L := by
  induction h with
  | nil => exact .nil
  | cons hc hb _ ih => exact .cons ⟨_, _, hc, hb⟩ ih

theorem copied_self {s : CSum} {vs : List ℝ} {ws : List Word} {L : List (ℝ × TBlade)}
    (h : ReadsEach ρ s vs ws L) : List.Forall₂ (Copied s L) s L := by
  have h1 : ∀ (I : CSum) (M : List (ℝ × TBlade)), (∀ p ∈ s.zip L, p ∈ I.zip M) → List.Forall₂ (Copied I M) s L := by
    induction h with
    | nil => exact fun _ _ _ => .nil
    | cons hc hb hs ih =>
      intro I M hp
      refine .cons (.inl ⟨_, hp _ (by rw [List.zip_cons_cons]; exact List.mem_cons_self), rfl, rfl⟩) (ih I M fun p h => hp p ?_)
      rw [List.zip_cons_cons]; exact List.mem_cons_of_mem _ h
  exact h1 s L fun p h => h

/-- a copy to the type of the constant zero has no scalar component to copy -/
theorem no_scalar {check floats : Bool} {tol : ℝ} (n : Nat) : ∀ (I : CSum) (L : List (ℝ × TBlade)) (iv : List ℝ)
    (ib : List Word) (res : CopyResult), Srt I → ReadsEach ρ I iv ib L →
    copyFrom check τ ρ floats tol n (orZero I) [Comp.zero] iv ib = some res →
    ∀ i ∈ I, i.blade ≠ Comp.zero.blade := by
  induction n with
  | zero => intro I L iv ib res _ _ h; simp [copyFrom] at h
  | succ n ih =>
    intro I L iv ib res hI hL h j hj
    cases hL with
    | nil => cases hj
    | @cons c b s vs ws vs' ws' x t L hc hb hs =>
      have hi := hI.1 ⟨c, b⟩ (by simp)
      rw [orZero_cons] at h
      have step : (∃ iv' ib' rest, copyFrom check τ ρ floats tol n (orZero s) [Comp.zero] iv' ib' = some rest ∧
          iv' = vs' ∧ ib' = ws') → ∀ j ∈ s, j.blade ≠ Comp.zero.blade := by
        rintro ⟨iv', ib', rest, h1, rfl, rfl⟩
        exact ih s L _ _ rest (srt_tail hI) hs h1
      have chk : ∀ {o}, checkZero tol ⟨c, b⟩ (vs ++ vs') (ws ++ ws') = some o → ∃ t, o = some (t, vs', ws') := by
        intro o ho
        have := checkZero_ok (tol := tol) (i := ⟨c, b⟩) (iv := vs') (ib := ws') hc hb ho
        exact ⟨_, this⟩
      cases h1 : Comp.zero.blade.lt b with
      | true =>
        have h2 := sb_asymm zero_sb hi.2 h1
        obtain ⟨-, o, ho, hr⟩ := copy_check h (.inl ⟨h1, h2, rfl, rfl⟩)
        obtain ⟨t', rfl⟩ := chk ho
        obtain ⟨rest, h3, -⟩ := hr _ _ _ rfl
        rcases List.mem_cons.mp hj with rfl | hj
        · exact lt_ne zero_sb h1
        · exact step ⟨_, _, rest, h3, rfl, rfl⟩ j hj
      | false =>
        cases h2 : b.lt Comp.zero.blade with
        | true =>
          obtain ⟨-, o, ho, hr⟩ := copy_check h (.inr ⟨h2, h1, fun h => hi.1 h.2⟩)
          obtain ⟨t', rfl⟩ := chk ho
          obtain ⟨rest, h3, -⟩ := hr _ _ _ rfl
          rcases List.mem_cons.mp hj with rfl | hj
          · exact (lt_ne hi.2 h2).symm
          · exact step ⟨_, _, rest, h3, rfl, rfl⟩ j hj
        | false =>
          exfalso
          obtain ⟨o, ho, -⟩ := copy_assign h h1 h2
          have he := sb_eq hi.2 zero_sb h2 h1
          have he' : b = .const 0 := he
          have hne : c ≠ .const 0 := hi.1
          unfold assign at ho
          simp only [he', Comp.zero] at ho
          have : assignCoef τ ρ floats c (.const 0) (vs ++ vs') = none := by
            unfold assignCoef
            simp only [hne, false_and, if_false]
          simp [this] at ho

/-- what is proved about copies, for the types of the constant zero too -/
theorem copy_ok {check floats : Bool} {tol : ℝ} {n : Nat} {I R : CSum} {L : List (ℝ × TBlade)} {iv : List ℝ}
    {ib : List Word} {res : CopyResult} (hI : Ordered I) (hR : Ordered R) (hL : ReadsEach ρ I iv ib L)
    (hq : ∀ c ∈ I, NoIntQuotient τ c.coef) (hf : floats = true ∨ Integral L) (ht : 0 ≤ tol)
    (h : copyFrom check τ ρ floats tol n I R iv ib = some res) :
    res ≠ .undefined ∧ ((∃ vs ws, res = .threw vs ws) ↔ ∃ p ∈ dropped I L R, tol < |p.2.1|) ∧
      (∀ vs ws, res = .done vs ws → ∃ L', ReadsEach ρ R vs ws L' ∧ List.Forall₂ (Copied I L) R L' ∧
        sumOf L = sumOf L' + sumOf ((dropped I L R).map Prod.snd)) ∧
      (check = false → ∀ p ∈ dropped I L R, p.2.1 = 0) := by
  -- first the input
  have key : ∀ R : CSum, Srt R → copyFrom check τ ρ floats tol n I (orZero R) iv ib = some res →
      Correct ρ check tol I L R res ∨ I = [Comp.zero] ∧ L = [(0, .const 0)] ∧ Correct ρ check tol [] [] R res := by
    intro R hR h
    by_cases hz : I = [Comp.zero]
    · subst hz
      obtain ⟨rfl, rfl, rfl⟩ := readsEach_zero hL
      exact .inr ⟨rfl, rfl, copyFrom_ok n [] R [] [] [] res ⟨by simp, .nil⟩ hR .nil (by simp)
        (hf.imp_right fun _ => by simp [Integral]) h⟩
    · have e : core I = I := if_neg hz
      have := copyFrom_ok n (core I) R L iv ib res (core_srt hI) hR (by rwa [e]) (by rwa [e]) hf
        (by rwa [orZero_core hI])
      rw [e] at this
      exact .inl this
  have key2 : ∀ R : CSum, Srt R → copyFrom check τ ρ floats tol n I (orZero R) iv ib = some res →
      res ≠ .undefined ∧ ((∃ vs ws, res = .threw vs ws) ↔ ∃ p ∈ dropped I L R, tol < |p.2.1|) ∧
      (∀ vs ws, res = .done vs ws → ∃ L', ReadsEach ρ R vs ws L' ∧ List.Forall₂ (Copied I L) R L' ∧
        sumOf L = sumOf L' + sumOf ((dropped I L R).map Prod.snd)) ∧
      (check = false → ∀ p ∈ dropped I L R, p.2.1 = 0) := by
    intro R hR hrun
    rcases key R hR hrun with h | ⟨rfl, rfl, h⟩
    · exact ⟨h.defined, h.throws, h.finished, fun hc => by simp [h.all hc]⟩
    · have hd0 : ∀ p ∈ dropped [Comp.zero] [((0 : ℝ), TBlade.const 0)] R, p.2 = (0, .const 0) := by
        intro p hp
        have h5 := (List.mem_filter.mp hp).1
        rw [List.zip_cons_cons, List.zip_nil_left, List.mem_singleton] at h5
        rw [h5]
      refine ⟨h.defined, ⟨fun h' => ?_, ?_⟩, ?_, fun _ p hp => by rw [hd0 p hp]⟩
      · obtain ⟨p, hp, -⟩ := h.throws.mp h'
        rw [dropped_nil] at hp; cases hp
      · rintro ⟨p, hp, h'⟩
        rw [hd0 p hp, abs_zero] at h'
        exact absurd h' (not_lt.mpr ht)
      · intro vs ws hr
        obtain ⟨L', h1, h2, h3⟩ := h.finished vs ws hr
        refine ⟨L', h1, ?_, ?_⟩
        · have h4 := readsEach_forall h1
          clear hrun hd0 h1 h3 h hr key hR
          induction h2 with
          | nil => exact .nil
          | @cons r l R L' hrl _ ih =>
            rw [List.forall₂_cons] at h4
            refine .cons ?_ (ih h4.2)
            rcases hrl with ⟨p, hp, -⟩ | ⟨-, h0⟩
            · simp at hp
            by_cases hb : r.blade = .const 0
            · obtain ⟨_, _, -, hb'⟩ := h4.1
              rw [hb] at hb'
              refine .inl ⟨(Comp.zero, (0, .const 0)), by simp, hb.symm, ?_⟩
              obtain ⟨x, t⟩ := l
              dsimp only at hb' h0
              cases hb'
              rw [h0]
            · exact .inr ⟨fun ⟨d, hd, he⟩ => hb (by rw [List.mem_singleton.mp hd] at he; exact he.symm), h0⟩
        · rw [dropped_nil] at h3
          have h5 : sumOf [((0 : ℝ), TBlade.const 0)] = 0 := by simp [sumOf]
          have h6 : sumOf ((dropped [Comp.zero] [((0 : ℝ), TBlade.const 0)] R).map Prod.snd) = 0 := by
            unfold sumOf
            apply List.sum_eq_zero
            intro m hm
            rw [List.map_map, List.mem_map] at hm
            obtain ⟨p, hp, rfl⟩ := hm
            simp [hd0 p hp]
          rw [h5, h6, add_zero]
          simpa [sumOf] using h3
  by_cases hz : R = [Comp.zero]
  · subst hz
    have hns : ∀ i ∈ core I, i.blade ≠ Comp.zero.blade := by
      by_cases hzI : I = [Comp.zero]
      · rw [show core I = [] from if_pos hzI]; simp
      · have e : core I = I := if_neg hzI
        refine no_scalar n (core I) L iv ib res (core_srt hI) (by rwa [e]) (by rwa [orZero_core hI])
    obtain ⟨h1, h2, h3, h4⟩ := key2 [] ⟨by simp, .nil⟩ h
    by_cases hzI : I = [Comp.zero]
    · subst hzI
      obtain ⟨rfl, rfl, rfl⟩ := readsEach_zero hL
      have hd : dropped [Comp.zero] [((0 : ℝ), TBlade.const 0)] [Comp.zero] = [] := by
        classical
        rw [dropped_cons, if_pos ⟨Comp.zero, by simp, rfl⟩, dropped_nil]
      have hnt : ¬ ∃ vs ws, res = .threw vs ws := by
        rw [h2]
        rintro ⟨p, hp, h'⟩
        have := (List.mem_filter.mp hp).1
        simp at this
        rw [this] at h'
        simp at h'
        exact absurd h' (not_lt.mpr ht)
      rw [hd]
      refine ⟨h1, ⟨fun h => absurd h hnt, by simp⟩, ?_, by simp⟩
      intro vs ws hr
      obtain ⟨L', h5, -, -⟩ := h3 vs ws hr
      cases h5
      exact ⟨_, hL, copied_self hL, by simp [sumOf]⟩
    · have e : core I = I := if_neg hzI
      rw [e] at hns
      have hd : dropped I L [Comp.zero] = dropped I L [] := dropped_congr L fun i hi => by
        constructor
        · rintro ⟨d, hd, he⟩
          rw [List.mem_singleton.mp hd] at he
          exact absurd he.symm (hns i hi)
        · rintro ⟨d, hd, -⟩; cases hd
      rw [hd]
      refine ⟨h1, h2, ?_, h4⟩
      intro vs ws hr
      obtain ⟨L', h5, -, h7⟩ := h3 vs ws hr
      cases h5
      have hZ : ReadsEach ρ [Comp.zero] [] [] [(0, .const 0)] :=
        .cons (vs := []) (ws := []) (.symbolic _ _ rfl (by constructor) (by simp [Denotes, den])) (.const 0) .nil
      refine ⟨[(0, .const 0)], hZ, .cons (.inr ⟨?_, rfl⟩) .nil, ?_⟩
      · rintro ⟨d, hd, he⟩
        exact hns d hd he
      · rw [h7]; simp [sumOf]
  · have e : core R = R := if_neg hz
    have := key2 (core R) (core_srt hR) (by rwa [orZero_core hR])
    rwa [e] at this

/-- a copy that compiles without checks is the same with checks -/
theorem copy_same {floats : Bool} {tol tol' : ℝ} (n : Nat) : ∀ (I R : CSum) (iv : List ℝ) (ib : List Word)
    (res : CopyResult), copyFrom false τ ρ floats tol n I R iv ib = some res →
    copyFrom true τ ρ floats tol' n I R iv ib = some res := by
  induction n with
  | zero => intro I R iv ib res h; simp [copyFrom] at h
  | succ n ih =>
    intro I R iv ib res h
    cases I with
    | nil => simp [copyFrom] at h
    | cons i is =>
    cases R with
    | nil => simp [copyFrom] at h
    | cons r rs =>
    rw [copyFrom] at h ⊢
    revert h
    cases i.blade.lt r.blade <;> cases r.blade.lt i.blade <;> dsimp only
    · cases assign τ ρ floats i r iv ib with
      | none => exact id
      | some o =>
        cases o <;> dsimp only <;> split_ifs <;> try exact id
        all_goals
          intro h
          obtain ⟨rest, h1, h2⟩ := Option.map_eq_some_iff.mp h
          rw [ih _ _ _ _ _ h1, Option.map_some, h2]
    · by_cases h1 : rs = [] ∧ r.coef = .const 0
      · simp only [if_pos h1]; rintro ⟨⟩
      · simp only [if_neg h1]
        cases setZero r with
        | none => exact id
        | some o =>
          simp only [Option.bind_eq_bind, Option.bind_some, Option.bind_eq_some_iff]
          rintro ⟨rest, h1, h2⟩
          exact ⟨rest, ih _ _ _ _ _ h1, h2⟩
    · by_cases h1 : is = [] ∧ i.coef = .const 0
      · simp only [if_pos h1]
        cases setZero r with
        | none => exact id
        | some o =>
          simp only [Option.bind_eq_bind, Option.bind_some, Option.bind_eq_some_iff]
          rintro ⟨rest, h1, h2⟩
          exact ⟨rest, ih _ _ _ _ _ h1, h2⟩
      · simp only [if_neg h1]; rintro ⟨⟩
    · rintro ⟨⟩

/-- which copies compile -/
theorem copy_some {check floats : Bool} {tol : ℝ} {I R : CSum} {iv : List ℝ} {ib : List Word}
    (hI : Ordered I) (hR : Ordered R) (uI : Usable I) (uR : Usable R)
    (hcom : ∀ i ∈ I, ∀ r ∈ R, i.blade = r.blade → Assignable i.coef r.coef)
    (hext : R = [Comp.zero] ∨ ∀ r ∈ R, ¬ HasBlade I r → r.coef = .stored)
    (hdrop : I = [Comp.zero] ∨ ∀ i ∈ I, ¬ HasBlade R i → check = true ∧ i.coef = .stored) :
    ∃ res, copyFrom check τ ρ floats tol (copyDepth I R) I R iv ib = some res := by
  have sI := core_srt hI
  have sR := core_srt hR
  have mI : ∀ i ∈ core I, i ∈ I := by unfold core; split_ifs <;> simp
  have mR : ∀ i ∈ core R, i ∈ R := by unfold core; split_ifs <;> simp
  have := copy_compiles (τ := τ) (ρ := ρ) (check := check) (floats := floats) (tol := tol) (copyDepth I R)
    (core I) (core R) iv ib sI sR
    (not_lt_zero (fun c hc => uI c (mI c hc)) fun c hc => (sI.1 c hc).2)
    (not_lt_zero (fun c hc => uR c (mR c hc)) fun c hc => (sR.1 c hc).2) ?_
    (fun i hi r hr => hcom i (mI i hi) r (mR r hr)) ?_ ?_ ?_
  · rwa [orZero_core hI, orZero_core hR] at this
  · intro hn i hi he
    by_cases hz : R = [Comp.zero]
    · rcases hcom i (mI i hi) Comp.zero (by simp [hz]) he with ⟨h, -⟩ | ⟨h, -⟩
      · cases h
      · exact (sI.1 i hi).1 h
    · rw [show core R = R from if_neg hz] at hn
      rcases hR with h | h
      · exact hz h
      · exact h.1 hn
  · intro r hr hn
    rcases hext with h | h
    · rw [show core R = [] from if_pos h] at hr; cases hr
    by_cases hb : HasBlade I r
    · obtain ⟨d, hd, he⟩ := hb
      by_cases hz : I = [Comp.zero]
      · rw [hz, List.mem_singleton] at hd
        rcases hcom Comp.zero (by simp [hz]) r (mR r hr) (by rw [← hd, he]) with ⟨h, -⟩ | ⟨h, -⟩
        · exact h
        · exact absurd h.symm (sR.1 r hr).1
      · exact absurd ⟨d, by rwa [show core I = I from if_neg hz], he⟩ hn
    · exact h r (mR r hr) hb
  · intro i hi hn
    rcases hdrop with h | h
    · rw [show core I = [] from if_pos h] at hi; cases hi
    by_cases hb : HasBlade R i
    · obtain ⟨d, hd, he⟩ := hb
      by_cases hz : R = [Comp.zero]
      · rw [hz, List.mem_singleton] at hd
        rcases hcom i (mI i hi) Comp.zero (by simp [hz]) (by rw [← hd, he]) with ⟨h, -⟩ | ⟨h, -⟩
        · cases h
        · exact absurd h (sI.1 i hi).1
      · exact absurd ⟨d, by rwa [show core R = R from if_neg hz], he⟩ hn
    · exact h i (mI i hi) hb
  · have h1 : (core I).length ≤ I.length := by unfold core; split_ifs <;> simp
    have h2 : (core R).length ≤ R.length := by unfold core; split_ifs <;> simp
    unfold copyDepth
    omega

end GATL
