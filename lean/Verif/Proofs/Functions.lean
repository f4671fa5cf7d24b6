import Verif.Model.Functions
import Verif.Proofs.Traits
import Verif.Proofs.Swaps

/-!
# Folding of functions preserves values
-/

namespace GATL

open Expr Spec

variable {ρ : Env}

/-- What a fold must achieve: the result denotes the value of the function. -/
def Folds (ρ : Env) (name : Name) (args : List Expr) (e : Expr) : Prop :=
  ∀ v, interp name (denList ρ args) = some v → den ρ e = some v

theorem Folds.refl (name : Name) (args : List Expr) : Folds ρ name args (.fn name args) := by
  intro v h; rw [den_fn, h]

theorem orderSign_eq (a b : Word) : ((reorderingSign a b : Int) : ℝ) = orderSign a b := by
  rw [reorderingSign_eq, strictInv_eq_card, orderSign]; push_cast; rfl

theorem orderSign_zero_left (b : Word) : orderSign 0 b = 1 := by
  have h : vecs (0 : Word) = ∅ := by ext; simp [vecs]
  rw [orderSign, h]; simp [inversions]

theorem orderSign_zero_right (b : Word) : orderSign b 0 = 1 := by
  have h : vecs (0 : Word) = ∅ := by ext; simp [vecs]
  rw [orderSign, h]; simp [inversions]

theorem mkReorderingSign_ok (l r : Expr) :
    Folds ρ .reorderingSign [l, r] (mkReorderingSign l r) := by
  unfold mkReorderingSign
  split
  · intro v h
    simp only [denList, den, interp, Option.some.injEq] at h
    rw [← h, den, orderSign_eq]
  · split
    · rename_i h
      intro v hv
      simp only [denList] at hv
      rcases h with rfl | rfl
      · rcases hr : den ρ r with _ | _ | b | _ <;> rw [hr] at hv <;>
          simp only [den, interp, reduceCtorEq, Option.some.injEq] at hv
        rw [← hv, orderSign_zero_left]; simp [den]
      · rcases hl : den ρ l with _ | _ | b | _ <;> rw [hl] at hv <;>
          simp only [den, interp, reduceCtorEq, Option.some.injEq] at hv
        rw [← hv, orderSign_zero_right]; simp [den]
    · exact Folds.refl _ _

theorem mkCountOneBits_ok (b : Expr) : Folds ρ .countOneBits [b] (mkCountOneBits b) := by
  unfold mkCountOneBits
  split
  · intro v h
    simp only [denList, den, interp, Option.some.injEq] at h
    rw [← h, den, ones_eq_card]; simp
  · exact Folds.refl _ _

theorem mkLeftShift_ok {l r e : Expr} (he : mkLeftShift l r = some e) :
    Folds ρ .leftShift [l, r] e := by
  unfold mkLeftShift at he
  split at he
  · rename_i a k
    split at he
    · rename_i hk
      obtain ⟨m, rfl⟩ := Int.eq_ofNat_of_zero_le hk.1
      simp only [Option.some.injEq] at he; subst he
      intro v h
      simp only [denList, den, interp, Int.cast_natCast, Nat.floor_natCast,
        true_and] at h
      split at h
      · simp only [Option.some.injEq] at h
        rw [← h, den]; simp
      · simp at h
    · simp at he
  · split at he
    · rename_i h
      simp only [Option.some.injEq] at he; subst he
      intro v hv
      simp only [denList] at hv
      rcases h with rfl | rfl
      · rcases hr : den ρ r with _ | x | _ | _ <;> rw [hr] at hv <;>
          simp only [den, interp, reduceCtorEq] at hv
        split at hv
        · simpa [den] using hv
        · simp at hv
      · rcases hl : den ρ l with _ | _ | b | _ <;> rw [hl] at hv <;>
          simp only [den, interp, reduceCtorEq] at hv
        simpa using hv
    · simp only [Option.some.injEq] at he; subst he
      exact Folds.refl _ _

theorem mkUminus_ok {b e : Expr} (he : mkUminus b = some e) : Folds ρ .uminus [b] e := by
  unfold mkUminus at he
  split at he
  · split at he
    · simp at he
    · simp only [Option.some.injEq] at he; subst he
      intro v h
      simp only [denList, den, interp, Option.some.injEq] at h
      rw [← h, den]
  · rename_i c
    simp only [Option.some.injEq] at he; subst he
    intro v h
    simp only [denList, den] at h
    rcases hc : den ρ c with _ | _ | w | _ <;> rw [hc] at h <;>
      simp only [interp, reduceCtorEq, Option.some.injEq] at h
    rw [← h, BitVec.neg_neg]
  · simp only [Option.some.injEq] at he; subst he
    exact Folds.refl _ _

theorem mkDec_ok (b : Expr) : Folds ρ .dec [b] (mkDec b) := by
  unfold mkDec
  split
  · intro v h
    simp only [denList, den, interp, Option.some.injEq] at h
    rw [← h, den]
  · exact Folds.refl _ _

theorem floor_int {a : Int} (h : (a : ℝ) = ⌊(a : ℝ)⌋₊) : ∃ n : Nat, a = n := by
  refine ⟨⌊(a : ℝ)⌋₊, ?_⟩
  exact_mod_cast h

theorem mkAnd_ok (l r : Expr) : Folds ρ .band [l, r] (mkAnd l r) := by
  unfold mkAnd
  split
  · rename_i a b
    intro v h
    simp only [denList, den, interp] at h
    split at h
    · rename_i hc
      obtain ⟨m, rfl⟩ := floor_int hc.1
      obtain ⟨n, rfl⟩ := floor_int hc.2
      rw [← h, den]
      simp [Int.land]
    · simp at h
  · intro v h
    simp only [denList, den, interp, Option.some.injEq] at h
    rw [← h, den]
  · split
    · rename_i h
      intro v hv
      simp only [denList] at hv
      rcases h with rfl | rfl
      · rcases hr : den ρ r with _ | x | _ | _ <;> rw [hr] at hv <;>
          simp only [den, interp, reduceCtorEq] at hv
        split at hv
        · simpa [den] using hv
        · simp at hv
      · rcases hl : den ρ l with _ | x | _ | _ <;> rw [hl] at hv <;>
          simp only [den, interp, reduceCtorEq] at hv
        split at hv
        · simpa [den] using hv
        · simp at hv
    · split
      · rename_i h
        intro v hv
        simp only [denList] at hv
        rcases h with rfl | rfl
        · rcases hr : den ρ r with _ | x | _ | _ <;> rw [hr] at hv <;>
            simp only [den, interp, reduceCtorEq] at hv
          simpa [den] using hv
        · rcases hl : den ρ l with _ | x | _ | _ <;> rw [hl] at hv <;>
            simp only [den, interp, reduceCtorEq] at hv
          simpa [den] using hv
      · exact Folds.refl _ _

theorem mkOr_ok (l r : Expr) : Folds ρ .bor [l, r] (mkOr l r) := by
  unfold mkOr
  split
  · rename_i a b
    intro v h
    simp only [denList, den, interp] at h
    split at h
    · rename_i hc
      obtain ⟨m, rfl⟩ := floor_int hc.1
      obtain ⟨n, rfl⟩ := floor_int hc.2
      rw [← h, den]
      simp [Int.lor]
    · simp at h
  · intro v h
    simp only [denList, den, interp, Option.some.injEq] at h
    rw [← h, den]
  · split
    · rename_i h
      intro v hv
      simp only [denList] at hv
      rcases h with rfl | rfl
      · rcases hr : den ρ r with _ | x | _ | _ <;> rw [hr] at hv <;>
          simp only [den, interp, reduceCtorEq] at hv
        split at hv
        · rename_i hc
          rw [← hv]
          simp
          exact hc.2
        · simp at hv
      · rcases hr : den ρ r with _ | x | _ | _ <;> rw [hr] at hv <;>
          simp only [den, interp, reduceCtorEq] at hv
        simpa using hv
    · split
      · rename_i h
        intro v hv
        simp only [denList] at hv
        rcases h with rfl | rfl
        · rcases hl : den ρ l with _ | x | _ | _ <;> rw [hl] at hv <;>
            simp only [den, interp, reduceCtorEq] at hv
          split at hv
          · rename_i hc
            rw [← hv]
            simp
            exact hc.1
          · simp at hv
        · rcases hl : den ρ l with _ | x | _ | _ <;> rw [hl] at hv <;>
            simp only [den, interp, reduceCtorEq] at hv
          simpa using hv
      · exact Folds.refl _ _

theorem mkXor_ok (l r : Expr) : Folds ρ .bxor [l, r] (mkXor l r) := by
  unfold mkXor
  split
  · rename_i a b
    intro v h
    simp only [denList, den, interp] at h
    split at h
    · rename_i hc
      obtain ⟨m, rfl⟩ := floor_int hc.1
      obtain ⟨n, rfl⟩ := floor_int hc.2
      rw [← h, den]
      simp [Int.xor]
    · simp at h
  · intro v h
    simp only [denList, den, interp, Option.some.injEq] at h
    rw [← h, den]
  · split
    · rename_i h
      intro v hv
      simp only [denList] at hv
      rcases h with rfl | rfl
      · rcases hr : den ρ r with _ | x | _ | _ <;> rw [hr] at hv <;>
          simp only [den, interp, reduceCtorEq] at hv
        split at hv
        · rename_i hc
          rw [← hv]
          simp
          exact hc.2
        · simp at hv
      · rcases hr : den ρ r with _ | x | _ | _ <;> rw [hr] at hv <;>
          simp only [den, interp, reduceCtorEq] at hv
        simpa using hv
    · split
      · rename_i h
        intro v hv
        simp only [denList] at hv
        rcases h with rfl | rfl
        · rcases hl : den ρ l with _ | x | _ | _ <;> rw [hl] at hv <;>
            simp only [den, interp, reduceCtorEq] at hv
          split at hv
          · rename_i hc
            rw [← hv]
            simp
            exact hc.1
          · simp at hv
        · rcases hl : den ρ l with _ | x | _ | _ <;> rw [hl] at hv <;>
            simp only [den, interp, reduceCtorEq] at hv
          simpa using hv
      · exact Folds.refl _ _

theorem mkEqual_ok {l r : Expr}
    (hlit : l ≠ r → isConstant l = true → isConstant r = true →
      isLiteral l = true ∧ isLiteral r = true) :
    Folds ρ .equal [l, r] (mkEqual l r) := by
  unfold mkEqual
  split
  · rename_i h
    obtain ⟨rfl, -⟩ := h
    intro v hv
    simp only [denList] at hv
    rcases hl : den ρ l with _ | x | _ | _ <;> rw [hl] at hv <;>
      simp only [interp, reduceCtorEq] at hv
    · simpa [den] using hv
    · simpa [den] using hv
  · split
    · rename_i h
      obtain ⟨h0, h1, h2⟩ := h
      obtain ⟨h3, h4⟩ := hlit h0 h1 h2
      intro v hv
      simp only [denList] at hv
      cases l <;> simp only [isLiteral, Bool.false_eq_true] at h3 <;>
        cases r <;> simp only [isLiteral, Bool.false_eq_true] at h4 <;>
        simp only [den, interp, reduceCtorEq] at hv
      · rw [← hv, den]
        simpa using h0
      · rw [← hv, den]
        simpa using h0
    · exact Folds.refl _ _

theorem mkLessOrEqual_ok (l r : Expr) : Folds ρ .lessOrEqual [l, r] (mkLessOrEqual l r) := by
  unfold mkLessOrEqual
  split
  · intro v hv
    simp only [denList, den, interp] at hv
    rw [← hv, den]; simp
  · intro v hv
    simp only [denList, den, interp] at hv
    rw [← hv, den]
  · split
    · rename_i h
      obtain ⟨rfl, -⟩ := h
      intro v hv
      simp only [denList] at hv
      rcases hl : den ρ l with _ | x | _ | _ <;> rw [hl] at hv <;>
        simp only [interp, reduceCtorEq] at hv
      · simpa [den] using hv
      · simpa [den] using hv
    · exact Folds.refl _ _

theorem mkLogicalAnd_ok (l r : Expr) : Folds ρ .logicalAnd [l, r] (mkLogicalAnd l r) := by
  unfold mkLogicalAnd
  split_ifs with h1 h2 h3 h4
  · intro v hv
    simp only [denList] at hv
    rcases h1 with rfl | rfl
    · simpa [den, interp] using hv
    · rcases hl : den ρ l with _ | x | _ | _ | _ <;> rw [hl] at hv <;>
        simp only [den, interp, reduceCtorEq] at hv <;> simpa [den] using hv
  · subst h2
    intro v hv
    simp only [denList] at hv
    rcases hl : den ρ l with _ | x | _ | _ | _ <;> rw [hl] at hv <;>
      simp only [den, interp, reduceCtorEq] at hv <;> exact hv
  · subst h3
    intro v hv
    simp only [denList] at hv
    rcases hr : den ρ r with _ | x | _ | _ | _ <;> rw [hr] at hv <;>
      simp only [den, interp, reduceCtorEq] at hv <;> exact hv
  · obtain ⟨rfl, -⟩ := h4
    intro v hv
    simp only [denList] at hv
    rcases hl : den ρ l with _ | x | _ | _ | _ <;> rw [hl] at hv <;>
      simp only [interp, reduceCtorEq] at hv <;> exact hv
  · exact Folds.refl _ _

theorem mkLogicalOr_ok (l r : Expr) : Folds ρ .logicalOr [l, r] (mkLogicalOr l r) := by
  unfold mkLogicalOr
  split_ifs with h1 h2 h3
  · intro v hv
    simp only [denList] at hv
    rcases h1 with rfl | rfl
    · simpa [den, interp] using hv
    · rcases hl : den ρ l with _ | x | _ | _ | _ <;> rw [hl] at hv <;>
        simp only [den, interp, reduceCtorEq] at hv <;> simpa [den] using hv
  · subst h2
    intro v hv
    simp only [denList] at hv
    rcases hl : den ρ l with _ | x | _ | _ | _ <;> rw [hl] at hv <;>
      simp only [den, interp, reduceCtorEq] at hv <;> exact hv
  · subst h3
    intro v hv
    simp only [denList] at hv
    rcases hr : den ρ r with _ | x | _ | _ | _ <;> rw [hr] at hv <;>
      simp only [den, interp, reduceCtorEq] at hv <;> exact hv
  · exact Folds.refl _ _

theorem mkIfElse_ok (t a b : Expr) : Folds ρ .ifElse [t, a, b] (mkIfElse t a b) := by
  unfold mkIfElse
  split
  · intro v hv
    simpa only [denList, den, interp] using hv
  · intro v hv
    simpa only [denList, den, interp] using hv
  · split
    · rename_i h
      obtain ⟨rfl, -⟩ := h
      intro v hv
      simp only [denList] at hv
      rcases ht : den ρ t with _ | x | _ | _ | _ <;> rw [ht] at hv <;>
        simp only [interp, reduceCtorEq] at hv <;> exact hv
    · exact Folds.refl _ _

theorem mkAbsolute_ok {n : Nat} {v e : Expr} (hb : Built v) (hs : TraitSafe v)
    (hc : isConstant v = true → isNonNegative v = some false → ∀ x, Denotes ρ v x → x ≤ 0)
    (he : mkAbsolute (simp n) v = some e) : Folds ρ .absolute [v] e := by
  unfold mkAbsolute at he
  simp only [Option.bind_eq_bind, Option.bind_eq_some_iff] at he
  obtain ⟨nn, hnn, neg, hneg, he⟩ := he
  intro w hw
  simp only [denList] at hw
  rcases hv : den ρ v with _ | x | _ | _ <;> rw [hv] at hw <;>
    simp only [interp, reduceCtorEq, Option.some.injEq] at hw
  have hd : Denotes ρ v x := hv
  split at he
  · rename_i h
    simp only [Option.some.injEq] at he; subst he
    have := (isNonNegative_ok (size v)).1 v le_rfl hs (by rw [hnn, h]) x hd
    rw [hv, ← hw, abs_of_nonneg this]
  · rename_i h
    split at he
    · rename_i h2
      simp only [Option.some.injEq] at he; subst he
      simp only [Bool.and_eq_true] at h2
      have hx := hc h2.1 (by rw [hnn]; simpa using h) x hd
      have := ((simp_sound ρ n).mul _ _ _ _ _ (V.const (-1)) ⟨hb, hd⟩ hneg).2
      unfold Denotes at this
      rw [this, ← hw, abs_of_nonpos hx]; simp
    · simp only [Option.some.injEq] at he; subst he
      rw [den_fn, denList, denList, hv, interp, hw]

theorem mkExp_ok (v : Expr) : Folds ρ .exponential [v] (mkExp v) := by
  unfold mkExp
  split
  · rename_i u
    intro w hw
    simp only [denList, den] at hw
    rcases hu : den ρ u with _ | x | _ | _ <;> rw [hu] at hw <;>
      simp only [interp, reduceCtorEq] at hw
    by_cases hx : 0 < x
    · rw [if_pos hx] at hw
      simp only [interp, Option.some.injEq] at hw
      rw [← hw, Real.exp_log hx]
    · rw [if_neg hx] at hw
      simp [interp] at hw
  · exact Folds.refl _ _

theorem mkLog_ok (v : Expr) : Folds ρ .logarithm [v] (mkLog v) := by
  unfold mkLog
  split
  · rename_i u
    intro w hw
    simp only [denList, den] at hw
    rcases hu : den ρ u with _ | x | _ | _ <;> rw [hu] at hw <;>
      simp only [interp, reduceCtorEq] at hw
    rw [if_pos (Real.exp_pos x), Option.some.injEq, Real.log_exp] at hw
    rw [← hw]
  · exact Folds.refl _ _

theorem mkFn_ok {n : Nat} {name : Name} {args : List Expr} {e : Expr}
    (hb : ∀ a ∈ args, Built a) (hok : FoldOk ρ name args)
    (he : mkFn (simp n) name args = some e) : Folds ρ name args e := by
  unfold mkFn at he
  split at he
  all_goals try (simp only [Option.some.injEq] at he; subst he)
  · exact mkReorderingSign_ok _ _
  · exact mkCountOneBits_ok _
  · exact mkLeftShift_ok he
  · exact mkUminus_ok he
  · exact mkDec_ok _
  · exact mkAnd_ok _ _
  · exact mkOr_ok _ _
  · exact mkXor_ok _ _
  · exact mkEqual_ok hok
  · exact mkLessOrEqual_ok _ _
  · exact mkLogicalAnd_ok _ _
  · exact mkLogicalOr_ok _ _
  · exact mkIfElse_ok _ _ _
  · exact mkAbsolute_ok (hb _ (by simp)) hok.1 hok.2 he
  · exact mkExp_ok _
  · exact mkLog_ok _
  all_goals first | exact Folds.refl _ _ | simp at he

end GATL
