import Verif.Model.Simplify
import Verif.Spec.Denote

/-!
# The canonical order on expressions
-/

namespace GATL

open Expr Spec

theorem leafLt_irrefl (e : Expr) : leafLt e e = false := by
  cases e <;> simp [leafLt.eq_def]

theorem ltF_irrefl (n : Nat) : (∀ e, ltF n e e = false) ∧ ∀ as, ltArgsF n as as = false := by
  induction n with
  | zero => exact ⟨fun e => by simp [ltF], fun as => by simp [ltArgsF]⟩
  | succ n ih =>
    obtain ⟨h1, h2⟩ := ih
    constructor
    · intro e
      cases e <;> simp [ltF, h2, leafLt_irrefl]
    · intro as
      match as with
      | [] => simp [ltArgsF]
      | [a] => simp [ltArgsF, h1]
      | a :: b :: as =>
        simp only [ltArgsF]
        split
        · exact h2 _
        · simp [h1, h2]

theorem lt_irrefl' (e : Expr) : lt e e = false := (ltF_irrefl _).1 e

theorem lt_num {a b : Expr} (ha : IsNumLeaf a) (hb : IsNumLeaf b) : lt a b = leafLt a b := by
  cases a <;> cases b <;> simp_all [IsNumLeaf, lt, ltF]

theorem lt_bits {a b : Expr} (ha : IsBitsLeaf a) (hb : IsBitsLeaf b) : lt a b = leafLt a b := by
  cases a <;> cases b <;> simp_all [IsBitsLeaf.eq_def, lt, ltF]

theorem lt_trans_num {a b c : Expr} (ha : IsNumLeaf a) (hb : IsNumLeaf b) (hc : IsNumLeaf c)
    (h1 : lt a b = true) (h2 : lt b c = true) : lt a c = true := by
  rw [lt_num ‹_› ‹_›] at *
  cases a <;> cases b <;> cases c <;> simp_all [IsNumLeaf, leafLt.eq_def] <;> omega

theorem lt_total_num {a b : Expr} (ha : IsNumLeaf a) (hb : IsNumLeaf b) :
    lt a b = true ∨ a = b ∨ lt b a = true := by
  rw [lt_num ‹_› ‹_›, lt_num ‹_› ‹_›]
  cases a <;> cases b <;> simp_all [IsNumLeaf, leafLt.eq_def] <;> omega

theorem lt_trans_bits {a b c : Expr} (ha : IsBitsLeaf a) (hb : IsBitsLeaf b) (hc : IsBitsLeaf c)
    (h1 : lt a b = true) (h2 : lt b c = true) : lt a c = true := by
  rw [lt_bits ‹_› ‹_›] at *
  cases a <;> cases b <;> cases c <;> simp_all [IsBitsLeaf.eq_def, leafLt.eq_def, BitVec.lt_def] <;> omega

theorem lt_total_bits {a b : Expr} (ha : IsBitsLeaf a) (hb : IsBitsLeaf b) :
    lt a b = true ∨ a = b ∨ lt b a = true := by
  rw [lt_bits ‹_› ‹_›, lt_bits ‹_› ‹_›]
  cases a <;> cases b <;> simp_all [IsBitsLeaf.eq_def, leafLt.eq_def, BitVec.lt_def, ← BitVec.toNat_inj] <;>
    omega

theorem lt_asymm_num {a b : Expr} (ha : IsNumLeaf a) (hb : IsNumLeaf b) (h : lt a b = true) :
    lt b a = false := by
  by_contra h'
  have := lt_trans_num ha hb ha h (by simpa using h')
  rw [lt_irrefl'] at this
  simp at this

theorem leaf_shape {a : Expr} (ha : IsNumLeaf a) :
    asAdd a = none ∧ asMul a = none ∧ asPower a = none ∧ asRecip a = none ∧ asRatio a = none ∧
      ∀ name args, a ≠ .fn name args := by
  cases a <;> simp_all [IsNumLeaf, asAdd, asMul, asPower, asRecip, asRatio]

/-- The sum of two leaves. -/
theorem add_leaf (S : Simp) {a b : Expr} (ha : IsNumLeaf a) (hb : IsNumLeaf b) :
    applyRules (addRules S) a b =
      if a = .const 0 then some b else if b = .const 0 then some a
      else if a = b then S .mul (.const 2) a
      else match asConst a, asConst b with
        | some x, some y => mkConst (x + y)
        | _, _ => if lt a b then mkAdd [a, b] else if lt b a then mkAdd [b, a] else mkAdd [a, b] := by
  obtain ⟨a1, a2, a3, a4, a5, a6⟩ := leaf_shape ha
  obtain ⟨b1, b2, b3, b4, b5, b6⟩ := leaf_shape hb
  have c2 : addCollect2 S a b = some none := by
    unfold addCollect2; split
    · exact absurd rfl (a6 _ _)
    · rfl
  have c3 : addCollect3 S a b = some none := by
    unfold addCollect3; split
    · exact absurd rfl (b6 _ _)
    · rfl
  have c4 : addCollect4 S a b = some none := by
    unfold addCollect4; split
    · exact absurd rfl (a6 _ _)
    · rfl
  have c5 : addCollect5 S a b = some none := by
    unfold addCollect5; split
    · exact absurd rfl (a6 _ _)
    · rfl
  have c6 : addCollect6 S a b = some none := by
    unfold addCollect6; split
    · exact absurd rfl (b6 _ _)
    · rfl
  have c7 : addCollect7 S a b = some none := by
    unfold addCollect7; split
    · exact absurd rfl (a6 _ _)
    · rfl
  have d2 : addConst2 S a b = some none := by simp [addConst2, a4, b4]
  have d3 : addConst3 S a b = some none := by simp [addConst3, a4, a5, b4]
  have d4 : addConst4 S a b = some none := by simp [addConst4, a4]
  have d5 : addConst5 S a b = some none := by simp [addConst5, a5]
  simp only [addRules, applyRules, addHelper, a1, b1, c2, c3, c4, c5, c6, c7, d2, d3, d4, d5,
    addZero, addCollect1, addConst1, addMergeLt, addMergeGt, addMergeEq]
  by_cases h0 : a = .const 0
  · simp [h0]
  by_cases h1 : b = .const 0
  · simp [h0, h1]
  by_cases h2 : a = b
  · simp only [if_neg h0, if_neg h1, if_pos h2, fire]
    cases S .mul (.const 2) a <;> simp
  simp only [if_neg h0, if_neg h1, if_neg h2]
  cases asConst a <;> cases asConst b <;> simp only [fire]
  case some.some x y => cases mkConst (x + y) <;> simp
  all_goals
    cases mkAdd [a, b] <;> cases mkAdd [b, a] <;> cases lt a b <;> cases lt b a <;> simp

/-- The product of two leaves. -/
theorem mul_leaf (S : Simp) {a b : Expr} (ha : IsNumLeaf a) (hb : IsNumLeaf b) :
    applyRules (mulRules S) a b =
      if a = .const 0 ∨ b = .const 0 then some (.const 0)
      else if a = .const 1 then some b else if b = .const 1 then some a
      else if a = b then S .pow a (.const 2)
      else match asConst a, asConst b with
        | some x, some y => mkConst (x * y)
        | _, _ => if lt a b then mkMul [a, b] else if lt b a then mkMul [b, a] else mkMul [a, b] := by
  obtain ⟨a1, a2, a3, a4, a5, a6⟩ := leaf_shape ha
  obtain ⟨b1, b2, b3, b4, b5, b6⟩ := leaf_shape hb
  have c2 : mulCollect2 S a b = some none := by simp [mulCollect2, a3, b3]
  have c3 : mulCollect3 S a b = some none := by simp [mulCollect3, a3]
  have d2 : mulConst2 S a b = some none := by simp [mulConst2, a4, b4]
  simp only [mulRules, applyRules, mulHelper, a1, b1, a2, b2, a4, b4, c2, c3, d2, mulDistribute,
    mulZero, mulOne, mulCollect1, mulConst1, mulMergeLt, mulMergeGt, mulMergeEq]
  by_cases h0 : a = .const 0 ∨ b = .const 0
  · simp [h0]
  by_cases h1 : a = .const 1
  · simp only [if_neg h0, if_pos h1]
  by_cases h2 : b = .const 1
  · simp only [if_neg h0, if_neg h1, if_pos h2]
  by_cases h3 : a = b
  · simp only [if_neg h0, if_neg h1, if_neg h2, if_pos h3, fire]
    cases S .pow a (.const 2) <;> simp
  simp only [if_neg h0, if_neg h1, if_neg h2, if_neg h3]
  cases asConst a <;> cases asConst b <;> simp only [fire]
  case some.some x y => cases mkConst (x * y) <;> simp
  all_goals
    cases mkMul [a, b] <;> cases mkMul [b, a] <;> cases lt a b <;> cases lt b a <;> simp

theorem add_leaf_comm (S : Simp) {a b : Expr} (ha : IsNumLeaf a) (hb : IsNumLeaf b) :
    applyRules (addRules S) a b = applyRules (addRules S) b a := by
  rw [add_leaf S ha hb, add_leaf S hb ha]
  by_cases h0 : a = .const 0
  · subst h0
    by_cases h1 : b = .const 0
    · simp [h1]
    · simp [h1]
  by_cases h1 : b = .const 0
  · simp [h0, h1]
  by_cases h2 : a = b
  · subst h2; rfl
  rw [if_neg h0, if_neg h1, if_neg h2, if_neg h1, if_neg h0, if_neg (Ne.symm h2)]
  have hsort : (if lt a b then mkAdd [a, b] else if lt b a then mkAdd [b, a] else mkAdd [a, b]) =
      if lt b a then mkAdd [b, a] else if lt a b then mkAdd [a, b] else mkAdd [b, a] := by
    rcases lt_total_num ha hb with h | h | h
    · rw [if_pos h, if_neg (by rw [lt_asymm_num ha hb h]; simp), if_pos h]
    · exact absurd h h2
    · rw [if_neg (by rw [lt_asymm_num hb ha h]; simp), if_pos h, if_pos h]
  cases asConst a <;> cases asConst b <;> simp only [hsort, add_comm]

theorem mul_leaf_comm (S : Simp) {a b : Expr} (ha : IsNumLeaf a) (hb : IsNumLeaf b) :
    applyRules (mulRules S) a b = applyRules (mulRules S) b a := by
  rw [mul_leaf S ha hb, mul_leaf S hb ha]
  by_cases h0 : a = .const 0 ∨ b = .const 0
  · rw [if_pos h0, if_pos h0.symm]
  rw [if_neg h0, if_neg (show ¬(b = .const 0 ∨ a = .const 0) from fun h => h0 h.symm)]
  by_cases h1 : a = .const 1
  · by_cases h2 : b = .const 1
    · rw [h1, h2]
    · rw [if_pos h1, if_neg h2, if_pos h1]
  by_cases h2 : b = .const 1
  · rw [if_neg h1, if_pos h2, if_pos h2]
  by_cases h3 : a = b
  · subst h3; rfl
  rw [if_neg h1, if_neg h2, if_neg h3, if_neg h2, if_neg h1, if_neg (Ne.symm h3)]
  have hsort : (if lt a b then mkMul [a, b] else if lt b a then mkMul [b, a] else mkMul [a, b]) =
      if lt b a then mkMul [b, a] else if lt a b then mkMul [a, b] else mkMul [b, a] := by
    rcases lt_total_num ha hb with h | h | h
    · rw [if_pos h, if_neg (by rw [lt_asymm_num ha hb h]; simp), if_pos h]
    · exact absurd h h3
    · rw [if_neg (by rw [lt_asymm_num hb ha h]; simp), if_pos h, if_pos h]
  cases asConst a <;> cases asConst b <;> simp only [hsort, mul_comm]

end GATL
