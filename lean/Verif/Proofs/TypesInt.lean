import Verif.Proofs.Eval

/-!
Integer arithmetic has integer results.
-/

namespace GATL

open Expr Spec

/-- A number of an integer type. -/
def IsInt (x : ℝ) : Prop := ∃ z : ℤ, x = z

theorem isInt_int (z : ℤ) : IsInt z := ⟨z, rfl⟩
theorem isInt_nat (n : ℕ) : IsInt n := ⟨n, by simp⟩
theorem IsInt.add {x y : ℝ} (hx : IsInt x) (hy : IsInt y) : IsInt (x + y) := by
  obtain ⟨a, rfl⟩ := hx; obtain ⟨b, rfl⟩ := hy; exact ⟨a + b, by push_cast; rfl⟩
theorem IsInt.sub {x y : ℝ} (hx : IsInt x) (hy : IsInt y) : IsInt (x - y) := by
  obtain ⟨a, rfl⟩ := hx; obtain ⟨b, rfl⟩ := hy; exact ⟨a - b, by push_cast; rfl⟩
theorem IsInt.mul {x y : ℝ} (hx : IsInt x) (hy : IsInt y) : IsInt (x * y) := by
  obtain ⟨a, rfl⟩ := hx; obtain ⟨b, rfl⟩ := hy; exact ⟨a * b, by push_cast; rfl⟩
theorem IsInt.neg {x : ℝ} (hx : IsInt x) : IsInt (-x) := by
  obtain ⟨a, rfl⟩ := hx; exact ⟨-a, by push_cast; rfl⟩
theorem isInt_truncate (x : ℝ) : IsInt (truncate x) := by
  unfold truncate; split_ifs <;> exact ⟨_, rfl⟩

theorem num2_some {f : ℝ → ℝ → Option ℝ} {a b : Option Val} {v : Val} (h : num2 f a b = some v) :
    ∃ x y z, a = some (.num x) ∧ b = some (.num y) ∧ f x y = some z ∧ v = .num z := by
  unfold num2 at h
  split at h
  · simp only [Option.map_eq_some_iff] at h
    obtain ⟨z, hz, rfl⟩ := h
    exact ⟨_, _, z, rfl, rfl, hz, rfl⟩
  · simp at h

theorem num1_some {a : Option Val} {v : Val} (h : num1 a = some v) : ∃ x, a = some (.num x) ∧ v = .num (-x) := by
  unfold num1 at h
  split at h
  · cases h; exact ⟨_, rfl, rfl⟩
  · simp at h

variable {τ : Types} {ρ : Env}

theorem floatingMul_neg {ls : List Expr} (h : floatingMul τ (.const (-1) :: ls) = false) :
    floatingMul τ ls = false := by
  rw [floatingMul.eq_def] at h
  split at h
  · next h' => simp at h'
  · next h' =>
    simp only [List.cons.injEq] at h'
    obtain ⟨rfl, rfl⟩ := h'
    simp at h
  · next h' =>
    simp only [List.cons.injEq] at h'
    obtain ⟨rfl, rfl⟩ := h'
    simp only [Bool.or_eq_false_iff] at h
    exact h.2

theorem evalFn_int {name : Name} {vs : List (Option Val)} {x : ℝ} (h : evalFn name vs = some (.num x)) :
    IsInt x ∨ (name = .ifElse ∧ ∃ t a b, vs = [some (.bool t), a, b] ∧ (if t then a else b) = some (.num x)) ∨
      (name = .absolute ∧ ∃ a, vs = [some (.num a)] ∧ x = if 0 ≤ a then a else -a) ∨
      name ∈ [Name.exponential, .logarithm, .cosine, .sine, .tangent, .hcosine, .hsine, .htangent] := by
  unfold evalFn at h
  split at h
  all_goals try (simp; done)
  case h_1 => simp only [Option.some.injEq, Val.num.injEq] at h; exact .inl (h ▸ isInt_int _)
  case h_2 => simp only [Option.some.injEq, Val.num.injEq] at h; exact .inl (h ▸ isInt_nat _)
  all_goals try (simp only [Option.some.injEq, reduceCtorEq] at h; done)
  all_goals try (split_ifs at h; simp only [Option.some.injEq, reduceCtorEq] at h; done)
  all_goals try (split_ifs at h; simp only [Option.some.injEq, Val.num.injEq] at h; exact .inl (h ▸ isInt_nat _))
  · split_ifs at h
    · split at h <;> simp at h
    · simp at h
  · split_ifs at h
    · simp at h
    · split at h <;> simp at h
  · exact .inr (.inl ⟨rfl, _, _, _, rfl, h⟩)
  · simp only [Option.some.injEq, Val.num.injEq] at h
    exact .inr (.inr (.inl ⟨rfl, _, rfl, h.symm⟩))

theorem neg_mul_int {ls : List Expr} (hf : floatingMul τ (.const (-1) :: ls) = false)
    (ih : ∀ x, evalMul τ ρ (.const (-1) :: ls) = some (.num x) → IsInt x) {y : ℝ}
    (h : evalMul τ ρ ls = some (.num y)) : IsInt y := by
  by_cases h1 : ls = []
  · subst h1
    simp [evalMul] at h
    exact h ▸ ⟨0, by simp⟩
  · have e : evalMul τ ρ (.const (-1) :: ls) = num1 (evalMul τ ρ ls) := by
      rw [evalMul]
      · exact h1
      · rintro r rfl
        simp [floatingMul] at hf
    have := ih (-y) (by rw [e, h]; rfl)
    simpa using this.neg

mutual
theorem eval_int (hρ : ∀ t i, τ t = false → IsInt (ρ.val t i)) : ∀ e : Expr, floating τ e = false →
    ∀ x, eval τ ρ e = some (.num x) → IsInt x
  | .const v, _, x, h => by
    simp only [eval, Option.some.injEq, Val.num.injEq] at h
    exact h ▸ isInt_int v
  | .value t i, hf, x, h => by
    simp only [eval, Option.some.injEq, Val.num.injEq] at h
    rw [floating] at hf
    exact h ▸ hρ t i hf
  | .cbits w, _, x, h => by simp [eval] at h
  | .bitset t i, _, x, h => by simp [eval] at h
  | .cbool b, _, x, h => by simp [eval] at h
  | .mapValues .., _, x, h => by simp [eval] at h
  | .stored, _, x, h => by simp [eval] at h
  | .storedMap, _, x, h => by simp [eval] at h
  | .mapBitsets .., _, x, h => by simp [eval] at h
  | .storedBits, _, x, h => by simp [eval] at h
  | .storedMapBits, _, x, h => by simp [eval] at h
  | .fn name args, hf, x, h => by
    have ih := evalList_int hρ args
    by_cases h1 : name = .mul
    · subst h1
      rw [eval] at h
      rw [floating] at hf
      exact evalMul_int hρ args hf x h
    by_cases h2 : name = .add
    · subst h2
      rw [eval] at h
      rw [floating] at hf
      exact evalAdd_int hρ args hf x h
    by_cases h3 : name = .power
    · subst h3
      rw [floating.eq_def] at hf
      split at hf <;> simp only [reduceCtorEq, Expr.fn.injEq, false_and] at * <;> try contradiction
      · next l v h' =>
        obtain ⟨-, rfl⟩ := h'
        split_ifs at hf with hv
        rw [eval] at h
        unfold evalPower at h
        split at h
        · next y hy =>
          have := ih l (by simp) hf y hy
          rcases hv with rfl | rfl | rfl
          · simp at h; exact h ▸ this.mul this
          · simp at h; exact h ▸ (this.mul this).mul this
          · simp at h; exact h ▸ (this.mul this).mul (this.mul this)
        · simp at h
      · simp_all
    have he : eval τ ρ (.fn name args) = evalFn name (evalList τ ρ args) := by
      cases name <;> first | rfl | contradiction
    rw [he] at h
    rcases evalFn_int h with h | ⟨rfl, t, a', b', e, h⟩ | ⟨rfl, a', e, hx⟩ | h
    · exact h
    · rcases args with _ | ⟨c, _ | ⟨a, _ | ⟨b, _ | ⟨d, args⟩⟩⟩⟩ <;> simp only [evalList, List.cons.injEq,
        reduceCtorEq, and_false, and_true] at e
      simp only [floating, Bool.or_eq_false_iff] at hf
      obtain ⟨-, rfl, rfl⟩ := e
      split_ifs at h
      · exact ih a (by simp) hf.1 x h
      · exact ih b (by simp) hf.2 x h
    · rcases args with _ | ⟨a, _ | ⟨d, args⟩⟩ <;> simp only [evalList, List.cons.injEq,
        reduceCtorEq, and_false, and_true] at e
      simp only [floating] at hf
      have := ih a (by simp) hf a' e
      rw [hx]
      split_ifs
      · exact this
      · exact this.neg
    · exfalso
      simp only [List.mem_cons, List.not_mem_nil, or_false] at h
      rcases h with rfl | rfl | rfl | rfl | rfl | rfl | rfl | rfl <;> simp [floating] at hf
theorem evalMul_int (hρ : ∀ t i, τ t = false → IsInt (ρ.val t i)) : ∀ args : List Expr,
    floatingMul τ args = false → ∀ x, evalMul τ ρ args = some (.num x) → IsInt x
  | [], hf, x, h => by simp [evalMul] at h; exact h ▸ ⟨0, by simp⟩
  | a :: rest, hf, x, h => by
    have ia := eval_int hρ a
    have ih := evalMul_int hρ rest
    rw [evalMul.eq_def] at h
    split at h
    · next h' => simp at h'
    · next h' =>
      cases h'
      rw [floatingMul] at hf
      · simp only [Bool.or_eq_false_iff] at hf
        exact ia hf.1 x h
      · rintro _ ⟨⟩
    · next l r h' =>
      cases h'
      rw [floatingMul] at hf
      split_ifs at h hf with hl
      simp only [Bool.or_eq_false_iff] at hf
      obtain ⟨a, b, c, -, -, h1, h2⟩ := num2_some h
      cases h2
      unfold divide at h1
      split_ifs at h1
      · simp_all
      · cases h1; exact isInt_truncate _
    · next rest' _ _ h' =>
      cases h'
      obtain ⟨y, h1, h2⟩ := num1_some h
      cases h2
      exact (ih (floatingMul_neg hf) y h1).neg
    · next a' rest' h1 h2 h3 h' =>
      cases h'
      rw [floatingMul] at hf
      · simp only [Bool.or_eq_false_iff] at hf
        obtain ⟨u, v, w, e1, e2, e3, e4⟩ := num2_some h
        cases e4
        cases e3
        exact (ia hf.1 u e1).mul (ih hf.2 v e2)
      · exact h2
theorem evalAdd_int (hρ : ∀ t i, τ t = false → IsInt (ρ.val t i)) : ∀ args : List Expr,
    floatingAdd τ args = false → ∀ x, evalAdd τ ρ args = some (.num x) → IsInt x
  | [], hf, x, h => by simp [evalAdd] at h; exact h ▸ ⟨0, by simp⟩
  | a :: rest, hf, x, h => by
    have ia := eval_int hρ a
    have ih := evalAdd_int hρ rest
    simp only [floatingAdd, Bool.or_eq_false_iff] at hf
    rw [evalAdd.eq_def] at h
    split at h
    · next h' => simp at h'
    · next h' =>
      cases h'
      exact ia hf.1 x h
    · next ls rs h' =>
      cases h'
      obtain ⟨y, h1, h2⟩ := num1_some h
      cases h2
      obtain ⟨u, v, w, e1, e2, e3, e4⟩ := num2_some h1
      cases e4
      cases e3
      rw [floating] at hf ia
      simp only [eval] at ia
      have hf2 := hf.2
      simp only [floatingAdd, floating, Bool.or_false] at hf2 ih
      simp only [evalAdd, eval] at ih
      exact ((neg_mul_int hf.1 (ia hf.1) e1).add (neg_mul_int hf2 (ih hf2) e2)).neg
    · next ls rest _ h' =>
      cases h'
      obtain ⟨u, v, w, e1, e2, e3, e4⟩ := num2_some h
      cases e4
      cases e3
      rw [floating] at hf ia
      simp only [eval] at ia
      exact (ih hf.2 _ e1).sub (neg_mul_int hf.1 (ia hf.1) e2)
    · next l rs _ _ h' =>
      cases h'
      obtain ⟨u, v, w, e1, e2, e3, e4⟩ := num2_some h
      cases e4
      cases e3
      have hf2 := hf.2
      simp only [floatingAdd, floating, Bool.or_false] at hf2 ih
      simp only [evalAdd, eval] at ih
      exact (ia hf.1 _ e1).sub (neg_mul_int hf2 (ih hf2) e2)
    · next a' rest' _ _ _ _ h' =>
      cases h'
      obtain ⟨u, v, w, e1, e2, e3, e4⟩ := num2_some h
      cases e4
      cases e3
      exact (ia hf.1 _ e1).add (ih hf.2 _ e2)
theorem evalList_int (hρ : ∀ t i, τ t = false → IsInt (ρ.val t i)) : ∀ args : List Expr,
    ∀ a ∈ args, floating τ a = false → ∀ x, eval τ ρ a = some (.num x) → IsInt x
  | [], a, ha => by simp at ha
  | b :: bs, a, ha => by
    have ib := eval_int hρ b
    have ih := evalList_int hρ bs
    rcases List.mem_cons.1 ha with e | ha
    · rw [e]; exact ib
    · exact ih a ha
end

end GATL
