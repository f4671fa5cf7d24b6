import Verif.Model.Simplify

/-!
# The order of expressions without fuel
-/

namespace GATL

open Expr

theorem size_fn (f : Name) (as : List Expr) : size (.fn f as) = 2 + sizeList as := by simp [size]
theorem sizeList_cons (a : Expr) (as : List Expr) : sizeList (a :: as) = 1 + size a + sizeList as := by simp [sizeList]

theorem ltF_fuel (n : Nat) : ∀ m, (∀ l r, size l + size r < n → size l + size r < m → ltF n l r = ltF m l r) ∧
    ∀ as bs, sizeList as + sizeList bs < n → sizeList as + sizeList bs < m → ltArgsF n as bs = ltArgsF m as bs := by
  induction n with
  | zero => exact fun m => ⟨fun _ _ h => absurd h (by omega), fun _ _ h => absurd h (by omega)⟩
  | succ n ih =>
    intro m
    cases m with
    | zero => exact ⟨fun _ _ _ h => absurd h (by omega), fun _ _ _ h => absurd h (by omega)⟩
    | succ m =>
      obtain ⟨h1, h2⟩ := ih m
      constructor
      · intro l r hn hm
        unfold ltF
        split
        · rw [size_fn, size_fn] at hn hm
          rw [h2 _ _ (by omega) (by omega)]
        · rfl
        · rw [size_fn, sizeList_cons] at hn hm
          rw [h1 _ _ (by omega) (by omega)]
        · rfl
        · rw [size_fn, sizeList_cons] at hn hm
          rw [h1 _ _ (by omega) (by omega), h1 _ _ (by omega) (by omega)]
        · rfl
      · intro as bs hn hm
        unfold ltArgsF
        split
        · omega
        · rfl
        · rfl
        · rename_i n' l r e1
          obtain rfl : n = n' := by omega
          rw [sizeList_cons, sizeList_cons] at hn hm
          exact h1 _ _ (by omega) (by omega)
        · rename_i n' l r rs hrs e1
          obtain rfl : n = n' := by omega
          rw [sizeList_cons, sizeList_cons r] at hn hm
          have e := sizeList_cons l []
          rw [h1 _ _ (by omega) (by omega), h1 _ _ (by omega) (by omega), h2 _ _ (by omega) (by omega)]
        · rename_i n' l ls r hls e1
          obtain rfl : n = n' := by omega
          rw [sizeList_cons, sizeList_cons r] at hn hm
          have e := sizeList_cons r []
          rw [h1 _ _ (by omega) (by omega), h2 _ _ (by omega) (by omega)]
        · rename_i n' l ls r rs e0 e1 e2 e3
          obtain rfl : n = n' := by omega
          have e := sizeList_cons l ls
          have e' := sizeList_cons r rs
          rw [h1 _ _ (by omega) (by omega), h1 _ _ (by omega) (by omega), h2 _ _ (by omega) (by omega),
            h2 _ _ (by omega) (by omega), h2 _ _ (by omega) (by omega)]

/-- The comparison of argument lists without fuel. -/
def ltArgs (as bs : List Expr) : Bool := ltArgsF (sizeList as + sizeList bs + 1) as bs

theorem ltF_eq {n : Nat} {l r : Expr} (h : size l + size r < n) : ltF n l r = lt l r :=
  (ltF_fuel n _).1 l r h (by omega)

theorem ltArgsF_eq {n : Nat} {as bs : List Expr} (h : sizeList as + sizeList bs < n) : ltArgsF n as bs = ltArgs as bs :=
  (ltF_fuel n _).2 as bs h (by omega)

theorem lt_fn_fn (f g : Name) (as bs : List Expr) :
    lt (.fn f as) (.fn g bs) = (f.toNat < g.toNat || (f = g && ltArgs as bs)) := by
  unfold lt
  rw [ltF, ltArgsF_eq (by rw [size_fn, size_fn]; omega)]

theorem lt_fn_leaf {f : Name} {a r : Expr} {as : List Expr} (hr : ∀ g bs, r ≠ .fn g bs) :
    lt (.fn f (a :: as)) r = (!isLiteral r && lt a r) := by
  unfold lt
  cases r
  case fn g bs => exact absurd rfl (hr g bs)
  all_goals
    rw [ltF] <;> first | (rw [ltF_eq (by rw [size_fn, sizeList_cons]; omega)]; rfl) | skip
    all_goals simp

theorem lt_leaf_fn {f : Name} {a l : Expr} {as : List Expr} (hr : ∀ g bs, l ≠ .fn g bs) :
    lt l (.fn f (a :: as)) = (isLiteral l || lt l a || !lt a l) := by
  unfold lt
  cases l
  case fn g bs => exact absurd rfl (hr g bs)
  all_goals
    rw [ltF] <;> first | (rw [ltF_eq (by rw [size_fn, sizeList_cons]; omega), ltF_eq (by rw [size_fn, sizeList_cons]; omega)]; rfl) | skip
    all_goals simp

theorem ltArgs_one (l r : Expr) : ltArgs [l] [r] = lt l r := by
  unfold ltArgs
  rw [ltArgsF, ltF_eq (by simp only [sizeList]; omega)]

theorem ltArgs_one_many (l r r' : Expr) (rs : List Expr) (hl : isConstant l = false) (hr : isConstant r = false) :
    ltArgs [l] (r :: r' :: rs) = (lt l r || !lt r l) := by
  unfold ltArgs
  rw [ltArgsF, ltF_eq (by simp only [sizeList]; omega), ltF_eq (by simp only [sizeList]; omega)]
  · simp [hl, hr]
  · simp

theorem ltArgs_many_one (l l' r : Expr) (ls : List Expr) (hl : isConstant l = false) (hr : isConstant r = false) :
    ltArgs (l :: l' :: ls) [r] = lt l r := by
  unfold ltArgs
  rw [ltArgsF, ltF_eq (by simp only [sizeList]; omega)]
  · simp [hl, hr]
  · simp

theorem ltArgs_many (l l' r r' : Expr) (ls rs : List Expr) (hl : isConstant l = false) (hr : isConstant r = false) :
    ltArgs (l :: l' :: ls) (r :: r' :: rs) = (lt l r || ((!lt l r && !lt r l) && ltArgs (l' :: ls) (r' :: rs))) := by
  rw [ltArgs, ltArgsF, ltF_eq (by simp only [sizeList]; omega), ltF_eq (by simp only [sizeList]; omega),
    ltArgsF_eq (by simp only [sizeList]; omega)]
  · simp [hl, hr]
  all_goals simp

theorem ltArgs_skip_left (l l' r r' : Expr) (ls rs : List Expr) (hl : isConstant l = true) (hr : isConstant r = false) :
    ltArgs (l :: l' :: ls) (r :: r' :: rs) = ltArgs (l' :: ls) (r :: r' :: rs) := by
  rw [ltArgs, ltArgsF]
  · simp only [hl, hr, if_true, if_false, Bool.false_eq_true]
    rw [ltArgsF_eq (by simp only [sizeList]; omega)]
  all_goals simp

theorem ltArgs_skip_right (l l' r r' : Expr) (ls rs : List Expr) (hl : isConstant l = false) (hr : isConstant r = true) :
    ltArgs (l :: l' :: ls) (r :: r' :: rs) = ltArgs (l :: l' :: ls) (r' :: rs) := by
  rw [ltArgs, ltArgsF]
  · simp only [hl, hr, if_true, if_false, Bool.false_eq_true]
    rw [ltArgsF_eq (by simp only [sizeList]; omega)]
  all_goals simp

theorem ltArgs_skip_both (l l' r r' : Expr) (ls rs : List Expr) (hl : isConstant l = true) (hr : isConstant r = true) :
    ltArgs (l :: l' :: ls) (r :: r' :: rs) = ltArgs (l' :: ls) (r' :: rs) := by
  rw [ltArgs, ltArgsF]
  · simp only [hl, hr, if_true]
    rw [ltArgsF_eq (by simp only [sizeList]; omega)]
  all_goals simp

end GATL
