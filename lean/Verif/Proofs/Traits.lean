import Verif.Proofs.SimplifyProd

/-!
# The sign and parity traits
-/

namespace GATL

open Expr Spec

variable {ρ : Env}

theorem den_fn (name : Name) (args : List Expr) :
    den ρ (.fn name args) = interp name (denList ρ args) := by
  simp [den]

/-- The value of a power whose exponent is an integer literal. -/
theorem power_den {l r : Expr} {x : ℝ} (h : Denotes ρ (powerOf l r) x) :
    ∃ a b, Denotes ρ l a ∧ Denotes ρ r b ∧ PowDefined a b ∧ x = a ^ b := by
  simp only [Denotes, den, denList] at h
  rcases hl : den ρ l with _ | ⟨a⟩ | _ | _ <;> rcases hr : den ρ r with _ | ⟨b⟩ | _ | _ <;>
    rw [hl, hr] at h <;> simp only [interp, reduceCtorEq] at h
  split at h
  · rename_i hp
    simp only [Option.some.injEq, Val.num.injEq] at h
    exact ⟨a, b, hl, hr, hp, h.symm⟩
  · simp at h

theorem ifElse_den {t a b : Expr} {x : ℝ} (h : Denotes ρ (.fn .ifElse [t, a, b]) x) :
    Denotes ρ a x ∨ Denotes ρ b x := by
  simp only [Denotes, den, denList] at h
  rcases ht : den ρ t with _ | ⟨a⟩ | _ | _ | _ <;> rw [ht] at h <;>
    simp only [interp, reduceCtorEq] at h
  · exact Or.inr h
  · exact Or.inl h

theorem absolute_den {v : Expr} {x : ℝ} (h : Denotes ρ (.fn .absolute [v]) x) :
    ∃ a, Denotes ρ v a ∧ x = |a| := by
  simp only [Denotes, den, denList] at h
  rcases hv : den ρ v with _ | ⟨a⟩ | _ | _ <;> rw [hv] at h <;>
    simp only [interp, reduceCtorEq, Option.some.injEq, Val.num.injEq] at h
  exact ⟨a, hv, h.symm⟩

theorem uminus_den {a : Expr} {x : ℝ} : ¬Denotes ρ (.fn .uminus [a]) x := by
  simp only [Denotes, den, denList]
  rcases den ρ a with _ | _ | _ | _ <;> simp [interp]

theorem dec_den {a : Expr} {x : ℝ} : ¬Denotes ρ (.fn .dec [a]) x := by
  simp only [Denotes, den, denList]
  rcases den ρ a with _ | _ | _ | _ <;> simp [interp]

theorem band_den {a b : Expr} {z : ℝ} (h : Denotes ρ (.fn .band [a, b]) z) :
    ∃ x y : ℝ, Denotes ρ a x ∧ Denotes ρ b y ∧ x = ⌊x⌋₊ ∧ y = ⌊y⌋₊ ∧
      z = ((⌊x⌋₊ &&& ⌊y⌋₊ : Nat) : ℝ) := by
  simp only [Denotes, den, denList] at h
  rcases ha : den ρ a with _ | ⟨x⟩ | _ | _ <;> rcases hb : den ρ b with _ | ⟨y⟩ | _ | _ <;>
    rw [ha, hb] at h <;> simp only [interp, reduceCtorEq, Option.some.injEq] at h
  split at h
  · rename_i hc
    simp only [Option.some.injEq, Val.num.injEq] at h
    exact ⟨x, y, ha, hb, hc.1, hc.2, h.symm⟩
  · simp at h

theorem bor_den {a b : Expr} {z : ℝ} (h : Denotes ρ (.fn .bor [a, b]) z) :
    ∃ x y : ℝ, Denotes ρ a x ∧ Denotes ρ b y ∧ x = ⌊x⌋₊ ∧ y = ⌊y⌋₊ ∧
      z = ((⌊x⌋₊ ||| ⌊y⌋₊ : Nat) : ℝ) := by
  simp only [Denotes, den, denList] at h
  rcases ha : den ρ a with _ | ⟨x⟩ | _ | _ <;> rcases hb : den ρ b with _ | ⟨y⟩ | _ | _ <;>
    rw [ha, hb] at h <;> simp only [interp, reduceCtorEq, Option.some.injEq] at h
  split at h
  · rename_i hc
    simp only [Option.some.injEq, Val.num.injEq] at h
    exact ⟨x, y, ha, hb, hc.1, hc.2, h.symm⟩
  · simp at h

theorem bxor_den {a b : Expr} {z : ℝ} (h : Denotes ρ (.fn .bxor [a, b]) z) :
    ∃ x y : ℝ, Denotes ρ a x ∧ Denotes ρ b y ∧ x = ⌊x⌋₊ ∧ y = ⌊y⌋₊ ∧
      z = ((⌊x⌋₊ ^^^ ⌊y⌋₊ : Nat) : ℝ) := by
  simp only [Denotes, den, denList] at h
  rcases ha : den ρ a with _ | ⟨x⟩ | _ | _ <;> rcases hb : den ρ b with _ | ⟨y⟩ | _ | _ <;>
    rw [ha, hb] at h <;> simp only [interp, reduceCtorEq, Option.some.injEq] at h
  split at h
  · rename_i hc
    simp only [Option.some.injEq, Val.num.injEq] at h
    exact ⟨x, y, ha, hb, hc.1, hc.2, h.symm⟩
  · simp at h

theorem isEven_ok (n : Nat) : ∀ (e : Expr), size e ≤ n → ParitySafe e → isEven e = some true →
    ∀ x, Denotes ρ e x → ∃ k : ℤ, x = 2 * k := by
  induction n with
  | zero => intro e he; cases e <;> simp [size] at he
  | succ n ih =>
    intro e he hs h x hx
    unfold isEven at h
    split at h
    · rename_i v
      simp only [Option.some.injEq, beq_iff_eq] at h
      simp only [Denotes, den, Option.some.injEq, Val.num.injEq] at hx
      refine ⟨v / 2, ?_⟩
      rw [← hx]
      exact_mod_cast (by omega : v = 2 * (v / 2))
    all_goals try (simp at h; done)
    · exact absurd hx uminus_den
    · exact absurd hx dec_den
    · rename_i a b
      simp only [size, sizeList] at he
      simp only [ParitySafe, ParitySafeAll] at hs
      split at h
      · rename_i u v hu hv
        simp only [Option.some.injEq, Bool.and_eq_true] at h
        obtain ⟨p, q, hp, -, hp', -, rfl⟩ := band_den hx
        obtain ⟨k, hk⟩ := ih a (by omega) hs.1 (by rw [hu, h.1]) p hp
        rw [hp'] at hk
        have hm : (⌊p⌋₊ : ℤ) = 2 * k := by exact_mod_cast hk
        refine ⟨((⌊p⌋₊ &&& ⌊q⌋₊) / 2 : Nat), ?_⟩
        have : (⌊p⌋₊ &&& ⌊q⌋₊) % 2 = 0 := by
          rw [Nat.and_mod_two_pow (n := 1)]
          have : ⌊p⌋₊ % 2 ^ 1 = 0 := by omega
          rw [this]; simp
        have h2 : (⌊p⌋₊ &&& ⌊q⌋₊) = 2 * ((⌊p⌋₊ &&& ⌊q⌋₊) / 2) := by omega
        exact_mod_cast h2
      · simp at h
    · simp [ParitySafe] at hs
    · rename_i t a b
      simp only [size, sizeList] at he
      simp only [ParitySafe, ParitySafeAll] at hs
      split at h
      · rename_i u v hu hv
        simp only [Option.some.injEq, Bool.and_eq_true] at h
        rcases ifElse_den hx with h' | h'
        · exact ih a (by omega) hs.2.1 (by rw [hu, h.1]) x h'
        · exact ih b (by omega) hs.2.2.1 (by rw [hv, h.2]) x h'
      · simp at h
    · rename_i v
      simp only [size, sizeList] at he
      simp only [ParitySafe, ParitySafeAll] at hs
      obtain ⟨a, ha, rfl⟩ := absolute_den hx
      obtain ⟨k, rfl⟩ := ih v (by omega) hs.1 h a ha
      refine ⟨|k|, ?_⟩
      rw [abs_mul]
      push_cast
      norm_num
    · simp [ParitySafe] at hs

theorem powDefined_nonneg {a b : ℝ} (ha : 0 ≤ a) : 0 ≤ a ^ b := Real.rpow_nonneg ha b

theorem isNonNegative_ok (n : Nat) :
    (∀ (e : Expr), size e ≤ n → TraitSafe e → isNonNegative e = some true →
      ∀ x, Denotes ρ e x → 0 ≤ x) ∧
    ∀ (as : List Expr), sizeList as ≤ n → TraitSafeAll as → isNonNegativeAll as = some true →
      ∀ x, prodVals (denList ρ as) = some (.num x) → 0 ≤ x := by
  induction n with
  | zero =>
    constructor
    · intro e he; cases e <;> simp [size] at he
    · intro as has
      cases as with
      | nil =>
        intro _ _ x hx
        simp only [denList, prodVals, Option.some.injEq, Val.num.injEq] at hx
        rw [← hx]; norm_num
      | cons a as => simp [sizeList] at has
  | succ n ih =>
    obtain ⟨ih1, ih2⟩ := ih
    constructor
    · intro e he hs h x hx
      unfold isNonNegative at h
      split at h
      · rename_i v
        simp only [Option.some.injEq, decide_eq_true_eq] at h
        simp only [Denotes, den, Option.some.injEq, Val.num.injEq] at hx
        rw [← hx]; exact_mod_cast h
      all_goals try (simp at h; done)
      · simp [TraitSafe] at hs
      · rename_i a
        simp only [Denotes, den, denList] at hx
        rcases hv : den ρ a with _ | ⟨a⟩ | _ | _ <;> rw [hv] at hx <;>
          simp only [interp, reduceCtorEq, Option.some.injEq, Val.num.injEq] at hx
        rw [← hx]; exact Nat.cast_nonneg _
      · exact absurd hx uminus_den
      · exact absurd hx dec_den
      · obtain ⟨p, q, -, -, -, -, rfl⟩ := band_den hx
        exact Nat.cast_nonneg _
      · obtain ⟨p, q, -, -, -, -, rfl⟩ := bor_den hx
        exact Nat.cast_nonneg _
      · obtain ⟨p, q, -, -, -, -, rfl⟩ := bxor_den hx
        exact Nat.cast_nonneg _
      · rename_i t a b
        simp only [size, sizeList] at he
        simp only [TraitSafe, TraitSafeAll] at hs
        split at h
        · rename_i u v hu hv
          simp only [Option.some.injEq, Bool.and_eq_true] at h
          rcases ifElse_den hx with h' | h'
          · exact ih1 a (by omega) hs.2.1 (by rw [hu, h.1]) x h'
          · exact ih1 b (by omega) hs.2.2.1 (by rw [hv, h.2]) x h'
        · simp at h
      · obtain ⟨a, -, rfl⟩ := absolute_den hx
        exact abs_nonneg a
      · rename_i l r
        simp only [size, sizeList] at he
        simp only [TraitSafe, TraitSafeAll] at hs
        obtain ⟨a, b, ha, hb, hp, rfl⟩ := power_den hx
        split at h
        · rename_i u v hu hv
          simp only [Option.some.injEq, Bool.or_eq_true] at h
          rcases h with h | h
          · exact powDefined_nonneg (ih1 l (by omega) hs.1.1 (by rw [hu, h]) a ha)
          · obtain ⟨k, rfl⟩ := hs.2 l r rfl (by rw [hv, h])
            rw [h] at hv
            simp only [isEven, Option.some.injEq, beq_iff_eq] at hv
            simp only [Denotes, den, Option.some.injEq, Val.num.injEq] at hb
            rw [← hb, Real.rpow_intCast]
            exact (Int.even_iff.2 hv).zpow_nonneg a
        · simp at h
      · rename_i args
        simp only [size] at he
        simp only [TraitSafe] at hs
        cases args with
        | nil => simp [Denotes, den, denList, interp] at hx
        | cons a as =>
          refine ih2 (a :: as) (by omega) hs h x ?_
          simpa only [Denotes, den, denList, interp] using hx
    · intro as has hs h x hx
      cases as with
      | nil =>
        simp only [denList, prodVals, Option.some.injEq, Val.num.injEq] at hx
        rw [← hx]; norm_num
      | cons a as =>
        simp only [sizeList] at has
        simp only [TraitSafeAll] at hs
        simp only [isNonNegativeAll] at h
        split at h
        · rename_i u v hu hv
          simp only [Option.some.injEq, Bool.and_eq_true] at h
          simp only [denList] at hx
          rcases ha : den ρ a with _ | ⟨y⟩ | _ | _ <;> rw [ha] at hx <;>
            simp only [prodVals, reduceCtorEq] at hx
          rcases hz : prodVals (denList ρ as) with _ | ⟨z⟩ | _ | _ <;> rw [hz] at hx <;>
            simp only [reduceCtorEq, Option.some.injEq, Val.num.injEq] at hx
          rw [← hx]
          exact mul_nonneg (ih1 a (by omega) hs.1 (by rw [hu, h.1]) y ha)
            (ih2 as (by omega) hs.2 (by rw [hv, h.2]) z hz)
        · simp at h

end GATL
