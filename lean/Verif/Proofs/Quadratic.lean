import Verif.Proofs.Linear

/-!
# Sums of squares

The squared norm and the square of a blade are sums of an integer constant and of integer multiples of squares
of variables.  The simplifier keeps them so.  (The development parallels that of sums of grades.)
-/

namespace GATL.Quad

open Expr

/-- A variable. -/
def IsValue (e : Expr) : Prop := ∃ t i, e = .value t i

/-- The square of a variable. -/
def IsAtom (e : Expr) : Prop := ∃ b, e = .fn .power [b, .const 2] ∧ isConstant b = false ∧ IsValue b

/-- An atom or a multiple of it. -/
def NC (e : Expr) : Prop := IsAtom e ∨ ∃ k a, e = .fn .mul [.const k, a] ∧ IsAtom a ∧ k ≠ 0 ∧ k ≠ 1

/-- A stored factor is neither zero nor one. -/
theorem factor_ne {c : Int} {x : Expr}
    (h : ¬ (([.const c, x] : List Expr).contains (.const 0) ||
      ([.const c, x] : List Expr).contains (.const 1)) = true) : c ≠ 0 ∧ c ≠ 1 := by
  constructor <;> (rintro rfl; apply h; simp)

/-- A summand. -/
def Mono (e : Expr) : Prop := (∃ k, e = .const k) ∨ NC e

/-- A sum of squares. -/
def Lin (e : Expr) : Prop :=
  Mono e ∨ ∃ h t, e = .fn .add (h :: t) ∧ t ≠ [] ∧ Mono h ∧ ∀ x ∈ t, NC x

theorem NC.not_constant {e : Expr} (h : NC e) : isConstant e = false := by
  rcases h with ⟨b, rfl, hb⟩ | ⟨k, a, rfl, ⟨b, rfl, hb⟩, hkk⟩ <;>
    simp [isConstant, isConstantAll, hb]

theorem Lin.literal {e : Expr} (h : Lin e) (hc : isConstant e = true) : isLiteral e = true := by
  rcases h with (⟨k, rfl⟩ | h) | ⟨h, t, rfl, ht, -, hn⟩
  · rfl
  · rw [h.not_constant] at hc; simp at hc
  · obtain ⟨x, t', rfl⟩ := List.exists_cons_of_ne_nil ht
    simp [isConstant, isConstantAll, (hn x (by simp)).not_constant] at hc

theorem NC.ne_const {e : Expr} (h : NC e) (k : Int) : e ≠ .const k := by
  rcases h with ⟨b, rfl, hb⟩ | ⟨k, a, rfl, ⟨b, rfl, hb⟩, hkk⟩ <;> simp

theorem Mono.nc {e : Expr} (h : Mono e) (hk : ∀ k, e ≠ .const k) : NC e := by
  rcases h with ⟨k, rfl⟩ | h
  · exact absurd rfl (hk k)
  · exact h

theorem Mono.asAdd {e : Expr} (h : Mono e) : asAdd e = none := by
  rcases h with ⟨k, rfl⟩ | ⟨b, rfl, hb⟩ | ⟨k, a, rfl, ⟨b, rfl, hb⟩, hkk⟩ <;> rfl

theorem lt_const_nc {e : Expr} (h : NC e) (k : Int) : lt (.const k) e = true := by
  rcases h with ⟨b, rfl, hb⟩ | ⟨k, a, rfl, ⟨b, rfl, hb⟩, hkk⟩ <;> simp [lt, ltF, isLiteral]

theorem lt_nc_const {e : Expr} (h : NC e) (k : Int) : lt e (.const k) = false := by
  rcases h with ⟨b, rfl, hb⟩ | ⟨k, a, rfl, ⟨b, rfl, hb⟩, hkk⟩ <;> simp [lt, ltF, isLiteral]

theorem mkAdd_lin {t : List Expr} (h : ∀ x ∈ t, NC x) {e : Expr} (he : mkAdd t = some e) :
    Lin e := by
  match t, h, he with
  | [], _, he => simp only [mkAdd, Option.some.injEq] at he; subst he; exact .inl (.inl ⟨0, rfl⟩)
  | [a], h, he =>
    simp only [mkAdd, Option.some.injEq] at he; subst he; exact .inl (.inr (h a (by simp)))
  | a :: b :: t, h, he =>
    rw [mkAdd] at he
    split_ifs at he
    · obtain rfl := Option.some.inj he
      exact .inr ⟨a, b :: t, rfl, by simp, .inr (h a (by simp)), fun x hx => h x (by simp [hx])⟩
    · simp
    · simp

theorem mkAdd_lin' {a : Expr} {t : List Expr} (ha : Mono a) (h : ∀ x ∈ t, NC x) {e : Expr}
    (he : mkAdd (a :: t) = some e) : Lin e := by
  match t, h, he with
  | [], _, he => simp only [mkAdd, Option.some.injEq] at he; subst he; exact .inl ha
  | b :: t, h, he =>
    rw [mkAdd] at he
    split_ifs at he
    · obtain rfl := Option.some.inj he
      exact .inr ⟨a, b :: t, rfl, by simp, ha, h⟩
    · simp
    · simp

/-- A constant times a summand is a summand. -/
theorem mul_mono (k : Nat) : ∀ {c : Int} {m e : Expr}, Mono m →
    simp k .mul (.const c) m = some e → Mono e := by
  induction k with
  | zero => intro c m e _ h; simp [simp] at h
  | succ k ih =>
    intro c m e hm h
    change applyRules (mulRules (simp k)) _ _ = _ at h
    unfold mulRules at h
    rcases applyRules_cons h with hr | ⟨-, h⟩
    · simp only [mulZero] at hr
      split_ifs at hr
      · simp only [Option.some.injEq] at hr
        exact .inl ⟨0, hr.symm⟩
      · simp at hr
    rcases applyRules_cons h with hr | ⟨-, h⟩
    · simp only [mulOne] at hr
      split_ifs at hr
      · simp only [Option.some.injEq] at hr; subst hr; exact hm
      · simp only [Option.some.injEq] at hr; exact .inl ⟨c, hr.symm⟩
      · simp at hr
    rcases applyRules_cons h with hr | ⟨-, h⟩
    · have e1 : Expr.asAdd (.const c) = none := rfl
      simp [mulDistribute, e1, hm.asAdd] at hr
    rcases hm with ⟨d, rfl⟩ | ⟨b, rfl, hb⟩ | ⟨d, a, rfl, ⟨b, rfl, hb⟩, hkd⟩
    · -- a constant
      rcases applyRules_cons h with hr | ⟨-, h⟩
      · simp only [mulHelper, Expr.asMul, mulCollect1] at hr
        split_ifs at hr
        · exact .inl (pow_two_const (by rw [fire_some] at hr; exact hr))
        · simp at hr
      rcases applyRules_cons h with hr | ⟨-, h⟩
      · simp [mulHelper, Expr.asMul, mulCollect2, asPower] at hr
      rcases applyRules_cons h with hr | ⟨-, h⟩
      · simp [mulHelper, Expr.asMul, mulCollect3, asPower] at hr
      rcases applyRules_cons h with hr | ⟨hr, h⟩
      · simp only [mulHelper, Expr.asMul, mulConst1, asConst, fire_some, mkConst,
          Option.map_eq_some_iff] at hr
        obtain ⟨v, -, rfl⟩ := hr
        exact .inl ⟨v, rfl⟩
      · simp only [mulHelper, Expr.asMul, mulConst1, asConst] at hr
        exact absurd hr fire_ne
    · -- an atom
      rcases applyRules_cons h with hr | ⟨-, h⟩
      · simp [mulHelper, Expr.asMul, mulCollect1] at hr
      rcases applyRules_cons h with hr | ⟨-, h⟩
      · have hne : b ≠ .const c := by rintro rfl; simp [isConstant] at hb
        simp [mulHelper, Expr.asMul, mulCollect2, asPower, hne] at hr
      rcases applyRules_cons h with hr | ⟨-, h⟩
      · simp [mulHelper, Expr.asMul, mulCollect3, asPower] at hr
      rcases applyRules_cons h with hr | ⟨hr, h⟩
      · simp [mulHelper, Expr.asMul, mulConst1, asConst, asRecip] at hr
      rcases applyRules_cons h with hr | ⟨hr, h⟩
      · simp [mulConst2, asConst, asRecip] at hr
      have hlt : lt (.const c) (.fn .power [b, .const 2]) = true := lt_const_nc (.inl ⟨b, rfl, hb⟩) c
      rcases applyRules_cons h with hr | ⟨hr, h⟩
      · simp only [mulMergeLt, Expr.asMul, hlt, if_true, fire_some, mkMul] at hr
        split_ifs at hr
        obtain rfl := Option.some.inj hr
        exact .inr (.inr ⟨c, _, rfl, ⟨b, rfl, hb⟩, factor_ne (by assumption)⟩)
      · simp only [mulMergeLt, Expr.asMul, hlt, if_true] at hr
        exact absurd hr fire_ne
    · -- a multiple of an atom
      have ha : Mono (.fn .power [b, .const 2]) := .inr (.inl ⟨b, rfl, hb⟩)
      rcases applyRules_cons h with hr | ⟨-, h⟩
      · simp only [mulHelper, Expr.asMul, mulCollect1] at hr
        split_ifs at hr
        · cases hp : simp k .pow (.const c) (.const 2) with
          | none => simp [fire, hp] at hr
          | some p =>
            obtain ⟨q, rfl⟩ := pow_two_const hp
            simp only [fire, hp, Option.map_some, Option.bind_eq_bind, Option.bind_some, mkMul] at hr
            simp at hr
            exact ih ha hr
        · simp at hr
      rcases applyRules_cons h with hr | ⟨-, h⟩
      · simp [mulHelper, Expr.asMul, mulCollect2, asPower] at hr
      rcases applyRules_cons h with hr | ⟨-, h⟩
      · simp [mulHelper, Expr.asMul, mulCollect3, asPower] at hr
      rcases applyRules_cons h with hr | ⟨hr, h⟩
      · simp only [mulHelper, Expr.asMul, mulConst1, asConst] at hr
        cases hp : i64 (c * d) with
        | none => simp [fire, mkConst, hp] at hr
        | some p =>
          simp [fire, mkConst, hp, mkMul] at hr
          exact ih ha hr
      · simp only [mulHelper, Expr.asMul, mulConst1, asConst] at hr
        cases hp : i64 (c * d) with
        | none => simp [fire, mkConst, hp] at hr
        | some p => simp [fire, mkConst, hp, mkMul] at hr

/-- A constant or an atom. -/
def Simple (e : Expr) : Prop := (∃ k, e = .const k) ∨ IsAtom e

theorem Simple.mono {e : Expr} (h : Simple e) : Mono e := h.imp id .inl

/-- What the collection rules need to know about sums of simple expressions. -/
def AddSimple (S : Simp) : Prop := ∀ {x y e : Expr}, Simple x → Simple y → S .add x y = some e →
  (Mono e ∨ mkAdd [x, y] = some e ∨ mkAdd [y, x] = some e) ∧
    ((∃ k, x = .const k) → (∃ k, y = .const k) → ∃ k, e = .const k)

theorem simplifies_mono {S : Simp} (hS : AddSimple S) {x y : Expr} (hx : Simple x)
    (hy : Simple y) (h : simplifies S x y = some true) : ∃ s, S .add x y = some s ∧ Mono s := by
  simp only [simplifies, Option.bind_eq_bind, Option.bind_eq_some_iff] at h
  obtain ⟨s, hs, a, ha, b, hb, h⟩ := h
  refine ⟨s, hs, ?_⟩
  simp only [Option.pure_def, Option.some.injEq, Bool.and_eq_true, decide_eq_true_eq] at h
  rcases (hS hx hy hs).1 with hm | hm | hm
  · exact hm
  · rw [ha] at hm; exact absurd (Option.some.inj hm).symm h.1
  · rw [hb] at hm; exact absurd (Option.some.inj hm).symm h.2

/-- A rule that combines two summands gives a summand. -/
theorem combine_mono {k : Nat} (hS : AddSimple (simp k)) {rule : Rule}
    (hr : rule ∈ combining (simp k)) {x y e : Expr} (hx : Mono x) (hy : Mono y)
    (h : rule x y = some (some e)) : Mono e := by
  simp only [combining, List.mem_cons, List.not_mem_nil, or_false] at hr
  have hone : Simple (.const 1) := .inl ⟨1, rfl⟩
  rcases hr with rfl | rfl | rfl | rfl | rfl | rfl | rfl | rfl | rfl | rfl | rfl | rfl
  · simp only [addCollect1] at h
    split_ifs at h
    · rw [fire_some] at h; exact mul_mono k hx h
    · simp at h
  · rcases hx with ⟨c, rfl⟩ | ⟨b, rfl, hb⟩ | ⟨c, a, rfl, ⟨b, rfl, hb⟩, hkc⟩
    · simp [addCollect2] at h
    · simp [addCollect2] at h
    · simp only [addCollect2] at h
      split_ifs at h
      · simp only [Option.bind_eq_bind, Option.bind_eq_some_iff] at h
        obtain ⟨t, ht, h⟩ := h
        split_ifs at h
        · rw [fire_some] at h
          simp only [Option.bind_eq_bind, Option.bind_eq_some_iff, mkMul_single,
            Option.some.injEq, exists_eq_left'] at h
          obtain ⟨s, hs, h⟩ := h
          obtain ⟨q, rfl⟩ := (hS (.inl ⟨c, rfl⟩) hone hs).2 ⟨c, rfl⟩ ⟨1, rfl⟩
          exact mul_mono k (.inr (.inl ⟨b, rfl, hb⟩)) h
        · simp at h
      · simp at h
  · rcases hy with ⟨c, rfl⟩ | ⟨b, rfl, hb⟩ | ⟨c, a, rfl, ⟨b, rfl, hb⟩, hkc⟩
    · simp [addCollect3] at h
    · simp [addCollect3] at h
    · simp only [addCollect3] at h
      split_ifs at h
      · simp only [Option.bind_eq_bind, Option.bind_eq_some_iff] at h
        obtain ⟨t, ht, h⟩ := h
        split_ifs at h
        · rw [fire_some] at h
          simp only [Option.bind_eq_bind, Option.bind_eq_some_iff, mkMul_single,
            Option.some.injEq, exists_eq_left'] at h
          obtain ⟨s, hs, h⟩ := h
          obtain ⟨q, rfl⟩ := (hS hone (.inl ⟨c, rfl⟩) hs).2 ⟨1, rfl⟩ ⟨c, rfl⟩
          exact mul_mono k (.inr (.inl ⟨b, rfl, hb⟩)) h
        · simp at h
      · simp at h
  · rcases hx with ⟨c, rfl⟩ | ⟨b, rfl, hb⟩ | ⟨c, a, rfl, ⟨b, rfl, hb⟩, hkc⟩
    · simp [addCollect4] at h
    · simp [addCollect4] at h
    · rcases hy with ⟨d, rfl⟩ | ⟨b', rfl, hb'⟩ | ⟨d, a, rfl, ⟨b', rfl, hb'⟩, hkd⟩
      · simp [addCollect4] at h
      · simp [addCollect4] at h
      · simp only [addCollect4] at h
        split_ifs at h
        · simp only [Option.bind_eq_bind, Option.bind_eq_some_iff] at h
          obtain ⟨t, ht, h⟩ := h
          split_ifs at h
          · rw [fire_some] at h
            simp only [Option.bind_eq_bind, Option.bind_eq_some_iff, mkMul_single,
              Option.some.injEq, exists_eq_left'] at h
            obtain ⟨s, hs, h⟩ := h
            obtain ⟨q, rfl⟩ := (hS (.inl ⟨c, rfl⟩) (.inl ⟨d, rfl⟩) hs).2 ⟨c, rfl⟩ ⟨d, rfl⟩
            exact mul_mono k (.inr (.inl ⟨b, rfl, hb⟩)) h
          · simp at h
        · simp at h
  · rcases hx with ⟨c, rfl⟩ | ⟨b, rfl, hb⟩ | ⟨c, a, rfl, ⟨b, rfl, hb⟩, hkc⟩
    · simp [addCollect5] at h
    · simp [addCollect5] at h
    · simp only [addCollect5] at h
      split_ifs at h
      · simp only [Option.bind_eq_bind, Option.bind_eq_some_iff, mkMul_single,
          Option.some.injEq, exists_eq_left'] at h
        obtain ⟨t, ht, h⟩ := h
        split_ifs at h with ht'
        · subst ht'
          rw [fire_some] at h
          simp only [Option.bind_eq_some_iff] at h
          obtain ⟨s, hs, h⟩ := h
          obtain ⟨s', hs', hm⟩ := simplifies_mono hS (.inr ⟨b, rfl, hb⟩) hone ht
          rw [hs] at hs'; obtain rfl := Option.some.inj hs'
          exact mul_mono k hm h
        · simp at h
      · simp at h
  · rcases hy with ⟨c, rfl⟩ | ⟨b, rfl, hb⟩ | ⟨c, a, rfl, ⟨b, rfl, hb⟩, hkc⟩
    · simp [addCollect6] at h
    · simp [addCollect6] at h
    · simp only [addCollect6] at h
      split_ifs at h
      · simp only [Option.bind_eq_bind, Option.bind_eq_some_iff, mkMul_single,
          Option.some.injEq, exists_eq_left'] at h
        obtain ⟨t, ht, h⟩ := h
        split_ifs at h with ht'
        · subst ht'
          rw [fire_some] at h
          simp only [Option.bind_eq_some_iff] at h
          obtain ⟨s, hs, h⟩ := h
          obtain ⟨s', hs', hm⟩ := simplifies_mono hS hone (.inr ⟨b, rfl, hb⟩) ht
          rw [hs] at hs'; obtain rfl := Option.some.inj hs'
          exact mul_mono k hm h
        · simp at h
      · simp at h
  · rcases hx with ⟨c, rfl⟩ | ⟨b, rfl, hb⟩ | ⟨c, a, rfl, ⟨b, rfl, hb⟩, hkc⟩
    · simp [addCollect7] at h
    · simp [addCollect7] at h
    · rcases hy with ⟨d, rfl⟩ | ⟨b', rfl, hb'⟩ | ⟨d, a, rfl, ⟨b', rfl, hb'⟩, hkd⟩
      · simp [addCollect7] at h
      · simp [addCollect7] at h
      · simp only [addCollect7] at h
        split_ifs at h
        · simp only [Option.bind_eq_bind, Option.bind_eq_some_iff, mkMul_single,
            Option.some.injEq, exists_eq_left'] at h
          obtain ⟨t, ht, h⟩ := h
          split_ifs at h with ht'
          · subst ht'
            rw [fire_some] at h
            simp only [Option.bind_eq_some_iff] at h
            obtain ⟨s, hs, h⟩ := h
            obtain ⟨s', hs', hm⟩ := simplifies_mono hS (.inr ⟨b, rfl, hb⟩) (.inr ⟨b', rfl, hb'⟩) ht
            rw [hs] at hs'; obtain rfl := Option.some.inj hs'
            exact mul_mono k hm h
          · simp at h
        · simp at h
  · rcases hx with ⟨c, rfl⟩ | ⟨b, rfl, hb⟩ | ⟨c, a, rfl, ⟨b, rfl, hb⟩, hkc⟩
    · rcases hy with ⟨d, rfl⟩ | ⟨b, rfl, hb⟩ | ⟨d, a, rfl, ⟨b, rfl, hb⟩, hkd⟩
      · simp only [addConst1, asConst, fire_some, mkConst, Option.map_eq_some_iff] at h
        obtain ⟨q, -, rfl⟩ := h
        exact .inl ⟨q, rfl⟩
      · simp [addConst1, asConst] at h
      · simp [addConst1, asConst] at h
    · simp [addConst1, asConst] at h
    · simp [addConst1, asConst] at h
  all_goals
    exfalso
    rcases hx with ⟨c, rfl⟩ | ⟨b, rfl, hb⟩ | ⟨c, a, rfl, ⟨b, rfl, hb⟩, hkc⟩ <;>
    rcases hy with ⟨d, rfl⟩ | ⟨b', rfl, hb'⟩ | ⟨d, a, rfl, ⟨b', rfl, hb'⟩, hkd⟩ <;>
    simp [addConst2, addConst3, addConst4, addConst5, asConst, asRecip, asRatio] at h

theorem addSimple (k : Nat) : AddSimple (simp k) := by
  induction k with
  | zero => intro x y e _ _ h; simp [simp] at h
  | succ k ih =>
    intro x y e hx hy h
    refine ⟨?_, ?_⟩
    swap
    · rintro ⟨c, rfl⟩ ⟨d, rfl⟩
      exact add_const_const h
    change applyRules (addRules (simp k)) _ _ = _ at h
    rw [addRules_eq] at h
    rcases applyRules_cons h with hr | ⟨-, h⟩
    · simp only [addZero] at hr
      split_ifs at hr
      · simp only [Option.some.injEq] at hr; subst hr; exact .inl hy.mono
      · simp only [Option.some.injEq] at hr; subst hr; exact .inl hx.mono
      · simp at hr
    have ex := hx.mono.asAdd
    have ey := hy.mono.asAdd
    rcases applyRules_append h with ⟨x', hx', hr⟩ | ⟨hn, h⟩
    · rw [List.mem_map] at hx'
      obtain ⟨rule, hrule, rfl⟩ := hx'
      simp only [addHelper, ex, ey] at hr
      exact .inl (combine_mono ih hrule hx.mono hy.mono hr)
    rcases applyRules_cons h with hr | ⟨-, h⟩
    · simp only [addMergeLt, ex, ey] at hr
      split_ifs at hr
      · exact .inr (.inl (fire_some.1 hr))
      · simp at hr
    rcases applyRules_cons h with hr | ⟨-, h⟩
    · simp only [addMergeGt, ex, ey] at hr
      split_ifs at hr
      · exact .inr (.inr (fire_some.1 hr))
      · simp at hr
    rcases applyRules_cons h with hr | ⟨-, h⟩
    · simp only [addMergeEq, ex, ey] at hr
      exact .inr (.inl (fire_some.1 hr))
    · simp [applyRules] at h

/-- The sum of two sums of grades is a sum of grades. -/
theorem add_lin (k : Nat) : ∀ {l r e : Expr}, Lin l → Lin r → simp k .add l r = some e →
    Lin e := by
  induction k with
  | zero => intro l r e _ _ h; simp [simp] at h
  | succ k ih =>
    intro l r e hl hr h
    change applyRules (addRules (simp k)) _ _ = _ at h
    rw [addRules_eq] at h
    rcases applyRules_cons h with h' | ⟨-, h⟩
    · simp only [addZero] at h'
      split_ifs at h'
      · simp only [Option.some.injEq] at h'; subst h'; exact hr
      · simp only [Option.some.injEq] at h'; subst h'; exact hl
      · simp at h'
    have hconst : ∀ {x y : Expr}, Mono x → Mono y → addConst1 x y = some none → lt x y = true →
        NC y := by
      intro x y hx hy h0 hlt
      refine hy.nc fun q hq => ?_
      subst hq
      rcases hx with ⟨c, rfl⟩ | hx
      · simp only [addConst1, asConst] at h0; exact fire_ne h0
      · rw [lt_nc_const hx] at hlt; simp at hlt
    have hconst' : ∀ {x y : Expr}, Mono x → Mono y → addConst1 x y = some none → lt y x = true →
        NC x := by
      intro x y hx hy h0 hlt
      refine hx.nc fun q hq => ?_
      subst hq
      rcases hy with ⟨c, rfl⟩ | hy
      · simp only [addConst1, asConst] at h0; exact fire_ne h0
      · rw [lt_nc_const hy] at hlt; simp at hlt
    have heq : ∀ {x y : Expr}, Mono x → Mono y → addConst1 x y = some none → lt y x = false →
        NC y := by
      intro x y hx hy h0 hlt
      refine hy.nc fun q hq => ?_
      subst hq
      rcases hx with ⟨c, rfl⟩ | hx
      · simp only [addConst1, asConst] at h0; exact fire_ne h0
      · rw [lt_const_nc hx] at hlt; simp at hlt
    rcases hl with hl | ⟨a, as, rfl, has, ha, hnc⟩ <;>
      rcases hr with hr | ⟨b, bs, rfl, hbs, hb, hnc'⟩
    · -- two summands
      have ex := hl.asAdd
      have ey := hr.asAdd
      rcases applyRules_append h with ⟨x, hx, h'⟩ | ⟨hn, h⟩
      · rw [List.mem_map] at hx
        obtain ⟨rule, hrule, rfl⟩ := hx
        simp only [addHelper, ex, ey] at h'
        exact .inl (combine_mono (addSimple k) hrule hl hr h')
      have h0 := hn (addHelper (simp k) addConst1) (by simp [combining])
      simp only [addHelper, ex, ey] at h0
      rcases applyRules_cons h with h' | ⟨-, h⟩
      · simp only [addMergeLt, ex, ey] at h'
        split_ifs at h' with hlt
        · exact mkAdd_lin' hl (by simpa using hconst hl hr h0 hlt) (fire_some.1 h')
        · simp at h'
      rcases applyRules_cons h with h' | ⟨hgt, h⟩
      · simp only [addMergeGt, ex, ey] at h'
        split_ifs at h' with hlt
        · exact mkAdd_lin' hr (by simpa using hconst' hl hr h0 hlt) (fire_some.1 h')
        · simp at h'
      simp only [addMergeGt, ex, ey] at hgt
      split_ifs at hgt with hlt
      · exact absurd hgt fire_ne
      rcases applyRules_cons h with h' | ⟨-, h⟩
      · simp only [addMergeEq, ex, ey] at h'
        exact mkAdd_lin' hl (by simpa using heq hl hr h0 (by simpa using hlt)) (fire_some.1 h')
      · simp [applyRules] at h
    · -- a summand and a sum
      have ex := hl.asAdd
      have ey : Expr.asAdd (.fn .add (b :: bs)) = some (b, bs) := rfl
      rcases applyRules_append h with ⟨x, hx, h'⟩ | ⟨hn, h⟩
      · rw [List.mem_map] at hx
        obtain ⟨rule, hrule, rfl⟩ := hx
        simp only [addHelper, ex, ey, Option.bind_eq_bind, Option.bind_eq_some_iff] at h'
        obtain ⟨o, ho, h'⟩ := h'
        cases o with
        | none => simp at h'
        | some m =>
          simp only [fire_some, Option.bind_eq_some_iff] at h'
          obtain ⟨t, ht, h'⟩ := h'
          exact ih (.inl (combine_mono (addSimple k) hrule hl hb ho)) (mkAdd_lin hnc' ht) h'
      have h0 := hn (addHelper (simp k) addConst1) (by simp [combining])
      simp only [addHelper, ex, ey, Option.bind_eq_bind, Option.bind_eq_some_iff] at h0
      obtain ⟨o, h0, h0'⟩ := h0
      cases o with
      | some m => exact absurd h0' fire_ne
      | none =>
      rcases applyRules_cons h with h' | ⟨-, h⟩
      · simp only [addMergeLt, ex, ey] at h'
        split_ifs at h' with hlt
        · refine mkAdd_lin' hl ?_ (fire_some.1 h')
          simpa using ⟨hconst hl hb h0 hlt, hnc'⟩
        · simp at h'
      rcases applyRules_cons h with h' | ⟨hgt, h⟩
      · simp only [addMergeGt, ex, ey] at h'
        split_ifs at h' with hlt
        · simp only [fire_some, Option.bind_eq_bind, Option.bind_eq_some_iff] at h'
          obtain ⟨t, ht, u, hu, h'⟩ := h'
          exact ih (.inl hb) (ih (.inl hl) (mkAdd_lin hnc' ht) hu) h'
        · simp at h'
      simp only [addMergeGt, ex, ey] at hgt
      split_ifs at hgt with hlt
      · exact absurd hgt fire_ne
      rcases applyRules_cons h with h' | ⟨-, h⟩
      · simp only [addMergeEq, ex, ey] at h'
        refine mkAdd_lin' hl ?_ (fire_some.1 h')
        simpa using ⟨heq hl hb h0 (by simpa using hlt), hnc'⟩
      · simp [applyRules] at h
    · -- a sum and a summand
      have ex : Expr.asAdd (.fn .add (a :: as)) = some (a, as) := rfl
      have ey := hr.asAdd
      rcases applyRules_append h with ⟨x, hx, h'⟩ | ⟨hn, h⟩
      · rw [List.mem_map] at hx
        obtain ⟨rule, hrule, rfl⟩ := hx
        simp only [addHelper, ex, ey, Option.bind_eq_bind, Option.bind_eq_some_iff] at h'
        obtain ⟨o, ho, h'⟩ := h'
        cases o with
        | none => simp at h'
        | some m =>
          simp only [fire_some, Option.bind_eq_some_iff] at h'
          obtain ⟨t, ht, h'⟩ := h'
          exact ih (.inl (combine_mono (addSimple k) hrule ha hr ho)) (mkAdd_lin hnc ht) h'
      have h0 := hn (addHelper (simp k) addConst1) (by simp [combining])
      simp only [addHelper, ex, ey, Option.bind_eq_bind, Option.bind_eq_some_iff] at h0
      obtain ⟨o, h0, h0'⟩ := h0
      cases o with
      | some m => exact absurd h0' fire_ne
      | none =>
      rcases applyRules_cons h with h' | ⟨-, h⟩
      · simp only [addMergeLt, ex, ey] at h'
        split_ifs at h' with hlt
        · simp only [fire_some, Option.bind_eq_bind, Option.bind_eq_some_iff] at h'
          obtain ⟨t, ht, u, hu, h'⟩ := h'
          exact ih (.inl ha) (ih (mkAdd_lin hnc ht) (.inl hr) hu) h'
        · simp at h'
      rcases applyRules_cons h with h' | ⟨hgt, h⟩
      · simp only [addMergeGt, ex, ey] at h'
        split_ifs at h' with hlt
        · refine mkAdd_lin' hr ?_ (fire_some.1 h')
          simpa using ⟨hconst' ha hr h0 hlt, hnc⟩
        · simp at h'
      simp only [addMergeGt, ex, ey] at hgt
      split_ifs at hgt with hlt
      · exact absurd hgt fire_ne
      rcases applyRules_cons h with h' | ⟨-, h⟩
      · simp only [addMergeEq, ex, ey] at h'
        refine mkAdd_lin' ha ?_ (fire_some.1 h')
        simpa using ⟨heq ha hr h0 (by simpa using hlt), hnc⟩
      · simp [applyRules] at h
    · -- two sums
      have ex : Expr.asAdd (.fn .add (a :: as)) = some (a, as) := rfl
      have ey : Expr.asAdd (.fn .add (b :: bs)) = some (b, bs) := rfl
      have hl' : Lin (.fn .add (a :: as)) := .inr ⟨a, as, rfl, has, ha, hnc⟩
      have hr' : Lin (.fn .add (b :: bs)) := .inr ⟨b, bs, rfl, hbs, hb, hnc'⟩
      rcases applyRules_append h with ⟨x, hx, h'⟩ | ⟨hn, h⟩
      · rw [List.mem_map] at hx
        obtain ⟨rule, hrule, rfl⟩ := hx
        simp only [addHelper, ex, ey, Option.bind_eq_bind, Option.bind_eq_some_iff] at h'
        obtain ⟨o, ho, h'⟩ := h'
        cases o with
        | none => simp at h'
        | some m =>
          simp only [fire_some, Option.bind_eq_some_iff] at h'
          obtain ⟨t, ht, u, hu, v, hv, h'⟩ := h'
          exact ih (.inl (combine_mono (addSimple k) hrule ha hb ho))
            (ih (mkAdd_lin hnc ht) (mkAdd_lin hnc' hu) hv) h'
      have h0 := hn (addHelper (simp k) addConst1) (by simp [combining])
      simp only [addHelper, ex, ey, Option.bind_eq_bind, Option.bind_eq_some_iff] at h0
      obtain ⟨o, h0, h0'⟩ := h0
      cases o with
      | some m => exact absurd h0' fire_ne
      | none =>
      rcases applyRules_cons h with h' | ⟨-, h⟩
      · simp only [addMergeLt, ex, ey] at h'
        split_ifs at h' with hlt
        · simp only [fire_some, Option.bind_eq_bind, Option.bind_eq_some_iff] at h'
          obtain ⟨t, ht, u, hu, h'⟩ := h'
          exact ih (.inl ha) (ih (mkAdd_lin hnc ht) hr' hu) h'
        · simp at h'
      rcases applyRules_cons h with h' | ⟨hgt, h⟩
      · simp only [addMergeGt, ex, ey] at h'
        split_ifs at h' with hlt
        · simp only [fire_some, Option.bind_eq_bind, Option.bind_eq_some_iff] at h'
          obtain ⟨t, ht, u, hu, h'⟩ := h'
          exact ih (.inl hb) (ih hl' (mkAdd_lin hnc' ht) hu) h'
        · simp at h'
      simp only [addMergeGt, ex, ey] at hgt
      split_ifs at hgt with hlt
      · exact absurd hgt fire_ne
      rcases applyRules_cons h with h' | ⟨-, h⟩
      · simp only [addMergeEq, ex, ey, fire_some, Option.bind_eq_bind, Option.bind_eq_some_iff] at h'
        obtain ⟨p, hp, t, ht, u, hu, v, hv, h'⟩ := h'
        refine ih (mkAdd_lin' ha ?_ hp) (ih (mkAdd_lin hnc ht) (mkAdd_lin hnc' hu) hv) h'
        simpa using heq ha hb h0 (by simpa using hlt)
      · simp [applyRules] at h

end GATL.Quad
