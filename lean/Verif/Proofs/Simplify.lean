import Verif.Model.Simplify
import Verif.Spec.Denote
import Verif.Proofs.Integers

/-!
# The simplification rules preserve values
-/

namespace GATL

open Expr Spec

variable {ρ : Env}

/-- A library-shaped expression with a value. -/
def V (ρ : Env) (e : Expr) (x : ℝ) : Prop := Built e ∧ Denotes ρ e x

/-- A list of library-shaped summands with a sum. -/
def SumV (ρ : Env) (as : List Expr) (x : ℝ) : Prop :=
  (∀ a ∈ as, Built a) ∧ sumVals (denList ρ as) = some (.num x)

/-- A list of library-shaped factors with a product. -/
def ProdV (ρ : Env) (as : List Expr) (x : ℝ) : Prop :=
  (∀ a ∈ as, Built a) ∧ prodVals (denList ρ as) = some (.num x)

theorem Built.of_mem {name : Name} {args : List Expr} (h : Built (.fn name args)) {a : Expr}
    (ha : a ∈ args) : Built a := by
  cases h with
  | fn _ _ hargs => exact hargs a ha

theorem SumV.nil : SumV ρ [] 0 := ⟨by simp, by simp [denList, sumVals]⟩

theorem ProdV.nil : ProdV ρ [] 1 := ⟨by simp, by simp [denList, prodVals]⟩

theorem SumV.cons {a : Expr} {as : List Expr} {x y : ℝ} (h : V ρ a x) (hs : SumV ρ as y) :
    SumV ρ (a :: as) (x + y) := by
  obtain ⟨hb, hd⟩ := h
  obtain ⟨hbs, hds⟩ := hs
  refine ⟨by simpa using ⟨hb, hbs⟩, ?_⟩
  unfold Denotes at hd
  simp [denList, hd, sumVals, hds]

theorem ProdV.cons {a : Expr} {as : List Expr} {x y : ℝ} (h : V ρ a x) (hs : ProdV ρ as y) :
    ProdV ρ (a :: as) (x * y) := by
  obtain ⟨hb, hd⟩ := h
  obtain ⟨hbs, hds⟩ := hs
  refine ⟨by simpa using ⟨hb, hbs⟩, ?_⟩
  unfold Denotes at hd
  simp [denList, hd, prodVals, hds]

theorem SumV.uncons {a : Expr} {as : List Expr} {s : ℝ} (h : SumV ρ (a :: as) s) :
    ∃ x y, V ρ a x ∧ SumV ρ as y ∧ s = x + y := by
  obtain ⟨hb, hd⟩ := h
  simp only [List.mem_cons, forall_eq_or_imp] at hb
  rw [denList] at hd
  rcases ha : den ρ a with _ | ⟨x⟩ | _ | _
  · rw [ha] at hd; simp [sumVals] at hd
  · rw [ha] at hd
    rcases hs : sumVals (denList ρ as) with _ | ⟨y⟩ | _ | _
    · simp [sumVals, hs] at hd
    · simp only [sumVals, hs, Option.some.injEq, Val.num.injEq] at hd
      exact ⟨x, y, ⟨hb.1, ha⟩, ⟨hb.2, hs⟩, hd.symm⟩
    · simp [sumVals, hs] at hd
    · simp [sumVals, hs] at hd
  · rw [ha] at hd; simp [sumVals] at hd
  · rw [ha] at hd; simp [sumVals] at hd

theorem ProdV.uncons {a : Expr} {as : List Expr} {s : ℝ} (h : ProdV ρ (a :: as) s) :
    ∃ x y, V ρ a x ∧ ProdV ρ as y ∧ s = x * y := by
  obtain ⟨hb, hd⟩ := h
  simp only [List.mem_cons, forall_eq_or_imp] at hb
  rw [denList] at hd
  rcases ha : den ρ a with _ | ⟨x⟩ | _ | _
  · rw [ha] at hd; simp [prodVals] at hd
  · rw [ha] at hd
    rcases hs : prodVals (denList ρ as) with _ | ⟨y⟩ | _ | _
    · simp [prodVals, hs] at hd
    · simp only [prodVals, hs, Option.some.injEq, Val.num.injEq] at hd
      exact ⟨x, y, ⟨hb.1, ha⟩, ⟨hb.2, hs⟩, hd.symm⟩
    · simp [prodVals, hs] at hd
    · simp [prodVals, hs] at hd
  · rw [ha] at hd; simp [prodVals] at hd
  · rw [ha] at hd; simp [prodVals] at hd

theorem SumV.nil_iff {s : ℝ} (h : SumV ρ [] s) : s = 0 := by
  have := h.2
  simp only [denList, sumVals, Option.some.injEq, Val.num.injEq] at this
  exact this.symm

theorem ProdV.nil_iff {s : ℝ} (h : ProdV ρ [] s) : s = 1 := by
  have := h.2
  simp only [denList, prodVals, Option.some.injEq, Val.num.injEq] at this
  exact this.symm

theorem V.const (v : Int) : V ρ (.const v) v := ⟨.const v, by simp [Denotes, den]⟩

theorem V.const_eq {v : Int} {x : ℝ} (h : V ρ (.const v) x) : x = v := by
  have := h.2
  simp only [Denotes, den, Option.some.injEq, Val.num.injEq] at this
  exact this.symm

theorem V.unique {e : Expr} {x y : ℝ} (h : V ρ e x) (h' : V ρ e y) : x = y := by
  have a := h.2
  have b := h'.2
  unfold Denotes at a b
  rw [a] at b
  simpa using b

theorem V.of_eq {e : Expr} {x y : ℝ} (h : V ρ e x) (he : x = y) : V ρ e y := he ▸ h

/-- `add_t` denotes the sum. -/
theorem SumV.mkAdd {as : List Expr} {s : ℝ} (h : SumV ρ as s) {e : Expr}
    (he : mkAdd as = some e) : V ρ e s := by
  match as, h, he with
  | [], h, he =>
    simp only [Expr.mkAdd, Option.some.injEq] at he
    subst he
    exact (V.const 0).of_eq (by rw [h.nil_iff]; simp)
  | [a], h, he =>
    simp only [Expr.mkAdd, Option.some.injEq] at he
    subst he
    obtain ⟨x, y, hx, hy, e⟩ := h.uncons
    exact hx.of_eq (by rw [e, hy.nil_iff, add_zero])
  | a :: b :: as, h, he =>
    simp only [Expr.mkAdd, Option.ite_none_left_eq_some, Option.some.injEq] at he
    obtain ⟨-, rfl⟩ := he
    refine ⟨.fn _ _ h.1 (by simp) (by simp) (by simp), ?_⟩
    have := h.2
    simp only [Denotes, den, denList, interp] at this ⊢
    exact this

/-- `mul_t` of at least one factor denotes the product. -/
theorem ProdV.mkMul {as : List Expr} {s : ℝ} (h : ProdV ρ as s) (hne : as ≠ []) {e : Expr}
    (he : mkMul as = some e) : V ρ e s := by
  match as, h, he, hne with
  | [a], h, he, _ =>
    simp only [Expr.mkMul, Option.some.injEq] at he
    subst he
    obtain ⟨x, y, hx, hy, e⟩ := h.uncons
    exact hx.of_eq (by rw [e, hy.nil_iff, mul_one])
  | a :: b :: as, h, he, _ =>
    simp only [Expr.mkMul, Option.ite_none_left_eq_some, Option.some.injEq] at he
    obtain ⟨-, rfl⟩ := he
    refine ⟨.fn _ _ h.1 (by simp) (by simp) (by simp), ?_⟩
    have := h.2
    simp only [Denotes, den, denList, interp] at this ⊢
    exact this

theorem V.add_inv {args : List Expr} {s : ℝ} (h : V ρ (.fn .add args) s) :
    SumV ρ args s ∧ 2 ≤ args.length := by
  obtain ⟨hb, hd⟩ := h
  cases hb with
  | fn _ _ hargs hadd hmul hpow =>
    have h2 := hadd rfl
    match args, h2 with
    | a :: b :: as, _ =>
      refine ⟨⟨hargs, ?_⟩, by simp⟩
      simpa only [Denotes, den, denList, interp] using hd

theorem V.mul_inv {args : List Expr} {s : ℝ} (h : V ρ (.fn .mul args) s) :
    ProdV ρ args s ∧ 2 ≤ args.length := by
  obtain ⟨hb, hd⟩ := h
  cases hb with
  | fn _ _ hargs hadd hmul hpow =>
    have h2 := hmul rfl
    match args, h2 with
    | a :: b :: as, _ =>
      refine ⟨⟨hargs, ?_⟩, by simp⟩
      simpa only [Denotes, den, denList, interp] using hd

theorem V.add_cons {a : Expr} {as : List Expr} {s : ℝ} (h : V ρ (.fn .add (a :: as)) s) :
    ∃ x y, V ρ a x ∧ SumV ρ as y ∧ as ≠ [] ∧ s = x + y := by
  obtain ⟨h1, h2⟩ := h.add_inv
  obtain ⟨x, y, hx, hy, e⟩ := h1.uncons
  exact ⟨x, y, hx, hy, by rintro rfl; simp at h2, e⟩

theorem V.mul_cons {a : Expr} {as : List Expr} {s : ℝ} (h : V ρ (.fn .mul (a :: as)) s) :
    ∃ x y, V ρ a x ∧ ProdV ρ as y ∧ as ≠ [] ∧ s = x * y := by
  obtain ⟨h1, h2⟩ := h.mul_inv
  obtain ⟨x, y, hx, hy, e⟩ := h1.uncons
  exact ⟨x, y, hx, hy, by rintro rfl; simp at h2, e⟩

theorem V.power_inv {l r : Expr} {s : ℝ} (h : V ρ (powerOf l r) s) :
    ∃ x y, V ρ l x ∧ V ρ r y ∧ Direct l ∧ PowDefined x y ∧ s = x ^ y := by
  obtain ⟨hb, hd⟩ := h
  cases hb with
  | fn _ _ hargs hadd hmul hpow =>
    obtain ⟨l', r', e, hdir⟩ := hpow rfl
    simp only [List.cons.injEq, and_true] at e
    obtain ⟨rfl, rfl⟩ := e
    simp only [Denotes, den, denList] at hd
    rcases hl : den ρ l with _ | ⟨x⟩ | _ | _ <;> rcases hr : den ρ r with _ | ⟨y⟩ | _ | _ <;>
      rw [hl, hr] at hd <;> simp only [interp, reduceCtorEq] at hd
    split at hd
    · rename_i hp
      simp only [Option.some.injEq, Val.num.injEq] at hd
      exact ⟨x, y, ⟨hargs _ (by simp), hl⟩, ⟨hargs _ (by simp), hr⟩, hdir, hp, hd.symm⟩
    · simp at hd

theorem V.power {l r : Expr} {x y : ℝ} (hl : V ρ l x) (hr : V ρ r y) (hdir : Direct l)
    (hp : PowDefined x y) : V ρ (powerOf l r) (x ^ y) := by
  refine ⟨.fn _ _ (by simpa using ⟨hl.1, hr.1⟩) (by simp) (by simp)
    (fun _ => ⟨l, r, rfl, hdir⟩), ?_⟩
  have a := hl.2
  have b := hr.2
  unfold Denotes at a b
  simp [Denotes, den, denList, a, b, interp, hp]

theorem asAdd_some {e a : Expr} {as : List Expr} (h : asAdd e = some (a, as)) :
    e = .fn .add (a :: as) := by
  unfold asAdd at h
  split at h
  · simp only [Option.some.injEq, Prod.mk.injEq] at h
    rw [h.1, h.2]
  · simp at h

theorem asMul_some {e a : Expr} {as : List Expr} (h : asMul e = some (a, as)) :
    e = .fn .mul (a :: as) := by
  unfold asMul at h
  split at h
  · simp only [Option.some.injEq, Prod.mk.injEq] at h
    rw [h.1, h.2]
  · simp at h

theorem asPower_some {e a b : Expr} (h : asPower e = some (a, b)) : e = powerOf a b := by
  unfold asPower at h
  split at h
  · simp only [Option.some.injEq, Prod.mk.injEq] at h
    rw [h.1, h.2]
  · simp at h

theorem asConst_some {e : Expr} {v : Int} (h : asConst e = some v) : e = .const v := by
  unfold asConst at h
  split at h
  · simp only [Option.some.injEq] at h; rw [h]
  · simp at h

theorem asRecip_some {e : Expr} {v : Int} (h : asRecip e = some v) : e = recip v := by
  unfold asRecip at h
  split at h
  · simp only [Option.some.injEq] at h; rw [h]
  · simp at h

theorem asRatio_some {e : Expr} {a b : Int} (h : asRatio e = some (a, b)) :
    e = .fn .mul [.const a, recip b] := by
  unfold asRatio at h
  split at h
  · simp only [Option.some.injEq, Prod.mk.injEq] at h; rw [h.1, h.2]
  · simp at h

theorem fire_some {o : Option Expr} {e : Expr} : fire o = some (some e) ↔ o = some e := by
  cases o <;> simp [fire]

theorem direct_const (v : Int) : Direct (.const v) := by simp [Direct]

/-- `1/v` denotes the reciprocal of `v ≠ 0`. -/
theorem V.recip_inv {v : Int} {x : ℝ} (h : V ρ (recip v) x) : v ≠ 0 ∧ x = (v : ℝ)⁻¹ := by
  obtain ⟨a, b, ha, hb, -, hp, rfl⟩ := h.power_inv
  rw [ha.const_eq, hb.const_eq] at *
  constructor
  · rintro rfl
    rcases hp with h | ⟨-, h⟩ | ⟨h, -⟩ <;> norm_num at h
  · push_cast
    rw [Real.rpow_neg_one]

theorem V.ratio_inv {a b : Int} {x : ℝ} (h : V ρ (.fn .mul [.const a, recip b]) x) :
    b ≠ 0 ∧ x = (a : ℝ) * (b : ℝ)⁻¹ := by
  obtain ⟨y, z, hy, hz, -, rfl⟩ := h.mul_cons
  obtain ⟨w, u, hw, hu, rfl⟩ := hz.uncons
  obtain ⟨h0, rfl⟩ := hw.recip_inv
  rw [hy.const_eq, hu.nil_iff, mul_one]
  exact ⟨h0, rfl⟩

theorem i64_eq {x y : Int} (h : i64 x = some y) : y = x := by
  unfold i64 at h
  split at h <;> simp_all

/-- The rule computes `f` on the values of its operands. -/
def RuleOk (ρ : Env) (f : ℝ → ℝ → ℝ) (rule : Rule) : Prop :=
  ∀ l r e a b, V ρ l a → V ρ r b → rule l r = some (some e) → V ρ e (f a b)

/-- When the power of a product or of a power may be distributed. -/
def PowOk (ρ : Env) (l : Expr) (b : ℝ) : Prop := (∃ n : ℤ, b = n) ∨ NonnegParts ρ l

/-- The metafunctions compute sum, product and power on values. -/
structure Sound (ρ : Env) (S : Simp) : Prop where
  add : ∀ l r e a b, V ρ l a → V ρ r b → S .add l r = some e → V ρ e (a + b)
  mul : ∀ l r e a b, V ρ l a → V ρ r b → S .mul l r = some e → V ρ e (a * b)
  pow : ∀ l r e a b, V ρ l a → V ρ r b → PowDefined a b → PowOk ρ l b →
    S .pow l r = some e → V ρ e (a ^ b)

theorem applyRules_ok {f : ℝ → ℝ → ℝ} {rules : List Rule} (h : ∀ rule ∈ rules, RuleOk ρ f rule)
    {l r e : Expr} {a b : ℝ} (hl : V ρ l a) (hr : V ρ r b) (he : applyRules rules l r = some e) :
    V ρ e (f a b) := by
  induction rules with
  | nil => simp [applyRules] at he
  | cons rule rules ih =>
    unfold applyRules at he
    split at he
    · simp at he
    · rename_i e' he'
      simp only [Option.some.injEq] at he
      subst he
      exact h rule (by simp) _ _ _ _ _ hl hr he'
    · exact ih (fun r hr => h r (by simp [hr])) he

section Addition

variable {S : Simp} (hS : Sound ρ S)
include hS

theorem addHelper_ok {rule : Rule} (h : RuleOk ρ (· + ·) rule) :
    RuleOk ρ (· + ·) (addHelper S rule) := by
  intro l r e a b hl hr he
  unfold addHelper at he
  split at he
  · exact h l r e a b hl hr he
  · rename_i b' bs h1 h2
    obtain rfl := asAdd_some h2
    obtain ⟨x, y, hx, hy, -, rfl⟩ := hr.add_cons
    simp only [Option.bind_eq_bind, Option.bind_eq_some_iff] at he
    obtain ⟨o, ho, he⟩ := he
    rcases o with _ | o
    · simp at he
    · simp only [fire_some, Option.bind_eq_some_iff] at he
      obtain ⟨m, hm, he⟩ := he
      exact (hS.add _ _ _ _ _ (h _ _ _ _ _ hl hx ho) (hy.mkAdd hm) he).of_eq (by simp only; ring)
  · rename_i a' as h1 h2
    obtain rfl := asAdd_some h1
    obtain ⟨x, y, hx, hy, -, rfl⟩ := hl.add_cons
    simp only [Option.bind_eq_bind, Option.bind_eq_some_iff] at he
    obtain ⟨o, ho, he⟩ := he
    rcases o with _ | o
    · simp at he
    · simp only [fire_some, Option.bind_eq_some_iff] at he
      obtain ⟨m, hm, he⟩ := he
      exact (hS.add _ _ _ _ _ (h _ _ _ _ _ hx hr ho) (hy.mkAdd hm) he).of_eq (by simp only; ring)
  · rename_i a' as b' bs h1 h2
    obtain rfl := asAdd_some h1
    obtain rfl := asAdd_some h2
    obtain ⟨x, y, hx, hy, -, rfl⟩ := hl.add_cons
    obtain ⟨z, w, hz, hw, -, rfl⟩ := hr.add_cons
    simp only [Option.bind_eq_bind, Option.bind_eq_some_iff] at he
    obtain ⟨o, ho, he⟩ := he
    rcases o with _ | o
    · simp at he
    · simp only [fire_some, Option.bind_eq_some_iff] at he
      obtain ⟨m, hm, n, hn, p, hp, he⟩ := he
      exact (hS.add _ _ _ _ _ (h _ _ _ _ _ hx hz ho)
        (hS.add _ _ _ _ _ (hy.mkAdd hm) (hw.mkAdd hn) hp) he).of_eq (by simp only; ring)

omit hS in
theorem addZero_ok : RuleOk ρ (· + ·) addZero := by
  intro l r e a b hl hr he
  unfold addZero at he
  split at he
  · rename_i h; subst h
    simp only [Option.some.injEq] at he; subst he
    exact hr.of_eq (by simp only; rw [hl.const_eq]; simp)
  · split at he
    · rename_i h; subst h
      simp only [Option.some.injEq] at he; subst he
      exact hl.of_eq (by simp only; rw [hr.const_eq]; simp)
    · simp at he

theorem addCollect1_ok : RuleOk ρ (· + ·) (addCollect1 S) := by
  intro l r e a b hl hr he
  unfold addCollect1 at he
  split at he
  · rename_i h; subst h
    rw [fire_some] at he
    refine (hS.mul _ _ _ _ _ (V.const 2) hl he).of_eq ?_
    rw [hr.unique hl]; push_cast; ring
  · simp at he

theorem addCollect2_ok : RuleOk ρ (· + ·) (addCollect2 S) := by
  intro l r e a b hl hr he
  unfold addCollect2 at he
  split at he
  · rename_i p as
    split at he
    · rename_i hc
      obtain ⟨x, y, hx, hy, hne, rfl⟩ := hl.mul_cons
      simp only [Option.bind_eq_bind, Option.bind_eq_some_iff] at he
      obtain ⟨c, -, he⟩ := he
      split at he
      · simp only [fire_some, Option.bind_eq_some_iff] at he
        obtain ⟨s, hs, m, hm, he⟩ := he
        refine (hS.mul _ _ _ _ _ (hS.add _ _ _ _ _ hx (V.const 1) hs) (hy.mkMul hne hm) he).of_eq ?_
        have hb : b = y := by
          rcases hc.2 with h | h
          · subst h
            obtain ⟨u, v, hu, hv, rfl⟩ := hy.uncons
            rw [hv.nil_iff, mul_one]; exact hr.unique hu
          · subst h
            obtain ⟨hp, -⟩ := hr.mul_inv
            have h1 := hp.2
            rw [hy.2] at h1
            simpa using h1.symm
        rw [hb]; push_cast; ring
      · simp at he
    · simp at he
  · simp at he

theorem addCollect3_ok : RuleOk ρ (· + ·) (addCollect3 S) := by
  intro l r e a b hl hr he
  unfold addCollect3 at he
  split at he
  · rename_i p as
    split at he
    · rename_i hc
      obtain ⟨x, y, hx, hy, hne, rfl⟩ := hr.mul_cons
      simp only [Option.bind_eq_bind, Option.bind_eq_some_iff] at he
      obtain ⟨c, -, he⟩ := he
      split at he
      · simp only [fire_some, Option.bind_eq_some_iff] at he
        obtain ⟨s, hs, m, hm, he⟩ := he
        refine (hS.mul _ _ _ _ _ (hS.add _ _ _ _ _ (V.const 1) hx hs) (hy.mkMul hne hm) he).of_eq ?_
        have hb : a = y := by
          rcases hc.2 with h | h
          · subst h
            obtain ⟨u, v, hu, hv, rfl⟩ := hy.uncons
            rw [hv.nil_iff, mul_one]; exact hl.unique hu
          · subst h
            obtain ⟨hp, -⟩ := hl.mul_inv
            have h1 := hp.2
            rw [hy.2] at h1
            simpa using h1.symm
        rw [hb]; push_cast; ring
      · simp at he
    · simp at he
  · simp at he

omit hS in
theorem ProdV.unique {as : List Expr} {x y : ℝ} (h : ProdV ρ as x) (h' : ProdV ρ as y) : x = y := by
  have h1 := h.2
  rw [h'.2] at h1
  simpa using h1.symm

theorem addCollect4_ok : RuleOk ρ (· + ·) (addCollect4 S) := by
  intro l r e a b hl hr he
  unfold addCollect4 at he
  split at he
  · rename_i p as q bs
    split at he
    · rename_i hc
      subst hc
      obtain ⟨x, y, hx, hy, hne, rfl⟩ := hl.mul_cons
      obtain ⟨z, w, hz, hw, -, rfl⟩ := hr.mul_cons
      simp only [Option.bind_eq_bind, Option.bind_eq_some_iff] at he
      obtain ⟨c, -, he⟩ := he
      split at he
      · simp only [fire_some, Option.bind_eq_some_iff] at he
        obtain ⟨s, hs, m, hm, he⟩ := he
        refine (hS.mul _ _ _ _ _ (hS.add _ _ _ _ _ hx hz hs) (hy.mkMul hne hm) he).of_eq ?_
        rw [hw.unique hy]; simp only; ring
      · simp at he
    · simp at he
  · simp at he

theorem addCollect5_ok : RuleOk ρ (· + ·) (addCollect5 S) := by
  intro l r e a b hl hr he
  unfold addCollect5 at he
  split at he
  · rename_i p as
    split at he
    · rename_i hc
      subst hc
      obtain ⟨x, y, hx, hy, hne, rfl⟩ := hl.mul_cons
      simp only [Option.bind_eq_bind, Option.bind_eq_some_iff] at he
      obtain ⟨m, hm, c, -, he⟩ := he
      split at he
      · simp only [fire_some, Option.bind_eq_some_iff] at he
        obtain ⟨s, hs, he⟩ := he
        refine (hS.mul _ _ _ _ _ hx (hS.add _ _ _ _ _ (hy.mkMul hne hm) (V.const 1) hs) he).of_eq ?_
        rw [hr.unique hx]; push_cast; ring
      · simp at he
    · simp at he
  · simp at he

theorem addCollect6_ok : RuleOk ρ (· + ·) (addCollect6 S) := by
  intro l r e a b hl hr he
  unfold addCollect6 at he
  split at he
  · rename_i p as
    split at he
    · rename_i hc
      subst hc
      obtain ⟨x, y, hx, hy, hne, rfl⟩ := hr.mul_cons
      simp only [Option.bind_eq_bind, Option.bind_eq_some_iff] at he
      obtain ⟨m, hm, c, -, he⟩ := he
      split at he
      · simp only [fire_some, Option.bind_eq_some_iff] at he
        obtain ⟨s, hs, he⟩ := he
        refine (hS.mul _ _ _ _ _ hx (hS.add _ _ _ _ _ (V.const 1) (hy.mkMul hne hm) hs) he).of_eq ?_
        rw [hl.unique hx]; push_cast; ring
      · simp at he
    · simp at he
  · simp at he

theorem addCollect7_ok : RuleOk ρ (· + ·) (addCollect7 S) := by
  intro l r e a b hl hr he
  unfold addCollect7 at he
  split at he
  · rename_i p as q bs
    split at he
    · rename_i hc
      subst hc
      obtain ⟨x, y, hx, hy, hne, rfl⟩ := hl.mul_cons
      obtain ⟨z, w, hz, hw, hne', rfl⟩ := hr.mul_cons
      simp only [Option.bind_eq_bind, Option.bind_eq_some_iff] at he
      obtain ⟨m, hm, n, hn, c, -, he⟩ := he
      split at he
      · simp only [fire_some, Option.bind_eq_some_iff] at he
        obtain ⟨s, hs, he⟩ := he
        refine (hS.mul _ _ _ _ _ hx (hS.add _ _ _ _ _ (hy.mkMul hne hm) (hw.mkMul hne' hn) hs)
          he).of_eq ?_
        rw [hz.unique hx]; simp only; ring
      · simp at he
    · simp at he
  · simp at he

omit hS in
theorem mkConst_v {v : Int} {e : Expr} (h : mkConst v = some e) : V ρ e v := by
  simp only [mkConst, Option.map_eq_some_iff] at h
  obtain ⟨a, ha, rfl⟩ := h
  rw [← i64_eq ha]
  exact V.const a

/-- `N / D` for `D ≠ 0`. -/
theorem quotient_ok {num den : Option Int} {n d : Int} {e : Expr}
    (hn : ∀ x, num = some x → x = n) (hd : ∀ x, den = some x → x = d) (h0 : d ≠ 0)
    (he : quotient S num den = some e) : V ρ e ((n : ℝ) * (d : ℝ)⁻¹) := by
  unfold quotient at he
  simp only [Option.bind_eq_bind, Option.bind_eq_some_iff] at he
  obtain ⟨x, hx, y, hy, p, hp, he⟩ := he
  rw [hn x hx] at he
  rw [hd y hy] at hp
  have hd0 : (d : ℝ) ≠ 0 := by exact_mod_cast h0
  have hdef : PowDefined (d : ℝ) (((-1 : Int)) : ℝ) := by
    rcases lt_trichotomy (d : ℝ) 0 with h | h | h
    · exact Or.inr (Or.inr ⟨h, -1, by push_cast; rfl⟩)
    · exact absurd h hd0
    · exact Or.inl h
  have h1 := hS.pow _ _ _ _ _ (V.const d) (V.const (-1)) hdef (Or.inl ⟨-1, by push_cast; rfl⟩) hp
  refine (hS.mul _ _ _ _ _ (V.const n) h1 he).of_eq ?_
  push_cast
  rw [Real.rpow_neg_one]

omit hS in
theorem addConst1_ok : RuleOk ρ (· + ·) addConst1 := by
  intro l r e a b hl hr he
  unfold addConst1 at he
  split at he
  · rename_i x y h1 h2
    obtain rfl := asConst_some h1
    obtain rfl := asConst_some h2
    rw [fire_some] at he
    refine (mkConst_v he).of_eq ?_
    rw [hl.const_eq, hr.const_eq]; push_cast; rfl
  · simp at he

theorem addConst2_ok : RuleOk ρ (· + ·) (addConst2 S) := by
  intro l r e a b hl hr he
  unfold addConst2 at he
  split at he
  · rename_i x y h1 h2
    obtain rfl := asConst_some h1
    obtain rfl := asRecip_some h2
    rw [fire_some] at he
    obtain ⟨h0, rfl⟩ := hr.recip_inv
    refine (quotient_ok hS (n := x * y + 1) (d := y) ?_ ?_ h0 he).of_eq ?_
    · intro z hz
      simp only [Option.bind_eq_bind, Option.bind_eq_some_iff] at hz
      obtain ⟨w, hw, hz⟩ := hz
      rw [i64_eq hz, i64_eq hw]
    · intro z hz; simpa using hz.symm
    · rw [hl.const_eq]
      have : (y : ℝ) ≠ 0 := by exact_mod_cast h0
      push_cast; field_simp
  · split at he
    · rename_i x y h1 h2
      obtain rfl := asRecip_some h1
      obtain rfl := asConst_some h2
      rw [fire_some] at he
      obtain ⟨h0, rfl⟩ := hl.recip_inv
      refine (quotient_ok hS (n := 1 + y * x) (d := x) ?_ ?_ h0 he).of_eq ?_
      · intro z hz
        simp only [Option.bind_eq_bind, Option.bind_eq_some_iff] at hz
        obtain ⟨w, hw, hz⟩ := hz
        rw [i64_eq hz, i64_eq hw]
      · intro z hz; simpa using hz.symm
      · rw [hr.const_eq]
        have : (x : ℝ) ≠ 0 := by exact_mod_cast h0
        push_cast; field_simp
    · simp at he

theorem addConst3_ok : RuleOk ρ (· + ·) (addConst3 S) := by
  intro l r e a b hl hr he
  unfold addConst3 at he
  split at he
  · rename_i x y z h1 h2
    obtain rfl := asRatio_some h1
    obtain rfl := asRecip_some h2
    rw [fire_some] at he
    obtain ⟨h0, rfl⟩ := hl.ratio_inv
    obtain ⟨h0', rfl⟩ := hr.recip_inv
    refine (quotient_ok hS (n := x * z + y) (d := y * z) ?_ ?_ (mul_ne_zero h0 h0') he).of_eq ?_
    · intro z hz
      simp only [Option.bind_eq_bind, Option.bind_eq_some_iff] at hz
      obtain ⟨w, hw, hz⟩ := hz
      rw [i64_eq hz, i64_eq hw]
    · intro z hz; exact i64_eq hz
    · have : (y : ℝ) ≠ 0 := by exact_mod_cast h0
      have : (z : ℝ) ≠ 0 := by exact_mod_cast h0'
      push_cast; field_simp
  · split at he
    · rename_i x y z h1 h2
      obtain rfl := asRecip_some h1
      obtain rfl := asRatio_some h2
      rw [fire_some] at he
      obtain ⟨h0, rfl⟩ := hl.recip_inv
      obtain ⟨h0', rfl⟩ := hr.ratio_inv
      refine (quotient_ok hS (n := z + x * y) (d := x * z) ?_ ?_ (mul_ne_zero h0 h0') he).of_eq ?_
      · intro z hz
        simp only [Option.bind_eq_bind, Option.bind_eq_some_iff] at hz
        obtain ⟨w, hw, hz⟩ := hz
        rw [i64_eq hz, i64_eq hw]
      · intro z hz; exact i64_eq hz
      · have : (x : ℝ) ≠ 0 := by exact_mod_cast h0
        have : (z : ℝ) ≠ 0 := by exact_mod_cast h0'
        push_cast; field_simp
    · simp at he

theorem addConst4_ok : RuleOk ρ (· + ·) (addConst4 S) := by
  intro l r e a b hl hr he
  unfold addConst4 at he
  split at he
  · rename_i x y h1 h2
    obtain rfl := asRecip_some h1
    obtain rfl := asRecip_some h2
    rw [fire_some] at he
    obtain ⟨h0, rfl⟩ := hl.recip_inv
    obtain ⟨h0', rfl⟩ := hr.recip_inv
    refine (quotient_ok hS (n := y + x) (d := x * y) ?_ ?_ (mul_ne_zero h0 h0') he).of_eq ?_
    · intro z hz; exact i64_eq hz
    · intro z hz; exact i64_eq hz
    · have : (x : ℝ) ≠ 0 := by exact_mod_cast h0
      have : (y : ℝ) ≠ 0 := by exact_mod_cast h0'
      push_cast; field_simp
  · simp at he

theorem addConst5_ok : RuleOk ρ (· + ·) (addConst5 S) := by
  intro l r e a b hl hr he
  unfold addConst5 at he
  split at he
  · rename_i x y z w h1 h2
    obtain rfl := asRatio_some h1
    obtain rfl := asRatio_some h2
    rw [fire_some] at he
    obtain ⟨h0, rfl⟩ := hl.ratio_inv
    obtain ⟨h0', rfl⟩ := hr.ratio_inv
    refine (quotient_ok hS (n := x * w + y * z) (d := y * w) ?_ ?_ (mul_ne_zero h0 h0') he).of_eq ?_
    · intro t ht
      simp only [Option.bind_eq_bind, Option.bind_eq_some_iff] at ht
      obtain ⟨u, hu, v, hv, ht⟩ := ht
      rw [i64_eq ht, i64_eq hu, i64_eq hv]
    · intro z hz; exact i64_eq hz
    · have : (y : ℝ) ≠ 0 := by exact_mod_cast h0
      have : (w : ℝ) ≠ 0 := by exact_mod_cast h0'
      push_cast; field_simp
  · simp at he

theorem addMergeLt_ok : RuleOk ρ (· + ·) (addMergeLt S) := by
  intro l r e a b hl hr he
  unfold addMergeLt at he
  split at he <;> split at he <;>
    simp only [fire_some, Option.bind_eq_bind, Option.bind_eq_some_iff, reduceCtorEq,
      Option.some.injEq] at he
  · exact ((SumV.nil.cons hr).cons hl |>.mkAdd he).of_eq (by simp only; ring)
  · rename_i h2 _
    obtain rfl := asAdd_some h2
    obtain ⟨x, y, hx, hy, -, rfl⟩ := hr.add_cons
    exact ((hy.cons hx).cons hl).mkAdd he
  · rename_i h1 _ _
    obtain rfl := asAdd_some h1
    obtain ⟨x, y, hx, hy, -, rfl⟩ := hl.add_cons
    obtain ⟨m, hm, n, hn, he⟩ := he
    exact (hS.add _ _ _ _ _ hx (hS.add _ _ _ _ _ (hy.mkAdd hm) hr hn) he).of_eq
      (by simp only; ring)
  · rename_i h1 h2 _
    obtain rfl := asAdd_some h1
    obtain ⟨x, y, hx, hy, -, rfl⟩ := hl.add_cons
    obtain ⟨m, hm, n, hn, he⟩ := he
    exact (hS.add _ _ _ _ _ hx (hS.add _ _ _ _ _ (hy.mkAdd hm) hr hn) he).of_eq
      (by simp only; ring)

theorem addMergeGt_ok : RuleOk ρ (· + ·) (addMergeGt S) := by
  intro l r e a b hl hr he
  unfold addMergeGt at he
  split at he <;> split at he <;>
    simp only [fire_some, Option.bind_eq_bind, Option.bind_eq_some_iff, reduceCtorEq,
      Option.some.injEq] at he
  · exact ((SumV.nil.cons hl).cons hr |>.mkAdd he).of_eq (by simp only; ring)
  · rename_i h2 _
    obtain rfl := asAdd_some h2
    obtain ⟨x, y, hx, hy, -, rfl⟩ := hr.add_cons
    obtain ⟨m, hm, n, hn, he⟩ := he
    exact (hS.add _ _ _ _ _ hx (hS.add _ _ _ _ _ hl (hy.mkAdd hm) hn) he).of_eq
      (by simp only; ring)
  · rename_i h1 _ _
    obtain rfl := asAdd_some h1
    obtain ⟨x, y, hx, hy, -, rfl⟩ := hl.add_cons
    exact (((hy.cons hx).cons hr).mkAdd he).of_eq (by simp only; ring)
  · rename_i h1 h2 _
    obtain rfl := asAdd_some h2
    obtain ⟨x, y, hx, hy, -, rfl⟩ := hr.add_cons
    obtain ⟨m, hm, n, hn, he⟩ := he
    exact (hS.add _ _ _ _ _ hx (hS.add _ _ _ _ _ hl (hy.mkAdd hm) hn) he).of_eq
      (by simp only; ring)

theorem addMergeEq_ok : RuleOk ρ (· + ·) (addMergeEq S) := by
  intro l r e a b hl hr he
  unfold addMergeEq at he
  split at he <;>
    simp only [fire_some, Option.bind_eq_bind, Option.bind_eq_some_iff] at he
  · exact ((SumV.nil.cons hr).cons hl |>.mkAdd he).of_eq (by simp only; ring)
  · rename_i h1 h2
    obtain rfl := asAdd_some h2
    obtain ⟨x, y, hx, hy, -, rfl⟩ := hr.add_cons
    exact ((hy.cons hx).cons hl).mkAdd he
  · rename_i h1 h2
    obtain rfl := asAdd_some h1
    obtain ⟨x, y, hx, hy, -, rfl⟩ := hl.add_cons
    exact (((hy.cons hr).cons hx).mkAdd he).of_eq (by simp only; ring)
  · rename_i h1 h2
    obtain rfl := asAdd_some h1
    obtain rfl := asAdd_some h2
    obtain ⟨x, y, hx, hy, -, rfl⟩ := hl.add_cons
    obtain ⟨z, w, hz, hw, -, rfl⟩ := hr.add_cons
    obtain ⟨m, hm, n, hn, o, ho, p, hp, he⟩ := he
    exact (hS.add _ _ _ _ _ ((SumV.nil.cons hz).cons hx |>.mkAdd hm)
      (hS.add _ _ _ _ _ (hy.mkAdd hn) (hw.mkAdd ho) hp) he).of_eq (by simp only; ring)

theorem addRules_ok : ∀ rule ∈ addRules S, RuleOk ρ (· + ·) rule := by
  intro rule hrule
  simp only [addRules, List.mem_cons, List.not_mem_nil, or_false] at hrule
  rcases hrule with rfl | rfl | rfl | rfl | rfl | rfl | rfl | rfl | rfl | rfl | rfl | rfl | rfl |
    rfl | rfl | rfl
  · exact addZero_ok
  · exact addHelper_ok hS (addCollect1_ok hS)
  · exact addHelper_ok hS (addCollect2_ok hS)
  · exact addHelper_ok hS (addCollect3_ok hS)
  · exact addHelper_ok hS (addCollect4_ok hS)
  · exact addHelper_ok hS (addCollect5_ok hS)
  · exact addHelper_ok hS (addCollect6_ok hS)
  · exact addHelper_ok hS (addCollect7_ok hS)
  · exact addHelper_ok hS addConst1_ok
  · exact addHelper_ok hS (addConst2_ok hS)
  · exact addHelper_ok hS (addConst3_ok hS)
  · exact addHelper_ok hS (addConst4_ok hS)
  · exact addHelper_ok hS (addConst5_ok hS)
  · exact addMergeLt_ok hS
  · exact addMergeGt_ok hS
  · exact addMergeEq_ok hS

end Addition

end GATL
