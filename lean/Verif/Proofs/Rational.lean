import Verif.Spec.Rational
import Verif.Proofs.Unit

/-!
# Programs with inverses evaluate to their value
-/

namespace GATL

open Expr Spec

variable {τ : Types} {ρ outer : Env} {k n N L U : Nat}

theorem frac_voc : Voc (Leaf L U) Alg IsConst where
  const v := .inl ⟨v, rfl⟩
  add := .inl rfl
  mul := .inr (.inl rfl)
  power := .inr (.inr rfl)
  econst v _ := ⟨v, rfl⟩
  eneg _ _ _ := ⟨-1, rfl⟩

/-- Sums, products and integer powers of integer literals and variables. -/
abbrev Frac (L U : Nat) : Expr → Prop := Over (Leaf L U) Alg IsConst

theorem fixed_voc : Voc IsConst Alg IsConst where
  const v := ⟨v, rfl⟩
  add := .inl rfl
  mul := .inr (.inl rfl)
  power := .inr (.inr rfl)
  econst v _ := ⟨v, rfl⟩
  eneg _ _ _ := ⟨-1, rfl⟩

/-- Sums, products and integer powers of integer literals. -/
abbrev Fixed : Expr → Prop := Over IsConst Alg IsConst

theorem frac_const (v : Int) : Frac L U (.const v) := over_const frac_voc v
theorem fixed_const (v : Int) : Fixed (.const v) := over_const fixed_voc v

theorem frac_simp (n : Nat) : SimpOver (Leaf L U) Alg IsConst (simp n) := simp_over frac_voc expClosed_const n
theorem fixed_simp (n : Nat) : SimpOver IsConst Alg IsConst (simp n) := simp_over fixed_voc expClosed_const n

theorem frac_closed : ExpClosed (Frac L U) := fun n l r hl hr => ⟨(frac_simp n).add l r hl hr, (frac_simp n).mul l r hl hr⟩

theorem frac_leaf {e : Expr} (h : Frac L U e) (hf : ∀ name args, e ≠ .fn name args) : Leaf L U e := by
  cases e with
  | fn name args => exact absurd rfl (hf name args)
  | _ => exact h

theorem over_induct {P : Expr → Prop} {A : Name → Prop} {E : Expr → Prop} {motive : Expr → Prop}
    (leaf : ∀ e, (∀ name args, e ≠ .fn name args) → P e → motive e)
    (fn : ∀ name args, Over P A E (.fn name args) → (∀ a ∈ args, motive a) → motive (.fn name args)) (e : Expr) :
    Over P A E e → motive e := by
  induction hm : sizeOf e using Nat.strong_induction_on generalizing e with
  | _ m ih =>
    intro h
    cases e with
    | fn name args =>
      refine fn name args h fun a ha => ih (sizeOf a) ?_ a rfl ((over_fn.1 h).2.1 a ha)
      have := List.sizeOf_lt_of_mem ha
      rw [Expr.fn.sizeOf_spec] at hm
      omega
    | _ => exact leaf _ (by simp) h

theorem over_mono {P P' : Expr → Prop} {A : Name → Prop} {E : Expr → Prop} (h : ∀ e, P e → P' e) (e : Expr)
    (ho : Over P A E e) : Over P' A E e := by
  refine over_induct (motive := Over P' A E) ?_ ?_ e ho
  · intro e he hp
    cases e with
    | fn name args => exact absurd rfl (he name args)
    | _ => exact h _ hp
  · intro name args ho ih
    obtain ⟨h1, -, h3⟩ := over_fn.1 ho
    exact over_fn.2 ⟨h1, ih, h3⟩

theorem frac_evaluable {e : Expr} (hb : Built e) : Frac L U e → Evaluable L U .num e := by
  induction hb with
  | fn name args hargs hadd hmul hpow ih =>
    intro h
    obtain ⟨hn, ha, hE⟩ := over_fn.1 h
    rcases hn with rfl | rfl | rfl
    · exact .add _ (hadd rfl) fun a h => ih a h (ha a h)
    · exact .mul _ (hmul rfl) fun a h => ih a h (ha a h)
    · obtain ⟨l, r, rfl, -⟩ := hpow rfl
      obtain ⟨v, rfl⟩ := hE rfl l r rfl
      exact .power _ _ (ih l (by simp) (ha l (by simp))) (.const v) (.inr (.inr (.inr ⟨v, rfl⟩)))
  | _ =>
    intro h
    rcases frac_leaf h (by simp) with ⟨v, e⟩ | ⟨t, i, h1, h2, e⟩ <;> cases e <;>
      first
      | exact .const _
      | exact .value _ _ h1 h2

theorem frac_stored (e : Expr) (h : Frac L U e) : hasStored e = false := by
  refine over_induct (motive := fun e => hasStored e = false) ?_ ?_ e h
  · rintro _ _ (⟨v, rfl⟩ | ⟨t, i, -, -, rfl⟩) <;> rfl
  · intro name args hx ih
    clear hx
    rw [hasStored]
    induction args with
    | nil => rfl
    | cons a as iha =>
      rw [hasStoredAny, ih a (by simp), iha fun b hb => ih b (by simp [hb])]
      rfl

theorem fixed_frac {e : Expr} (h : Fixed e) : Frac L U e := over_mono (fun _ h => .inl h) e h
theorem frac_fixed {e : Expr} (h : Frac (L + 1) L e) : Fixed e := by
  refine over_mono ?_ e h
  rintro _ (h | ⟨t, i, h1, h2, rfl⟩)
  · exact h
  · omega

theorem fixed_stored {e : Expr} (h : Fixed e) : hasStored e = false := frac_stored e (fixed_frac (L := 0) (U := 0) h)

theorem fixed_arithmetic {P : Nat → Prop} {e : Expr} (hb : Built e) : Fixed e → Arithmetic P e := by
  induction hb with
  | fn name args hargs hadd hmul hpow ih =>
    intro h
    obtain ⟨hn, ha, hE⟩ := over_fn.1 h
    rcases hn with rfl | rfl | rfl
    · exact .add _ fun a h => ih a h (ha a h)
    · exact .mul _ fun a h => ih a h (ha a h)
    · obtain ⟨l, r, rfl, -⟩ := hpow rfl
      obtain ⟨v, rfl⟩ := hE rfl l r rfl
      exact .power _ _ (ih l (by simp) (ha l (by simp)))
  | const v => exact fun _ => .const v
  | _ => rintro ⟨v, e⟩; cases e

theorem arithmetic_fixed {e : Expr} (h : Arithmetic (fun _ => False) e) : Fixed e := by
  induction h with
  | const v => exact fixed_const v
  | value t i h => exact h.elim
  | add args h ih => exact over_fn.2 ⟨.inl rfl, ih, fun h => by cases h⟩
  | mul args h ih => exact over_fn.2 ⟨.inr (.inl rfl), ih, fun h => by cases h⟩
  | power l v hl ih =>
    refine over_fn.2 ⟨.inr (.inr rfl), ?_, ?_⟩
    · intro a ha
      rcases List.mem_pair.1 ha with rfl | rfl
      · exact ih
      · exact fixed_const v
    · rintro - l' r' e
      cases e
      exact ⟨v, rfl⟩

/-! ## The coefficients of an evaluated type -/

/-- A stored number or a constant. -/
def FixedCoef (e : Expr) : Prop := e = .stored ∨ Fixed e

theorem fixed_canBeStored {e : Expr} (h : Fixed e) : canBeStored e = true := by
  refine over_induct (motive := fun e => canBeStored e = true) ?_ ?_ e h
  · rintro _ _ ⟨v, rfl⟩
    rfl
  · intro name args hx ih
    clear hx
    show canBeStoredAll args = true
    induction args with
    | nil => rfl
    | cons a as iha =>
      rw [canBeStoredAll, ih a (by simp), iha fun b hb => ih b (by simp [hb])]
      rfl

theorem fixedCoef_canBeStored {e : Expr} (h : FixedCoef e) : canBeStored e = true := by
  rcases h with rfl | h
  · rfl
  · exact fixed_canBeStored h

theorem anyIs_fixed {l r : Expr} (hl : FixedCoef l) (hr : FixedCoef r) (h : ¬ anyIs .stored l r = true) :
    Fixed l ∧ Fixed r := by
  rcases id hl with rfl | hl'
  · exact absurd (by simp [anyIs, fixedCoef_canBeStored hr]) h
  · rcases hr with rfl | hr
    · exact absurd (by simp [anyIs, fixedCoef_canBeStored hl]) h
    · exact ⟨hl', hr⟩

theorem compileAdd_fixed (args : List Expr)
    (ha : ∀ a ∈ args, ∀ c, compile n L U a = some c → FixedCoef c.1) :
    ∀ c, compileAdd n L U args = some c → FixedCoef c.1 := by
  induction args with
  | nil => intro c hc; rw [compileAdd] at hc; cases hc
  | cons a as ih =>
    intro c hc
    rcases as with _ | ⟨b, bs⟩
    · rw [compileAdd] at hc
      exact ha a (by simp) c hc
    · rw [compileAdd.eq_def] at hc
      simp only [Option.bind_eq_bind, Option.bind_eq_some_iff, Prod.exists] at hc
      obtain ⟨a', p, h1, r', q, h2, e, h3, hc⟩ := hc
      have hA := ha a (by simp) _ h1
      have hR := ih (fun x hx => ha x (by simp [hx])) _ h2
      split at hc
      · rw [storeValue_eq hc]; exact .inl rfl
      · next hs =>
        obtain ⟨e1, e2⟩ := anyIs_fixed hA hR hs
        cases hc
        exact .inr ((fixed_simp n).add _ _ e1 e2 e h3)

theorem compileMul_fixed (args : List Expr)
    (ha : ∀ a ∈ args, ∀ c, compile n L U a = some c → FixedCoef c.1) :
    ∀ c, compileMul n L U args = some c → FixedCoef c.1 := by
  induction args with
  | nil => intro c hc; rw [compileMul] at hc; cases hc
  | cons a as ih =>
    intro c hc
    rcases as with _ | ⟨b, bs⟩
    · rw [compileMul] at hc
      exact ha a (by simp) c hc
    · rw [compileMul.eq_def] at hc
      simp only [Option.bind_eq_bind, Option.bind_eq_some_iff, Prod.exists] at hc
      obtain ⟨a', p, h1, r', q, h2, e, h3, hc⟩ := hc
      have hA := ha a (by simp) _ h1
      have hR := ih (fun x hx => ha x (by simp [hx])) _ h2
      split at hc
      · rw [storeValue_eq hc]; exact .inl rfl
      · next hs =>
        obtain ⟨e1, e2⟩ := anyIs_fixed hA hR hs
        cases hc
        exact .inr ((fixed_simp n).mul _ _ e1 e2 e h3)

theorem compile_fixed {e : Expr} (hb : Built e) : Frac L U e → ∀ c, compile n L U e = some c → FixedCoef c.1 := by
  induction hb with
  | fn name args hargs hadd hmul hpow ih =>
    intro h c hc
    obtain ⟨hn, ha, hE⟩ := over_fn.1 h
    have ih' : ∀ a ∈ args, ∀ c, compile n L U a = some c → FixedCoef c.1 := fun a h => ih a h (ha a h)
    rcases hn with rfl | rfl | rfl
    · exact compileAdd_fixed args ih' c hc
    · exact compileMul_fixed args ih' c hc
    · obtain ⟨l, r, rfl, -⟩ := hpow rfl
      obtain ⟨v, rfl⟩ := hE rfl l r rfl
      change (do
        let (l', p) ← compile n L U l
        let (r', q) ← compile n L U (.const v)
        let e ← simp n .pow l' r'
        if anyIs .stored l' r' then storeValue L U (.fn .power [l, .const v])
        else some (e, p ++ q)) = some c at hc
      simp only [Option.bind_eq_bind, Option.bind_eq_some_iff, Prod.exists] at hc
      obtain ⟨l', p, h1, r', q, h2, e, h3, hc⟩ := hc
      have hA := ih' l (by simp) _ h1
      cases h2
      split at hc
      · rw [storeValue_eq hc]; exact .inl rfl
      · next hs =>
        obtain ⟨e1, -⟩ := anyIs_fixed hA (.inr (fixed_const v)) hs
        cases hc
        exact .inr ((fixed_simp n).pow _ _ e1 (fixed_const v) ⟨v, rfl⟩ e h3)
  | const v =>
    intro _ c hc
    cases hc
    exact .inr (fixed_const v)
  | value t i =>
    intro h c hc
    rcases frac_leaf h (by simp) with ⟨_, h⟩ | ⟨t', i', h1, h2, e⟩
    · simp at h
    · cases e
      change (if L ≤ t ∧ t ≤ U then storeValue L U (.value t i) else some (.value t i, [])) = _ at hc
      rw [if_pos ⟨h1, h2⟩] at hc
      rw [storeValue_eq hc]
      exact .inl rfl
  | _ =>
    intro h
    rcases frac_leaf h (by simp) with ⟨v, e⟩ | ⟨t, i, h1, h2, e⟩ <;> cases e

/-- A canonical sum of stored and constant coefficients. -/
def FixedC (s : CSum) : Prop := Canonical s ∧ ∀ c ∈ s, FixedCoef c.coef

theorem compileC_fixed {B : Nat} (s : CSum) : ∀ (s' : CSum) (p : List Instr), Within (Frac (B + 1) U) s →
    (∀ c ∈ s, Built c.coef) → compileC n (B + 1) U s = some (s', p) →
    ∀ d ∈ s', FixedCoef d.coef := by
  induction s with
  | nil => intro s' p h; exact absurd rfl h.1.1
  | cons c cs ih =>
    intro s' p hs hb h
    have hst : ∀ c' ∈ c :: cs, Staged n B U c' := fun c' h' =>
      ⟨canonical_known hs.1 c' h', fun d hd =>
        (compile_out (frac_evaluable (hb c' h') (hs.2 c' h')) d hd).coef⟩
    have hplain : ∀ c' p, compileComp n (B + 1) U c = some (c', p) → FixedCoef c'.coef := by
      intro c' p h
      obtain ⟨b, eb, hbx⟩ := canonical_known hs.1 c (by simp)
      unfold compileComp at h
      simp only [Option.bind_eq_bind, Option.bind_eq_some_iff, Prod.exists, eb, compileBlade,
        Option.some.injEq, Prod.mk.injEq] at h
      obtain ⟨x, p', h1, b', q, ⟨rfl, rfl⟩, h2, h3⟩ := h
      obtain ⟨k1, k2, k3⟩ := mkComp_known (c := x) (d := c) ⟨b, eb, hbx⟩
      rw [eb] at k2
      rw [← h2, k2]
      exact compile_fixed (hb c (by simp)) (hs.2 c (by simp)) _ h1
    rcases cs with _ | ⟨d, ds⟩
    · simp only [compileC, Option.bind_eq_bind, Option.bind_eq_some_iff, Prod.exists,
        Option.some.injEq, Prod.mk.injEq] at h
      obtain ⟨c', p', h1, rfl, rfl⟩ := h
      simpa using hplain c' _ h1
    · rw [compileC.eq_def] at h
      simp only [Option.bind_eq_bind, Option.bind_eq_some_iff, Prod.exists,
        Option.some.injEq, Prod.mk.injEq] at h
      obtain ⟨c', p', h1, u, q, h2, s'', h3, rfl, rfl⟩ := h
      have hc' := hplain c' _ h1
      have hu := ih u q (within_rest hs (by simp)) (fun x hx => hb x (by simp at hx ⊢; tauto)) h2
      obtain ⟨k1, ho, k2, k3⟩ := compileComp_known (hst c (by simp)) h1
      obtain ⟨hp1, hp2⟩ := List.pairwise_cons.1 (canonical_iff.1 hs.1).2.2.1
      obtain ⟨⟨hcu, hbu, hwu⟩, -⟩ := compileC_out (d :: ds) u q (by simp)
        (fun x hx => hst x (by simp at hx ⊢; tauto)) hp2 h2
      have hcond : IsZero u ∨ c'.coef = .const 0 ∨ ∀ x ∈ u, BeforeC c' x := by
        by_cases h0 : c'.coef = .const 0
        · exact .inr (.inl h0)
        · rcases hbu with hz | hbu
          · exact .inl hz
          · refine .inr (.inr fun x hx => ?_)
            obtain ⟨y, hy, e⟩ := hbu x hx
            exact beforeC_congr_left (beforeC_congr_right (hp1 y hy) e) (k2 h0)
      obtain ⟨hce, hf, hcase⟩ := addC_front_eq k1 hcu hcond h3
      rcases hcase with ⟨-, -, rfl⟩ | ⟨-, -, rfl⟩ | ⟨-, -, rfl⟩ | ⟨-, -, rfl⟩
      · simpa using hc'
      · exact hu
      · simpa using hc'
      · intro x hx
        rcases List.mem_cons.1 hx with rfl | hx
        · exact hc'
        · exact hu x hx

/-! ## The arguments -/

section
variable {Q : Expr → Prop} (hc : ∀ e, Fixed e → Q e)
include hc

theorem tag_fixed {T v b : Nat} {e : Expr} (hv : ∀ i, Q (.value T i)) (h : FixedCoef e) :
    Q (tag T v b e) ∧ (tag T v b e = .const 0 ↔ e = .const 0) := by
  rcases h with rfl | h
  · exact ⟨hv v, by simp [tag]⟩
  · rw [tag_symbolic T v b e (fixed_stored h)]
    exact ⟨hc e h, Iff.rfl⟩

theorem tagC_fixed {T : Nat} (hv : ∀ i, Q (.value T i))
    (s : CSum) : ∀ (v b : Nat) (a : CSum), (∀ c ∈ s, Known c) → (∀ c ∈ s, FixedCoef c.coef) →
      tagC T v b s = some a → (∀ d ∈ a, Known d ∧ Q d.coef) ∧
      List.Forall₂ (fun c d => (d.coef = .const 0 ↔ c.coef = .const 0) ∧
        (c.coef ≠ .const 0 → d.blade = c.blade)) s a := by
  induction s with
  | nil =>
    intro v b a _ _ h
    simp only [tagC, Option.some.injEq] at h
    subst h
    exact ⟨by simp, .nil⟩
  | cons c cs ih =>
    intro v b a hk hp h
    simp only [tagC, Option.bind_eq_bind, Option.bind_eq_some_iff, Option.some.injEq] at h
    obtain ⟨bl, h1, rest, h2, rfl⟩ := h
    obtain ⟨w, ew, hw⟩ := id (hk c (by simp))
    rw [ew] at h1
    simp only [Blade.tag, Option.some.injEq] at h1
    subst h1
    obtain ⟨i1, i2⟩ := ih _ _ rest (fun c hc => hk c (by simp [hc])) (fun c hc => hp c (by simp [hc])) h2
    obtain ⟨t1, t2⟩ := tag_fixed hc (v := v) (b := b) hv (hp c (by simp))
    obtain ⟨k1, k2, k3⟩ := mkComp_known (c := tag T v b c.coef) (hk c (by simp))
    rw [ew] at k1 k2 k3
    refine ⟨?_, .cons ⟨by rw [k2]; exact t2, fun h0 => by rw [ew]; exact k3 (by rwa [ne_eq, t2])⟩ i2⟩
    intro d hd
    rcases List.mem_cons.1 hd with rfl | hd
    · exact ⟨k1, by rw [k2]; exact t1⟩
    · exact i1 d hd

theorem tagC_within' {T : Nat} (hv : ∀ i, Q (.value T i))
    {s a : CSum} {v b : Nat} (hs : FixedC s) (h : tagC T v b s = some a) : Within Q a := by
  obtain ⟨hne, hk, hp, hz⟩ := canonical_iff.1 hs.1
  obtain ⟨h1, h2⟩ := tagC_fixed hc hv s v b a hk hs.2 h
  refine ⟨?_, fun d hd => (h1 d hd).2⟩
  rcases hz with ⟨c, rfl, h0⟩ | hz
  · obtain ⟨d, e1, -, e2, rfl⟩ := List.forall₂_cons_left_iff.1 h2
    cases e2
    exact canonical_single (h1 d (by simp)).1
  · have h3 : List.Forall₂ (fun c d : Comp => d.blade = c.blade ∧ d.coef ≠ .const 0) s a := by
      clear h h1 hk hp hne hs
      induction h2 with
      | nil => exact .nil
      | cons h hs ih =>
        exact .cons ⟨h.2 (hz _ (by simp)), fun e => hz _ (by simp) (h.1.1 e)⟩
          (ih fun c hc => hz c (by simp [hc]))
    refine canonical_iff.2 ⟨?_, fun d hd => (h1 d hd).1, pairwise_tag (h3.imp fun _ _ h => h.1) hp, .inr ?_⟩
    · rintro rfl
      cases h3
      exact hne rfl
    · clear h1 h2 h hk hp hne hs hz
      induction h3 with
      | nil => simp
      | cons h _ ih =>
        intro d hd
        rcases List.mem_cons.1 hd with rfl | hd
        · exact h.2
        · exact ih d hd

theorem fixed_within {s : CSum} (hs : FixedC s) (h : hasStoredC s = false) : Within Q s := by
  refine ⟨hs.1, fun c hc' => ?_⟩
  rcases hs.2 c hc' with h0 | h0
  · simp only [hasStoredC, List.any_eq_false, Bool.or_eq_true, not_or, Bool.not_eq_true] at h
    have := (h c hc').1
    rw [h0] at this
    simp [hasStored] at this
  · exact hc _ h0

theorem arguments_within' {base : Nat} :
    ∀ (Ms pre : List Object) (as : List CSum), (∀ M ∈ Ms, FixedC M.expr) →
      (∀ t i, base < t → t ≤ base + (pre ++ storedInputs Ms).length → Q (.value t i)) →
      arguments (base + pre.length) Ms = some as → ∀ a ∈ as, Within Q a
  | [], pre, as, _, _, h => by
    simp only [arguments, Option.some.injEq] at h
    subst h
    simp
  | M :: Ms, pre, as, hp, hv, h => by
    unfold arguments at h
    by_cases hst : hasStoredC M.expr = true
    · rw [if_pos hst] at h
      simp only [Option.bind_eq_bind, Option.bind_eq_some_iff, Option.some.injEq] at h
      obtain ⟨a, h1, as', h2, rfl⟩ := h
      have hsi : storedInputs (M :: Ms) = M :: storedInputs Ms := by simp [storedInputs, hst]
      rw [hsi] at hv
      have ih := arguments_within' Ms (pre ++ [M]) as' (fun M' h => hp M' (by simp [h]))
        (by rw [List.append_assoc, List.singleton_append]; exact hv)
        (by rw [List.length_append, List.length_singleton, ← add_assoc]; exact h2)
      intro x hx
      rcases List.mem_cons.1 hx with rfl | hx
      · refine tagC_within' hc (fun i => hv _ i (by omega) ?_) (hp M (by simp)) h1
        simp only [List.length_append, List.length_cons]
        omega
      · exact ih x hx
    · rw [if_neg hst] at h
      simp only [Option.bind_eq_bind, Option.bind_eq_some_iff, Option.some.injEq] at h
      obtain ⟨as', h2, rfl⟩ := h
      have hsi : storedInputs (M :: Ms) = storedInputs Ms := by simp [storedInputs, hst]
      rw [hsi] at hv
      intro x hx
      rcases List.mem_cons.1 hx with rfl | hx
      · exact fixed_within hc (hp M (by simp)) (by simpa using hst)
      · exact arguments_within' Ms pre as' (fun M' h => hp M' (by simp [h])) hv h2 x hx

end

/-! ## Evaluation in a context -/

/-- The invariant of evaluated objects. -/
def Stored (outer : Env) (N : Nat) (M : Object) (A : MV ℝ) : Prop :=
  FixedC M.expr ∧ Reads outer N M.expr M.values M.bitsets A

theorem built_of_reads {s : CSum} {vs : List ℝ} {ws : List Word} {A : MV ℝ} (h : Reads ρ N s vs ws A) :
    ∀ c ∈ s, c.coef = .stored ∨ Built c.coef := by
  induction h with
  | nil => simp
  | cons hc hb hw hs ih =>
    intro d hd
    rcases List.mem_cons.1 hd with rfl | hd
    · cases hc with
      | stored x => exact .inl rfl
      | symbolic c x h1 h2 h3 => exact .inr h2
    · exact ih d hd

theorem stands_iff {M : Object} {A : MV ℝ} : Stands outer N M A ↔ Stored outer N M A := by
  constructor
  · rintro ⟨⟨h1, h2⟩, h3⟩
    exact ⟨⟨h1, fun c hc => (h2 c hc).imp id arithmetic_fixed⟩, h3⟩
  · rintro ⟨⟨h1, h2⟩, h3⟩
    refine ⟨⟨h1, fun c hc => ?_⟩, h3⟩
    rcases h2 c hc with h | h
    · exact .inl h
    · rcases built_of_reads h3 c hc with h' | h'
      · exact .inl h'
      · exact .inr (fixed_arithmetic h' h)

theorem reads_lazy {s : CSum} {A : MV ℝ} (hk : ∀ c ∈ s, Known c) (hq : ∀ c ∈ s, hasStored c.coef = false)
    (h : SumDenotes ρ N s A) : Reads ρ N s [] [] A := by
  induction s generalizing A with
  | nil => rw [sumDenotes_nil h]; exact .nil
  | cons c cs ih =>
    obtain ⟨m₁, m₂, h1, h2, rfl⟩ := SumDenotes.cons_iff.1 h
    have := ih (fun c hc => hk c (by simp [hc])) (fun c hc => hq c (by simp [hc])) h2
    obtain ⟨hb, ⟨x, t⟩, ⟨hx, ht⟩, hw, rfl⟩ := SumDenotes.single_iff.1 h1
    obtain ⟨coef, blade⟩ := c
    obtain ⟨b, eb, -⟩ := hk ⟨coef, blade⟩ (by simp)
    have hst := hq ⟨coef, blade⟩ (by simp)
    simp only at eb hst hx ht
    subst eb
    have ht' : t = .const b := ht
    subst ht'
    exact Reads.cons (vs := []) (ws := []) (.symbolic _ _ hst hb.1 hx) (.const b) hw this

theorem contextEval_frac {Ms : List Object} {e e' : CSum} {vs : List ℝ} {ws : List Word} {A : MV ℝ}
    (hw : Within (Frac (baseId Ms + 1) (baseId Ms + (storedInputs Ms).length)) e)
    (hA : SumDenotes (contextEnv outer (baseId Ms) (storedInputs Ms)) N e A)
    (hA' : storedInputs Ms = [] → SumDenotes outer N e A)
    (hI : ∀ c ∈ e, NoIntQuotient (contextTypes τ (baseId Ms) (storedInputs Ms)) c.coef)
    (h : contextEval k τ outer Ms e = some (e', vs, ws)) :
    FixedC e' ∧ Reads outer N e' vs ws A := by
  unfold contextEval at h
  simp only at h
  split at h
  · next hs =>
    cases h
    rw [List.isEmpty_iff] at hs
    have hA' := hA' hs
    rw [hs] at hw
    exact ⟨⟨hw.1, fun c hc => .inr (frac_fixed (hw.2 c hc))⟩,
      reads_lazy (canonical_known hw.1) (fun c hc => frac_stored _ (hw.2 c hc)) hA'⟩
  · simp only [Option.bind_eq_bind, Option.bind_eq_some_iff, Prod.exists, Option.some.injEq,
      Prod.mk.injEq] at h
    obtain ⟨s', code, hc, vs', ws', he, rfl, rfl, rfl⟩ := h
    have hb : ∀ c ∈ e, Built c.coef := fun c hc => (hA.1 c hc).1
    have hst : ∀ c ∈ e, Staged k (baseId Ms) (baseId Ms + (storedInputs Ms).length) c := fun c h' =>
      ⟨canonical_known hw.1 c h', fun d hd =>
        (compile_out (frac_evaluable (hb c h') (hw.2 c h')) d hd).coef⟩
    obtain ⟨ho, hr⟩ := compileC_out e s' code hw.1.1 hst (canonical_iff.1 hw.1).2.2.1 hc
    obtain ⟨vs'', h1, h2⟩ := hr (contextTypes τ (baseId Ms) (storedInputs Ms)) _ outer N A
      (fun t ht i => ((context_agree outer _ (storedInputs Ms)) t ht i).imp Eq.symm Eq.symm) hA hI
    rw [he] at h1
    cases h1
    exact ⟨⟨ho.canonical, compileC_fixed e s' code hw hb hc⟩, h2⟩

/-! ## Inverses -/

theorem sp_reverse {P Q R : Nat} (A : MV ℝ) :
    signedProd P Q R .sp A (reverse A) = Finsupp.single 0 (rnormSqr (signedProd P Q R) A) := by
  rw [rnormSqr]
  unfold signedProd
  rw [Iso.sp_scalar]
  simp [scalar]

section
variable {P Q R : Nat}

theorem normSqr_deferred (hN : P + Q + R ≤ 62) {F : Expr → Prop} (hc : ∀ v, F (.const v)) (hE : ExpClosed F)
    (hF : ∀ e, F e → hasStored e = false) {M o : Object} {A : MV ℝ} (hM : Deferred ρ (P + Q + R) F M A)
    (h : normSqrObject P Q R k τ outer M = some o) :
    Deferred ρ (P + Q + R) F o (Finsupp.single 0 (rnormSqr (signedProd P Q R) A)) := by
  have hs : hasStoredC M.expr = false := within_stored hF hM.1
  have hl : ∀ Y ∈ [M], hasStoredC Y.expr = false := by simpa using hs
  unfold normSqrObject Program.runLazy at h
  rw [arguments_lazy _ hl] at h
  simp only [List.map_cons, List.map_nil, Option.bind_eq_bind, Option.bind_some, List.zipWith_cons_cons,
    List.zipWith_nil_right, Program.run, List.getElem?_cons_zero, Option.bind_eq_some_iff] at h
  obtain ⟨s, ⟨r, hr, hs'⟩, h⟩ := h
  have hX : Deferred ρ (P + Q + R) F (lazyObject M.floats M.expr) A := ⟨hM.1, hM.2.1, rfl, rfl⟩
  have h1 := call1_deferred hc hE hF (good_reverse (by omega)) hX hr
  have h2 := call2_deferred hc hE hF (good_graded hN .sp) hX h1 hs'
  rw [sp_reverse] at h2
  simp only [contextObject, contextEval_lazy hl, Option.bind_eq_bind, Option.bind_some, Option.some.injEq] at h
  subst h
  exact ⟨h2.1, h2.2.1, rfl, rfl⟩

theorem inverse_deferred (hN : P + Q + R ≤ 62) {M o : Object} {A : MV ℝ}
    (hM : Deferred ρ (P + Q + R) (Frac L U) M A) (h0 : rnormSqr (signedProd P Q R) A ≠ 0)
    (h : inverse P Q R k τ outer M = some o) :
    Deferred ρ (P + Q + R) (Frac L U) o ((rnormSqr (signedProd P Q R) A)⁻¹ • reverse A) := by
  have hs : hasStoredC M.expr = false := within_stored frac_stored hM.1
  have hl : ∀ Y ∈ [M], hasStoredC Y.expr = false := by simpa using hs
  unfold inverse at h
  rw [arguments_lazy _ hl] at h
  simp only [List.map_cons, List.map_nil, Option.bind_eq_bind, Option.bind_some, Option.bind_eq_some_iff] at h
  obtain ⟨nn, hnn, q, hq, rv, hrv, r, hr, h⟩ := h
  simp only [contextObject, contextEval_lazy hl, Option.bind_eq_bind, Option.bind_some, Option.some.injEq] at h
  subst h
  have hX : Deferred ρ (P + Q + R) (Frac L U) (lazyObject M.floats M.expr) A := ⟨hM.1, hM.2.1, rfl, rfl⟩
  have h1 := normSqr_deferred hN frac_const frac_closed frac_stored hX hnn
  have h2 := call1_deferred frac_const frac_closed frac_stored (good_reverse (by omega)) hX hrv
  generalize hx : rnormSqr (signedProd P Q R) A = x at *
  -- the power
  obtain ⟨e, he, eq⟩ := call2_lazy_inv (within_stored frac_stored h1.1) (by rfl) hq
  simp only [constObject, constSum, scalarCoef_single, Option.bind_eq_bind, Option.bind_some,
    Option.bind_eq_some_iff, Option.some.injEq] at he
  obtain ⟨s, hsc, z, hz, rfl⟩ := he
  have es := scalarCoef_inv hsc
  obtain ⟨w1, d1, -, -⟩ := h1
  rw [es] at w1 d1
  have hm : (⟨s, .const 0⟩ : Comp) ∈ ([⟨s, .const 0⟩] : CSum) := List.mem_singleton.2 rfl
  have vs : V ρ s x := ⟨(d1.1 _ hm).1, single_denotes_inv d1⟩
  have fs : Frac L U s := w1.2 _ hm
  have vz : V ρ z (x ^ ((-1 : ℤ) : ℝ)) := by
    refine (simp_sound ρ k).pow _ _ _ _ _ vs (V.const (-1)) ?_ (.inl ⟨-1, rfl⟩) hz
    rcases lt_trichotomy x 0 with h | h | h
    · exact .inr (.inr ⟨h, -1, rfl⟩)
    · exact absurd h h0
    · exact .inl h
  have fz : Frac L U z := (frac_simp k).pow _ _ fs (frac_const _) ⟨-1, rfl⟩ z hz
  have ex : x ^ ((-1 : ℤ) : ℝ) = x⁻¹ := by
    rw [Real.rpow_intCast]; simp
  rw [ex] at vz
  have dz : SumDenotes ρ (P + Q + R) [⟨z, .const 0⟩] (Finsupp.single 0 x⁻¹) := single_denotes vz.1 vz.2
  have wz : Within (Frac L U) [⟨z, .const 0⟩] :=
    ⟨canonical_single ⟨0, rfl, by simp [vecs]⟩, fun c hc => by rw [List.mem_singleton.1 hc]; exact fz⟩
  -- the product
  obtain ⟨e, he, er⟩ := call2_lazy_inv (within_stored frac_stored h2.1) (by rw [eq]; exact within_stored frac_stored wz) hr
  rw [eq] at he
  refine ⟨?_, ?_, rfl, rfl⟩
  · show Within _ r.expr
    rw [er]
    exact within_mul frac_const frac_closed
      (orthMapping_const le_rfl (f := mkRealFactor) (fun b => ⟨1, rfl⟩) .gp) k _ _ _ h2.1 wz he
  · show SumDenotes _ _ r.expr _
    rw [er]
    have key := Props.C23_scalar_operand ρ (P + Q + R) 0 0 (by omega) .gp k _ _ e _ _
      (.inr ⟨_, rfl⟩) h2.2.1 dz he
    unfold signedProd at key
    rw [signedFactor_cast (P + Q + R) 0 0 (by omega)] at key
    rwa [show orthProd _ .gp (reverse A) (Finsupp.single 0 x⁻¹) = x⁻¹ • reverse A from
      gp_scalar_right _ x⁻¹ (reverse A)] at key

/-! ## Programs -/

theorem rational_deferred (hN : P + Q + R ≤ 62) (t : Rational) :
    ∀ (Ms : List Object) (As : List (MV ℝ)) (o : Object) (B : MV ℝ),
      List.Forall₂ (Deferred ρ (P + Q + R) (Frac L U)) Ms As → t.value P Q R As = some B →
      t.run P Q R k τ outer Ms = some o → Deferred ρ (P + Q + R) (Frac L U) o B := by
  have step : ∀ (s : Program) (Ms : List Object) (As : List (MV ℝ)) (o : Object),
      List.Forall₂ (Deferred ρ (P + Q + R) (Frac L U)) Ms As → s.run P Q R k τ outer Ms = some o →
      Deferred ρ (P + Q + R) (Frac L U) o (s.value P Q R As) := fun s Ms As o hI h =>
    run_keeps hN (fun _ _ _ _ _ hf hM h => call1_deferred frac_const frac_closed frac_stored hf hM h)
      (fun _ _ _ _ _ _ _ hf hM hM' h => call2_deferred frac_const frac_closed frac_stored hf hM hM' h)
      (deferred_const frac_const) hI s o h
  have snoc : ∀ {Ms : List Object} {As : List (MV ℝ)} {M : Object} {A : MV ℝ},
      List.Forall₂ (Deferred ρ (P + Q + R) (Frac L U)) Ms As → Deferred ρ (P + Q + R) (Frac L U) M A →
      List.Forall₂ (Deferred ρ (P + Q + R) (Frac L U)) (Ms ++ [M]) (As ++ [A]) :=
    fun h1 h2 => List.rel_append h1 (.cons h2 .nil)
  induction t with
  | ret t =>
    intro Ms As o B hI hv h
    simp only [Rational.value, Option.some.injEq] at hv
    subst hv
    exact step t Ms As o hI h
  | bind t rest ih =>
    intro Ms As o B hI hv h
    simp only [Rational.value] at hv
    simp only [Rational.run, Option.bind_eq_bind, Option.bind_eq_some_iff] at h
    obtain ⟨x, hx, h⟩ := h
    exact ih _ _ o B (snoc hI (step t Ms As x hI hx)) hv h
  | inv t rest ih =>
    intro Ms As o B hI hv h
    simp only [Rational.value] at hv
    simp only [Rational.run, Option.bind_eq_bind, Option.bind_eq_some_iff] at h
    obtain ⟨x, hx, y, hy, h⟩ := h
    split_ifs at hv with h0
    exact ih _ _ o B (snoc hI (inverse_deferred hN (step t Ms As x hI hx) h0 hy)) hv h

theorem rational_stands (hN : P + Q + R ≤ 62) {Ms : List Object} {As : List (MV ℝ)}
    (hI : List.Forall₂ (Stands outer (P + Q + R)) Ms As) (t : Rational) {o : Object} {B : MV ℝ}
    (hv : t.value P Q R As = some B) (hq : NoIntegerDivision P Q R k τ outer Ms t)
    (h : t.runLazy P Q R k τ outer Ms = some o) : Stands outer (P + Q + R) o B := by
  replace hI := hI.imp fun _ _ h => stands_iff.1 h
  simp only [Rational.runLazy, Option.bind_eq_bind, Option.bind_eq_some_iff] at h
  obtain ⟨e, he, h⟩ := h
  have hq' := hq e he
  simp only [Rational.lazyType, Option.bind_eq_bind, Option.bind_eq_some_iff, Option.some.injEq] at he
  obtain ⟨as, h1, r, hr, rfl⟩ := he
  have hp : ∀ M ∈ Ms, FixedC M.expr := by
    intro M hM
    clear h h1 hr hq hq' hv
    induction hI with
    | nil => simp at hM
    | cons h _ ih =>
      rcases List.mem_cons.1 hM with rfl | hM
      · exact h.1
      · exact ih hM
  have hw := arguments_within' (Q := Frac (baseId Ms + 1) (baseId Ms + (storedInputs Ms).length)) (base := baseId Ms)
    (fun _ h => fixed_frac h) Ms [] as hp (fun t i h1 h2 => .inr ⟨t, i, h1, by simpa using h2, rfl⟩) h1
  have hlen := arguments_length _ _ _ h1
  have key : ∀ ρ : Env, List.Forall₂ (SumDenotes ρ (P + Q + R)) as As →
      Deferred ρ (P + Q + R) (Frac (baseId Ms + 1) (baseId Ms + (storedInputs Ms).length)) r B := by
    intro ρ hd
    refine rational_deferred hN t _ As r B ?_ hv hr
    refine forall₂_zip (J := fun a A => Within (Frac (baseId Ms + 1) (baseId Ms + (storedInputs Ms).length)) a ∧
      SumDenotes ρ (P + Q + R) a A) (fun M a A h => ⟨h.1, h.2, rfl, rfl⟩) Ms as As ?_ hlen
    clear hr h h1 hlen hI hq hq' hv
    induction hd with
    | nil => exact .nil
    | cons h _ ih => exact .cons ⟨hw _ (by simp), h⟩ (ih fun a ha => hw a (by simp [ha]))
  have hd := arguments_reads (N := P + Q + R) (outer := outer) (by omega) (base := baseId Ms) Ms [] as As h1
    (le_baseId (Ms := Ms)) (hI.imp fun _ _ h => h.2)
  rw [List.nil_append] at hd
  have hk := key _ hd
  refine stands_iff.2 (contextEval_frac hk.1 hk.2.1 ?_ hq' (contextObject_eval h))
  intro hst
  have hno : ∀ M ∈ Ms, hasStoredC M.expr = false := by
    simpa [storedInputs] using hst
  rw [arguments_lazy Ms hno] at h1
  cases h1
  refine (key outer ?_).2.1
  rw [List.forall₂_map_left_iff]
  have : ∀ (Ns : List Object) (Bs : List (MV ℝ)), (∀ M ∈ Ns, hasStoredC M.expr = false) →
      List.Forall₂ (Stored outer (P + Q + R)) Ns Bs →
      List.Forall₂ (fun M A => SumDenotes outer (P + Q + R) M.expr A) Ns Bs := by
    intro Ns Bs hn hI
    induction hI with
    | nil => exact .nil
    | cons h _ ih =>
      exact .cons (reads_symbolic (B := _) (fun t _ i => ⟨rfl, rfl⟩) h.2 le_rfl (hn _ (by simp)))
        (ih fun M hM => hn M (by simp [hM]))
  exact this Ms As hno hI

end

end GATL
