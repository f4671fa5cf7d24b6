import Verif.Proofs.LazyTree
import Verif.Props.Components

/-!
# Programs run eagerly and lazily
-/

namespace GATL

open Expr Spec

variable {n L U N k : Nat} {ρ ρ' outer : Env} {τ : Types}

/-! ## Polynomials -/

/-- Integer literals and variables with tags from `L` to `U`. -/
def Leaf (L U : Nat) (e : Expr) : Prop := IsConst e ∨ ∃ t i, L ≤ t ∧ t ≤ U ∧ e = .value t i
/-- Sums, products and powers. -/
def Alg (name : Name) : Prop := name = .add ∨ name = .mul ∨ name = .power

theorem poly_voc : Voc (Leaf L U) Alg IsPos where
  const v := .inl ⟨v, rfl⟩
  add := .inl rfl
  mul := .inr (.inl rfl)
  power := .inr (.inr rfl)
  econst v hv := ⟨v, hv, rfl⟩
  eneg v hv h := by
    obtain ⟨k, hk, e⟩ := h
    cases e
    omega

/-- A polynomial. -/
abbrev Poly (L U : Nat) : Expr → Prop := Over (Leaf L U) Alg IsPos
/-- A canonical sum with polynomial coefficients. -/
abbrev PolyC (L U : Nat) : CSum → Prop := Within (Poly L U)

theorem poly_const (v : Int) : Poly L U (.const v) := over_const poly_voc v

theorem poly_closed : ExpClosed (Poly L U) := fun n l r hl hr =>
  ⟨(simp_over poly_voc expClosed_pos n).add l r hl hr,
    (simp_over poly_voc expClosed_pos n).mul l r hl hr⟩

theorem poly_leaf {e : Expr} (h : Poly L U e) (hf : ∀ name args, e ≠ .fn name args) : Leaf L U e := by
  cases e with
  | fn name args => exact absurd rfl (hf name args)
  | _ => exact h

theorem poly_evaluable {e : Expr} (hb : Built e) : Poly L U e → Evaluable L U .num e := by
  induction hb with
  | fn name args hargs hadd hmul hpow ih =>
    intro h
    obtain ⟨hn, ha, hE⟩ := over_fn.1 h
    rcases hn with rfl | rfl | rfl
    · exact .add _ (hadd rfl) fun a h => ih a h (ha a h)
    · exact .mul _ (hmul rfl) fun a h => ih a h (ha a h)
    · obtain ⟨l, r, rfl, -⟩ := hpow rfl
      obtain ⟨v, hv, rfl⟩ := hE rfl l r rfl
      exact .power _ _ (ih l (by simp) (ha l (by simp))) (.const v) (.inr (.inr (.inr ⟨v, rfl⟩)))
  | _ =>
    intro h
    rcases poly_leaf h (by simp) with ⟨v, e⟩ | ⟨t, i, h1, h2, e⟩ <;> cases e <;>
      first
      | exact .const _
      | exact .value _ _ h1 h2

mutual
theorem poly_noInt : ∀ e : Expr, Poly L U e → NoIntQuotient τ e
  | .fn name args, h => by
    obtain ⟨hn, ha, hE⟩ := over_fn.1 h
    have hall := poly_noIntAll args ha
    rcases hn with rfl | rfl | rfl
    · rw [NoIntQuotient]; exact hall; simp
    · rw [NoIntQuotient]
      refine ⟨hall, ?_⟩
      rintro pre l r rfl
      have := ha (powerOf r (.const (-1))) (by simp)
      obtain ⟨v, hv, e⟩ := (over_fn.1 this).2.2 rfl _ _ rfl
      cases e
      omega
    · rw [NoIntQuotient]; exact hall; simp
  | .const _, _ => by rw [NoIntQuotient]; trivial; simp; simp
  | .cbits _, _ => by rw [NoIntQuotient]; trivial; simp; simp
  | .cbool _, _ => by rw [NoIntQuotient]; trivial; simp; simp
  | .stored, _ => by rw [NoIntQuotient]; trivial; simp; simp
  | .storedMap, _ => by rw [NoIntQuotient]; trivial; simp; simp
  | .storedBits, _ => by rw [NoIntQuotient]; trivial; simp; simp
  | .storedMapBits, _ => by rw [NoIntQuotient]; trivial; simp; simp
  | .value _ _, _ => by rw [NoIntQuotient]; trivial; simp; simp
  | .mapValues _ _, _ => by rw [NoIntQuotient]; trivial; simp; simp
  | .bitset _ _, _ => by rw [NoIntQuotient]; trivial; simp; simp
  | .mapBitsets _ _, _ => by rw [NoIntQuotient]; trivial; simp; simp
theorem poly_noIntAll : ∀ args : List Expr, (∀ a ∈ args, Poly L U a) → NoIntQuotientAll τ args
  | [], _ => by rw [NoIntQuotientAll]; trivial
  | a :: as, h => by
    rw [NoIntQuotientAll]
    exact ⟨poly_noInt a (h a (by simp)), poly_noIntAll as fun b hb => h b (by simp [hb])⟩
end

mutual
theorem poly_stored : ∀ e : Expr, Poly L U e → hasStored e = false
  | .fn name args, h => by
    rw [hasStored]
    exact poly_storedAny args (over_fn.1 h).2.1
  | .const _, _ => rfl
  | .cbits _, _ => rfl
  | .cbool _, _ => rfl
  | .value _ _, _ => rfl
  | .mapValues _ _, _ => rfl
  | .bitset _ _, _ => rfl
  | .mapBitsets _ _, _ => rfl
  | .stored, h => by rcases poly_leaf h (by simp) with ⟨_, h⟩ | ⟨_, _, _, _, h⟩ <;> simp at h
  | .storedMap, h => by rcases poly_leaf h (by simp) with ⟨_, h⟩ | ⟨_, _, _, _, h⟩ <;> simp at h
  | .storedBits, h => by rcases poly_leaf h (by simp) with ⟨_, h⟩ | ⟨_, _, _, _, h⟩ <;> simp at h
  | .storedMapBits, h => by rcases poly_leaf h (by simp) with ⟨_, h⟩ | ⟨_, _, _, _, h⟩ <;> simp at h
theorem poly_storedAny : ∀ args : List Expr, (∀ a ∈ args, Poly L U a) → hasStoredAny args = false
  | [], _ => rfl
  | a :: as, h => by
    rw [hasStoredAny, poly_stored a (h a (by simp)), poly_storedAny as fun b hb => h b (by simp [hb])]
    rfl
end

theorem within_stored {Q : Expr → Prop} (hQ : ∀ e, Q e → hasStored e = false) {s : CSum}
    (h : Within Q s) : hasStoredC s = false := by
  simp only [hasStoredC, List.any_eq_false, Bool.or_eq_true, not_or, Bool.not_eq_true]
  intro c hc
  refine ⟨hQ _ (h.2 c hc), ?_⟩
  obtain ⟨b, e, -⟩ := canonical_known h.1 c hc
  rw [e]; rfl

/-! ## Powers of constants -/

theorem const_pow (n : Nat) (a v : Int) (hv : 0 < v) :
    OAll IsConst (simp n .pow (.const a) (.const v)) := by
  cases n with
  | zero => exact .none
  | succ n =>
    show OAll IsConst (applyRules (powRules (simp n)) (.const a) (.const v))
    unfold powRules
    by_cases h1 : a = 0
    · rw [applyRules_fire (o := some (.const 0)) (by simp [powMisc1, h1, fire, asConst, hv])]
      exact .some (isConst_const 0)
    by_cases h2 : a = 1
    · rw [applyRules_fire (o := some (.const 1)) (by simp [powMisc1, h2, fire])]
      exact .some (isConst_const 1)
    rw [applyRules_skip (by simp [powMisc1, h1, h2])]
    by_cases h3 : v = 1
    · rw [applyRules_fire (o := some (.const a)) (by simp [powMisc2, h3, fire])]
      exact .some (isConst_const a)
    have hv0 : v ≠ 0 := by omega
    rw [applyRules_skip (by simp [powMisc2, h3, hv0])]
    intro e he
    rw [applyRules] at he
    split at he
    · exact absurd he (by simp)
    · next e' hr =>
      cases he
      simp only [powMisc3, asConst, half, recip, powerOf, reduceCtorEq, if_false, hv, if_true,
        Option.bind_eq_bind, Option.bind_eq_some_iff] at hr
      obtain ⟨q, -, p, hp, hr⟩ := hr
      simp only [simplerIpow, Option.map_eq_some_iff] at hp
      obtain ⟨w, -, rfl⟩ := hp
      split_ifs at hr <;> cases hr <;> exact ⟨_, rfl⟩
    · next hr =>
      simp only [powMisc3, asConst, half, recip, powerOf, reduceCtorEq, if_false, hv, if_true,
        Option.bind_eq_bind, Option.bind_eq_some_iff] at hr
      obtain ⟨q, -, p, hp, hr⟩ := hr
      split_ifs at hr <;> simp at hr

/-! ## The coefficients of an evaluated polynomial -/

/-- A stored number or an integer literal. -/
def PlainCoef (e : Expr) : Prop := e = .stored ∨ IsConst e

theorem anyIs_stored {l r : Expr} (hl : PlainCoef l) (hr : PlainCoef r)
    (h : ¬ anyIs .stored l r = true) : IsConst l ∧ IsConst r := by
  rcases hl with rfl | ⟨a, rfl⟩ <;> rcases hr with rfl | ⟨b, rfl⟩
  · exact absurd rfl h
  · exact absurd rfl h
  · exact absurd rfl h
  · exact ⟨⟨a, rfl⟩, ⟨b, rfl⟩⟩

theorem compileAdd_plain (args : List Expr)
    (ha : ∀ a ∈ args, ∀ c, compile n L U a = some c → PlainCoef c.1) :
    ∀ c, compileAdd n L U args = some c → PlainCoef c.1 := by
  induction args with
  | nil => intro c hc; rw [compileAdd] at hc; cases hc
  | cons a as ih =>
    intro c hc
    rcases as with _ | ⟨b, bs⟩
    · rw [compileAdd] at hc
      exact ha a (by simp) c hc
    · rw [compileAdd.eq_def] at hc
      simp only [Option.bind_eq_bind, Option.bind_eq_some_iff, Prod.exists] at hc
      obtain ⟨a', p, h1, r', q, h2, e, h3, hc⟩ := hc
      have hA := ha a (by simp) _ h1
      have hR := ih (fun x hx => ha x (by simp [hx])) _ h2
      split at hc
      · rw [storeValue_eq hc]; exact .inl rfl
      · next hs =>
        obtain ⟨⟨x, e1⟩, ⟨y, e2⟩⟩ := anyIs_stored hA hR hs
        simp only at e1 e2
        rw [e1, e2] at h3
        cases hc
        exact .inr ((const_closed n).1 x y e h3)

theorem compileMul_plain (args : List Expr)
    (ha : ∀ a ∈ args, ∀ c, compile n L U a = some c → PlainCoef c.1) :
    ∀ c, compileMul n L U args = some c → PlainCoef c.1 := by
  induction args with
  | nil => intro c hc; rw [compileMul] at hc; cases hc
  | cons a as ih =>
    intro c hc
    rcases as with _ | ⟨b, bs⟩
    · rw [compileMul] at hc
      exact ha a (by simp) c hc
    · rw [compileMul.eq_def] at hc
      simp only [Option.bind_eq_bind, Option.bind_eq_some_iff, Prod.exists] at hc
      obtain ⟨a', p, h1, r', q, h2, e, h3, hc⟩ := hc
      have hA := ha a (by simp) _ h1
      have hR := ih (fun x hx => ha x (by simp [hx])) _ h2
      split at hc
      · rw [storeValue_eq hc]; exact .inl rfl
      · next hs =>
        obtain ⟨⟨x, e1⟩, ⟨y, e2⟩⟩ := anyIs_stored hA hR hs
        simp only at e1 e2
        rw [e1, e2] at h3
        cases hc
        exact .inr ((const_closed n).2.1 x y e h3)

theorem compile_plain {e : Expr} (hb : Built e) : Poly L U e → ∀ c, compile n L U e = some c →
    PlainCoef c.1 := by
  induction hb with
  | fn name args hargs hadd hmul hpow ih =>
    intro h c hc
    obtain ⟨hn, ha, hE⟩ := over_fn.1 h
    have ih' : ∀ a ∈ args, ∀ c, compile n L U a = some c → PlainCoef c.1 :=
      fun a h => ih a h (ha a h)
    rcases hn with rfl | rfl | rfl
    · exact compileAdd_plain args ih' c hc
    · exact compileMul_plain args ih' c hc
    · obtain ⟨l, r, rfl, -⟩ := hpow rfl
      obtain ⟨v, hv, rfl⟩ := hE rfl l r rfl
      change (do
        let (l', p) ← compile n L U l
        let (r', q) ← compile n L U (.const v)
        let e ← simp n .pow l' r'
        if anyIs .stored l' r' then storeValue L U (.fn .power [l, .const v])
        else some (e, p ++ q)) = some c at hc
      simp only [Option.bind_eq_bind, Option.bind_eq_some_iff, Prod.exists] at hc
      obtain ⟨l', p, h1, r', q, h2, e, h3, hc⟩ := hc
      have hA := ih' l (by simp) _ h1
      cases h2
      split at hc
      · rw [storeValue_eq hc]; exact .inl rfl
      · next hs =>
        obtain ⟨⟨x, e1⟩, -⟩ := anyIs_stored hA (.inr ⟨v, rfl⟩) hs
        simp only at e1
        rw [e1] at h3
        cases hc
        exact .inr (const_pow n x v hv e h3)
  | const v =>
    intro _ c hc
    cases hc
    exact .inr ⟨v, rfl⟩
  | value t i =>
    intro h c hc
    rcases poly_leaf h (by simp) with ⟨_, h⟩ | ⟨t', i', h1, h2, e⟩
    · simp at h
    · cases e
      change (if L ≤ t ∧ t ≤ U then storeValue L U (.value t i) else some (.value t i, [])) = _ at hc
      rw [if_pos ⟨h1, h2⟩] at hc
      rw [storeValue_eq hc]
      exact .inl rfl
  | _ =>
    intro h
    rcases poly_leaf h (by simp) with ⟨v, e⟩ | ⟨t, i, h1, h2, e⟩ <;> cases e

/-! ## Objects -/

/-- A canonical sum of stored coefficients and integer literals. -/
def PlainC (s : CSum) : Prop := Canonical s ∧ ∀ c ∈ s, PlainCoef c.coef

theorem compileC_plain {B : Nat} (s : CSum) : ∀ (s' : CSum) (p : List Instr), PolyC (B + 1) U s →
    (∀ c ∈ s, Built c.coef) → compileC n (B + 1) U s = some (s', p) →
    ∀ d ∈ s', PlainCoef d.coef := by
  induction s with
  | nil => intro s' p h; exact absurd rfl h.1.1
  | cons c cs ih =>
    intro s' p hs hb h
    have hst : ∀ c' ∈ c :: cs, Staged n B U c' := fun c' h' =>
      ⟨canonical_known hs.1 c' h', fun d hd =>
        (compile_out (poly_evaluable (hb c' h') (hs.2 c' h')) d hd).coef⟩
    have hplain : ∀ c' p, compileComp n (B + 1) U c = some (c', p) → PlainCoef c'.coef := by
      intro c' p h
      obtain ⟨b, eb, hbx⟩ := canonical_known hs.1 c (by simp)
      unfold compileComp at h
      simp only [Option.bind_eq_bind, Option.bind_eq_some_iff, Prod.exists, eb, compileBlade,
        Option.some.injEq, Prod.mk.injEq] at h
      obtain ⟨x, p', h1, b', q, ⟨rfl, rfl⟩, h2, h3⟩ := h
      obtain ⟨k1, k2, k3⟩ := mkComp_known (c := x) (d := c) ⟨b, eb, hbx⟩
      rw [eb] at k2
      rw [← h2, k2]
      exact compile_plain (hb c (by simp)) (hs.2 c (by simp)) _ h1
    rcases cs with _ | ⟨d, ds⟩
    · simp only [compileC, Option.bind_eq_bind, Option.bind_eq_some_iff, Prod.exists,
        Option.some.injEq, Prod.mk.injEq] at h
      obtain ⟨c', p', h1, rfl, rfl⟩ := h
      simpa using hplain c' _ h1
    · rw [compileC.eq_def] at h
      simp only [Option.bind_eq_bind, Option.bind_eq_some_iff, Prod.exists,
        Option.some.injEq, Prod.mk.injEq] at h
      obtain ⟨c', p', h1, u, q, h2, s'', h3, rfl, rfl⟩ := h
      have hc' := hplain c' _ h1
      have hu := ih u q (within_rest hs (by simp)) (fun x hx => hb x (by simp at hx ⊢; tauto)) h2
      obtain ⟨k1, ho, k2, k3⟩ := compileComp_known (hst c (by simp)) h1
      obtain ⟨hp1, hp2⟩ := List.pairwise_cons.1 (canonical_iff.1 hs.1).2.2.1
      obtain ⟨⟨hcu, hbu, hwu⟩, -⟩ := compileC_out (d :: ds) u q (by simp)
        (fun x hx => hst x (by simp at hx ⊢; tauto)) hp2 h2
      have hcond : IsZero u ∨ c'.coef = .const 0 ∨ ∀ x ∈ u, BeforeC c' x := by
        by_cases h0 : c'.coef = .const 0
        · exact .inr (.inl h0)
        · rcases hbu with hz | hbu
          · exact .inl hz
          · refine .inr (.inr fun x hx => ?_)
            obtain ⟨y, hy, e⟩ := hbu x hx
            exact beforeC_congr_left (beforeC_congr_right (hp1 y hy) e) (k2 h0)
      obtain ⟨hce, hf, hcase⟩ := addC_front_eq k1 hcu hcond h3
      rcases hcase with ⟨-, -, rfl⟩ | ⟨-, -, rfl⟩ | ⟨-, -, rfl⟩ | ⟨-, -, rfl⟩
      · simpa using hc'
      · exact hu
      · simpa using hc'
      · intro x hx
        rcases List.mem_cons.1 hx with rfl | hx
        · exact hc'
        · exact hu x hx

theorem tag_plain {Q : Expr → Prop} {T v b : Nat} {e : Expr} (hc : ∀ v, Q (.const v))
    (hv : ∀ i, Q (.value T i)) (h : PlainCoef e) : Q (tag T v b e) ∧
      (tag T v b e = .const 0 ↔ e = .const 0) := by
  rcases h with rfl | ⟨w, rfl⟩
  · exact ⟨hv v, by simp [tag]⟩
  · exact ⟨hc w, by simp [tag]⟩

/-- The tagged expression of an object. -/
theorem tagC_plain {Q : Expr → Prop} {T : Nat} (hc : ∀ v, Q (.const v)) (hv : ∀ i, Q (.value T i))
    (s : CSum) : ∀ (v b : Nat) (a : CSum), (∀ c ∈ s, Known c) → (∀ c ∈ s, PlainCoef c.coef) →
      tagC T v b s = some a → (∀ d ∈ a, Known d ∧ Q d.coef) ∧
      List.Forall₂ (fun c d => (d.coef = .const 0 ↔ c.coef = .const 0) ∧
        (c.coef ≠ .const 0 → d.blade = c.blade)) s a := by
  induction s with
  | nil =>
    intro v b a _ _ h
    simp only [tagC, Option.some.injEq] at h
    subst h
    exact ⟨by simp, .nil⟩
  | cons c cs ih =>
    intro v b a hk hp h
    simp only [tagC, Option.bind_eq_bind, Option.bind_eq_some_iff, Option.some.injEq] at h
    obtain ⟨bl, h1, rest, h2, rfl⟩ := h
    obtain ⟨w, ew, hw⟩ := id (hk c (by simp))
    rw [ew] at h1
    simp only [Blade.tag, Option.some.injEq] at h1
    subst h1
    obtain ⟨i1, i2⟩ := ih _ _ rest (fun c hc => hk c (by simp [hc])) (fun c hc => hp c (by simp [hc])) h2
    obtain ⟨t1, t2⟩ := tag_plain (v := v) (b := b) hc hv (hp c (by simp))
    obtain ⟨k1, k2, k3⟩ := mkComp_known (c := tag T v b c.coef) (hk c (by simp))
    rw [ew] at k1 k2 k3
    refine ⟨?_, .cons ⟨by rw [k2]; exact t2, fun h0 => by rw [ew]; exact k3 (by rwa [ne_eq, t2])⟩ i2⟩
    intro d hd
    rcases List.mem_cons.1 hd with rfl | hd
    · exact ⟨k1, by rw [k2]; exact t1⟩
    · exact i1 d hd

theorem pairwise_tag {s a : CSum} (h : List.Forall₂ (fun c d : Comp => d.blade = c.blade) s a) :
    s.Pairwise BeforeC → a.Pairwise BeforeC := by
  induction h with
  | nil => intro _; exact .nil
  | @cons x y s a h hs ih =>
    intro hp
    obtain ⟨h1, h2⟩ := List.pairwise_cons.1 hp
    refine List.pairwise_cons.2 ⟨fun d hd => ?_, ih h2⟩
    obtain ⟨c', hc', e⟩ : ∃ c' ∈ s, d.blade = c'.blade := by
      clear ih hp h1 h2
      induction hs with
      | nil => simp at hd
      | cons g gs ih =>
        rcases List.mem_cons.1 hd with rfl | hd
        · exact ⟨_, by simp, g⟩
        · obtain ⟨c', hc', e⟩ := ih hd
          exact ⟨c', by simp [hc'], e⟩
    exact beforeC_congr_left (beforeC_congr_right (h1 c' hc') e) h

theorem tagC_within {Q : Expr → Prop} {T : Nat} (hc : ∀ v, Q (.const v)) (hv : ∀ i, Q (.value T i))
    {s a : CSum} {v b : Nat} (hs : PlainC s) (h : tagC T v b s = some a) : Within Q a := by
  obtain ⟨hne, hk, hp, hz⟩ := canonical_iff.1 hs.1
  obtain ⟨h1, h2⟩ := tagC_plain hc hv s v b a hk hs.2 h
  refine ⟨?_, fun d hd => (h1 d hd).2⟩
  rcases hz with ⟨c, rfl, h0⟩ | hz
  · obtain ⟨d, e1, -, e2, rfl⟩ := List.forall₂_cons_left_iff.1 h2
    cases e2
    exact canonical_single (h1 d (by simp)).1
  · have h3 : List.Forall₂ (fun c d : Comp => d.blade = c.blade ∧ d.coef ≠ .const 0) s a := by
      clear h h1 hk hp hne hs
      induction h2 with
      | nil => exact .nil
      | cons h hs ih =>
        exact .cons ⟨h.2 (hz _ (by simp)), fun e => hz _ (by simp) (h.1.1 e)⟩
          (ih fun c hc => hz c (by simp [hc]))
    refine canonical_iff.2 ⟨?_, fun d hd => (h1 d hd).1, pairwise_tag (h3.imp fun _ _ h => h.1) hp, .inr ?_⟩
    · rintro rfl
      cases h3
      exact hne rfl
    · clear h1 h2 h hk hp hne hs hz
      induction h3 with
      | nil => simp
      | cons h _ ih =>
        intro d hd
        rcases List.mem_cons.1 hd with rfl | hd
        · exact h.2
        · exact ih d hd

theorem plain_within {Q : Expr → Prop} (hc : ∀ v, Q (.const v)) {s : CSum} (hs : PlainC s)
    (h : hasStoredC s = false) : Within Q s := by
  refine ⟨hs.1, fun c hc' => ?_⟩
  rcases hs.2 c hc' with h0 | ⟨v, h0⟩
  · simp only [hasStoredC, List.any_eq_false, Bool.or_eq_true, not_or, Bool.not_eq_true] at h
    have := (h c hc').1
    rw [h0] at this
    simp [hasStored] at this
  · rw [h0]; exact hc v

theorem arguments_within {Q : Expr → Prop} {base : Nat} (hc : ∀ v, Q (.const v)) :
    ∀ (Ms pre : List Object) (as : List CSum), (∀ M ∈ Ms, PlainC M.expr) →
      (∀ t i, base < t → t ≤ base + (pre ++ storedInputs Ms).length → Q (.value t i)) →
      arguments (base + pre.length) Ms = some as → ∀ a ∈ as, Within Q a
  | [], pre, as, _, _, h => by
    simp only [arguments, Option.some.injEq] at h
    subst h
    simp
  | M :: Ms, pre, as, hp, hv, h => by
    unfold arguments at h
    by_cases hst : hasStoredC M.expr = true
    · rw [if_pos hst] at h
      simp only [Option.bind_eq_bind, Option.bind_eq_some_iff, Option.some.injEq] at h
      obtain ⟨a, h1, as', h2, rfl⟩ := h
      have hsi : storedInputs (M :: Ms) = M :: storedInputs Ms := by simp [storedInputs, hst]
      rw [hsi] at hv
      have ih := arguments_within hc Ms (pre ++ [M]) as' (fun M' h => hp M' (by simp [h]))
        (by rw [List.append_assoc, List.singleton_append]; exact hv)
        (by rw [List.length_append, List.length_singleton, ← add_assoc]; exact h2)
      intro x hx
      rcases List.mem_cons.1 hx with rfl | hx
      · refine tagC_within hc (fun i => hv _ i (by omega) ?_) (hp M (by simp)) h1
        simp only [List.length_append, List.length_cons]
        omega
      · exact ih x hx
    · rw [if_neg hst] at h
      simp only [Option.bind_eq_bind, Option.bind_eq_some_iff, Option.some.injEq] at h
      obtain ⟨as', h2, rfl⟩ := h
      have hsi : storedInputs (M :: Ms) = storedInputs Ms := by simp [storedInputs, hst]
      rw [hsi] at hv
      intro x hx
      rcases List.mem_cons.1 hx with rfl | hx
      · exact plain_within hc (hp M (by simp)) (by simpa using hst)
      · exact arguments_within hc Ms pre as' (fun M' h => hp M' (by simp [h])) hv h2 x hx

/-! ## Evaluation in a context -/

theorem reads_const {s : CSum} {A : MV ℝ} (hk : ∀ c ∈ s, Known c) (hq : ∀ c ∈ s, IsConst c.coef)
    (h : SumDenotes ρ N s A) : Reads ρ' N s [] [] A := by
  induction s generalizing A with
  | nil => rw [sumDenotes_nil h]; exact .nil
  | cons c cs ih =>
    obtain ⟨m₁, m₂, h1, h2, rfl⟩ := SumDenotes.cons_iff.1 h
    have := ih (fun c hc => hk c (by simp [hc])) (fun c hc => hq c (by simp [hc])) h2
    obtain ⟨hb, ⟨x, t⟩, ⟨hx, ht⟩, hw, rfl⟩ := SumDenotes.single_iff.1 h1
    obtain ⟨coef, blade⟩ := c
    obtain ⟨b, eb, -⟩ := hk ⟨coef, blade⟩ (by simp)
    obtain ⟨v, ev⟩ := hq ⟨coef, blade⟩ (by simp)
    simp only at eb ev hx ht
    subst eb ev
    have ht' : t = .const b := ht
    subst ht'
    refine Reads.cons (vs := []) (ws := []) (.symbolic _ _ rfl (.const v) ?_) (.const b) hw this
    have e1 : x = (v : ℝ) := (V.const_eq ⟨Built.const v, hx⟩)
    rw [e1]
    exact (V.const v).2

theorem contextEval_poly {Ms : List Object} {e e' : CSum} {vs : List ℝ} {ws : List Word} {A : MV ℝ}
    (hq : ∀ Q : Expr → Prop, (∀ v, Q (.const v)) → ExpClosed Q → (∀ e, Q e → hasStored e = false) →
      (∀ t i, baseId Ms < t → t ≤ baseId Ms + (storedInputs Ms).length → Q (.value t i)) → Within Q e)
    (hA : SumDenotes (contextEnv outer (baseId Ms) (storedInputs Ms)) N e A)
    (h : contextEval k τ outer Ms e = some (e', vs, ws)) :
    PlainC e' ∧ Reads outer N e' vs ws A := by
  unfold contextEval at h
  simp only at h
  split at h
  · next hs =>
    cases h
    have hlen : (storedInputs Ms).length = 0 := by
      rw [List.isEmpty_iff] at hs; rw [hs]; rfl
    have hw := hq IsConst isConst_const expClosed_const (by rintro _ ⟨v, rfl⟩; rfl) (by intro t i h1 h2; omega)
    exact ⟨⟨hw.1, fun c hc => .inr (hw.2 c hc)⟩, reads_const (canonical_known hw.1) hw.2 hA⟩
  · simp only [Option.bind_eq_bind, Option.bind_eq_some_iff, Prod.exists, Option.some.injEq,
      Prod.mk.injEq] at h
    obtain ⟨s', code, hc, vs', ws', he, rfl, rfl, rfl⟩ := h
    have hw := hq (Poly (baseId Ms + 1) (baseId Ms + (storedInputs Ms).length)) poly_const poly_closed
      poly_stored (fun t i h1 h2 => .inr ⟨t, i, h1, h2, rfl⟩)
    have hb : ∀ c ∈ e, Built c.coef := fun c hc => (hA.1 c hc).1
    have hst : ∀ c ∈ e, Staged k (baseId Ms) (baseId Ms + (storedInputs Ms).length) c := fun c h' =>
      ⟨canonical_known hw.1 c h', fun d hd =>
        (compile_out (poly_evaluable (hb c h') (hw.2 c h')) d hd).coef⟩
    obtain ⟨ho, hr⟩ := compileC_out e s' code hw.1.1 hst (canonical_iff.1 hw.1).2.2.1 hc
    obtain ⟨vs'', h1, h2⟩ := hr (contextTypes τ (baseId Ms) (storedInputs Ms)) _ outer N A
      (fun t ht i => ((context_agree outer _ (storedInputs Ms)) t ht i).imp Eq.symm Eq.symm) hA
      (fun c hc => poly_noInt _ (hw.2 c hc))
    rw [he] at h1
    cases h1
    exact ⟨⟨ho.canonical, compileC_plain e s' code hw hb hc⟩, h2⟩

/-! ## Calls -/

/-- A function of types that computes a function of multivectors and keeps canonical sums. -/
structure Good1 (N : Nat) (f : CSum → Option CSum) (F : MV ℝ → MV ℝ) : Prop where
  within : ∀ Q : Expr → Prop, (∀ v, Q (.const v)) → ExpClosed Q → ∀ a e, Within Q a → f a = some e →
    Within Q e
  denotes : ∀ ρ a e A, SumDenotes ρ N a A → f a = some e → SumDenotes ρ N e (F A)

@[inherit_doc Good1]
structure Good2 (N : Nat) (f : CSum → CSum → Option CSum) (F : MV ℝ → MV ℝ → MV ℝ) : Prop where
  within : ∀ Q : Expr → Prop, (∀ v, Q (.const v)) → ExpClosed Q → ∀ a b e, Within Q a →
    Within Q b → f a b = some e → Within Q e
  denotes : ∀ ρ a b e A B, (∀ c ∈ a, Known c) → (∀ c ∈ b, Known c) → SumDenotes ρ N a A → SumDenotes ρ N b B →
    f a b = some e → SumDenotes ρ N e (F A B)

/-- The invariant of an eager program. -/
def Holds (outer : Env) (N : Nat) (M : Object) (A : MV ℝ) : Prop :=
  PlainC M.expr ∧ Reads outer N M.expr M.values M.bitsets A

theorem contextObject_eval {Ms : List Object} {e : CSum} {o : Object}
    (h : contextObject k τ outer Ms e = some o) :
    contextEval k τ outer Ms e = some (o.expr, o.values, o.bitsets) := by
  simp only [contextObject, Option.bind_eq_bind, Option.bind_eq_some_iff, Prod.exists,
    Option.some.injEq] at h
  obtain ⟨e', vs, ws, h1, rfl⟩ := h
  exact h1

theorem call1_holds (hN : N ≤ 63) {f : CSum → Option CSum} {F : MV ℝ → MV ℝ} (hf : Good1 N f F)
    {M o : Object} {A : MV ℝ} (hM : Holds outer N M A) (h : call1 k τ outer f M = some o) :
    Holds outer N o (F A) := by
  simp only [call1, Option.bind_eq_bind, Option.bind_eq_some_iff] at h
  obtain ⟨as, h1, h⟩ := h
  split at h
  · next a =>
    simp only [Option.bind_eq_some_iff] at h
    obtain ⟨e, he, h⟩ := h
    have hd := arguments_reads hN (base := baseId [M]) [M] [] _ [A] h1 (le_baseId (Ms := [M])) (.cons hM.2 .nil)
    rw [List.nil_append] at hd
    have hw := fun Q hc hv => arguments_within (Q := Q) (base := baseId [M]) hc [M] [] _ (by simpa using hM.1) hv h1
    exact contextEval_poly
      (fun Q hc hE _ hv => hf.within Q hc hE a e (hw Q hc hv a (by simp)) he)
      (hf.denotes _ a e A (by cases hd; assumption) he) (contextObject_eval h)
  · exact absurd h (by simp)

theorem call2_holds (hN : N ≤ 63) {f : CSum → CSum → Option CSum} {F : MV ℝ → MV ℝ → MV ℝ}
    (hf : Good2 N f F) {M M' o : Object} {A B : MV ℝ} (hM : Holds outer N M A)
    (hM' : Holds outer N M' B) (h : call2 k τ outer f M M' = some o) :
    Holds outer N o (F A B) := by
  simp only [call2, Option.bind_eq_bind, Option.bind_eq_some_iff] at h
  obtain ⟨as, h1, h⟩ := h
  split at h
  · next a b =>
    simp only [Option.bind_eq_some_iff] at h
    obtain ⟨e, he, h⟩ := h
    have hd := arguments_reads hN (base := baseId [M, M']) [M, M'] [] _ [A, B] h1 (le_baseId (Ms := [M, M']))
      (.cons hM.2 (.cons hM'.2 .nil))
    rw [List.nil_append] at hd
    have hw := fun Q hc hv => arguments_within (Q := Q) (base := baseId [M, M']) hc [M, M'] [] _
      (by simpa using ⟨hM.1, hM'.1⟩) hv h1
    obtain ⟨hd1, hd2⟩ := List.forall₂_cons.1 hd
    obtain ⟨hd2, -⟩ := List.forall₂_cons.1 hd2
    exact contextEval_poly
      (fun Q hc hE _ hv => hf.within Q hc hE a b e (hw Q hc hv a (by simp)) (hw Q hc hv b (by simp)) he)
      (hf.denotes _ a b e A B (fun c hc => canonical_known (hw (fun _ => True) (fun _ => trivial) (fun _ _ _ _ => trivial)
        a (by simp)).1 c hc) (fun c hc => canonical_known (hw (fun _ => True) (fun _ => trivial) (fun _ _ _ _ => trivial)
        b (by simp)).1 c hc) hd1 hd2 he) (contextObject_eval h)
  · exact absurd h (by simp)

theorem arguments_lazy {base : Nat} : ∀ (Ms : List Object), (∀ M ∈ Ms, hasStoredC M.expr = false) →
    arguments base Ms = some (Ms.map Object.expr)
  | [], _ => rfl
  | M :: Ms, h => by
    unfold arguments
    rw [if_neg (by rw [h M (by simp)]; simp), arguments_lazy Ms fun M' h' => h M' (by simp [h'])]
    rfl

theorem storedInputs_lazy {Ms : List Object} (h : ∀ M ∈ Ms, hasStoredC M.expr = false) :
    storedInputs Ms = [] := by
  simpa [storedInputs] using h

theorem contextEval_lazy {Ms : List Object} (h : ∀ M ∈ Ms, hasStoredC M.expr = false) (e : CSum) :
    contextEval k τ outer Ms e = some (e, [], []) := by
  simp [contextEval, storedInputs_lazy h]

/-- The invariant of a lazy program: a type and no storage. -/
def Deferred (ρ : Env) (N : Nat) (Q : Expr → Prop) (M : Object) (A : MV ℝ) : Prop :=
  Within Q M.expr ∧ SumDenotes ρ N M.expr A ∧ M.values = [] ∧ M.bitsets = []

section
variable {Q : Expr → Prop} (hc : ∀ v, Q (.const v)) (hE : ExpClosed Q)
  (hQ : ∀ e, Q e → hasStored e = false)
include hc hE hQ

theorem call1_deferred {f : CSum → Option CSum} {F : MV ℝ → MV ℝ} (hf : Good1 N f F)
    {M o : Object} {A : MV ℝ} (hM : Deferred ρ N Q M A) (h : call1 k τ outer f M = some o) :
    Deferred ρ N Q o (F A) := by
  have hs := within_stored hQ hM.1
  have hs' : ∀ M' ∈ [M], hasStoredC M'.expr = false := by simpa using hs
  simp only [call1, arguments_lazy [M] hs', List.map_cons, List.map_nil, Option.bind_eq_bind,
    Option.bind_some, Option.bind_eq_some_iff] at h
  obtain ⟨e, he, h⟩ := h
  have := contextObject_eval h
  rw [contextEval_lazy hs'] at this
  simp only [Option.some.injEq, Prod.mk.injEq] at this
  obtain ⟨e1, e2, e3⟩ := this
  refine ⟨?_, ?_, e2.symm, e3.symm⟩ <;> rw [← e1]
  · exact hf.within _ hc hE _ _ hM.1 he
  · exact hf.denotes _ _ _ _ hM.2.1 he

theorem call2_deferred {f : CSum → CSum → Option CSum} {F : MV ℝ → MV ℝ → MV ℝ} (hf : Good2 N f F)
    {M M' o : Object} {A B : MV ℝ} (hM : Deferred ρ N Q M A) (hM' : Deferred ρ N Q M' B)
    (h : call2 k τ outer f M M' = some o) : Deferred ρ N Q o (F A B) := by
  have hs' : ∀ X ∈ [M, M'], hasStoredC X.expr = false := by
    simpa using ⟨within_stored hQ hM.1, within_stored hQ hM'.1⟩
  simp only [call2, arguments_lazy [M, M'] hs', List.map_cons, List.map_nil, Option.bind_eq_bind,
    Option.bind_some, Option.bind_eq_some_iff] at h
  obtain ⟨e, he, h⟩ := h
  have := contextObject_eval h
  rw [contextEval_lazy hs'] at this
  simp only [Option.some.injEq, Prod.mk.injEq] at this
  obtain ⟨e1, e2, e3⟩ := this
  refine ⟨?_, ?_, e2.symm, e3.symm⟩ <;> rw [← e1]
  · exact hf.within _ hc hE _ _ _ hM.1 hM'.1 he
  · exact hf.denotes _ _ _ _ _ _ (canonical_known hM.1.1) (canonical_known hM'.1.1) hM.2.1 hM'.2.1 he

end

/-! ## The functions of the library -/

theorem within_constSum {Q : Expr → Prop} (hc : ∀ v, Q (.const v)) (v : Int) :
    Within Q (constSum v) :=
  ⟨canonical_single ⟨0, rfl, by simp [vecs]⟩, by simpa [constSum] using hc v⟩

theorem good_add (hN : N ≤ 63) : Good2 N (addC k) (· + ·) where
  within Q hc hE a b e ha hb h := within_add hc hE ha hb h
  denotes ρ a b e A B _ _ hA hB h := addC_ok hN k a b e A B hA hB h

theorem good_scale (hN : N ≤ 62) (v : Int) :
    Good1 N (mulC (orthMapping 63 mkRealFactor .gp) k (constSum v)) ((v : ℝ) • ·) where
  within Q hc hE a e ha h := within_mul hc hE
    (orthMapping_const le_rfl (f := mkRealFactor) (fun b => ⟨1, rfl⟩) .gp) k _ _ _
    (within_constSum hc v) ha h
  denotes ρ a e A hA h := by
    have key := Props.C23_scalar_operand ρ N 0 0 (by omega) .gp k (constSum v) a e _ A
      (.inl ⟨_, rfl⟩) (Props.constSum_denotes ρ _ v) hA h
    unfold signedProd at key
    rw [signedFactor_cast N 0 0 (by omega)] at key
    rwa [show orthProd _ .gp (Finsupp.single 0 (v : ℝ)) A = (v : ℝ) • A from
      gp_scalar_left _ (v : ℝ) A] at key

theorem good_neg (hN : N ≤ 62) : Good1 N (negC k) (- ·) := by
  have := good_scale (k := k) hN (-1)
  refine ⟨this.within, fun ρ a e A hA h => ?_⟩
  have h' := this.denotes ρ a e A hA h
  simpa using h'

theorem good_sub (hN : N ≤ 62) : Good2 N (subC k) (· - ·) where
  within Q hc hE a b e ha hb h := by
    simp only [subC, Option.bind_eq_bind, Option.bind_eq_some_iff] at h
    obtain ⟨u, hu, h⟩ := h
    exact within_add hc hE ha ((good_neg hN).within Q hc hE b u hb hu) h
  denotes ρ a b e A B _ _ hA hB h := by
    simp only [subC, Option.bind_eq_bind, Option.bind_eq_some_iff] at h
    obtain ⟨u, hu, h⟩ := h
    have h1 := (good_neg hN).denotes ρ b u B hB hu
    have := addC_ok (by omega) k a u e A _ hA h1 h
    rwa [← sub_eq_add_neg] at this

theorem good_op (hN : N ≤ 62) : Good2 N (mulC (extMapping N) k) op where
  within _ hc hE a b e ha hb h := within_mul hc hE (extMapping_const (by omega)) k a b e ha hb h
  denotes ρ a b e A B _ _ hA hB h := Props.C23_op ρ N hN k a b e A B hA hB h

theorem good_rp (hN : N ≤ 62) : Good2 N (mulC (regMapping N) k) (rp N) where
  within _ hc hE a b e ha hb h := within_mul hc hE (regMapping_const (by omega)) k a b e ha hb h
  denotes ρ a b e A B _ _ hA hB h := Props.C23_rp ρ N hN k a b e A B hA hB h

theorem good_graded {P Q R : Nat} (hN : P + Q + R ≤ 62) (g : GradedProduct) :
    Good2 (P + Q + R) (mulC (orthMapping (P + Q + R) (mkSignedFactor P Q R) g) k)
      (signedProd P Q R g) where
  within _ hc hE a b e ha hb h := within_mul hc hE
    (orthMapping_const (by omega) (mkSignedFactor_const P Q R) g) k a b e ha hb h
  denotes ρ a b e A B _ _ hA hB h :=
    Props.C23_metric_products_partial ρ P Q R hN g k a b e A B hA hB h

theorem graded_denotes {P Q R : Nat} (hN : P + Q + R ≤ 62) (g : GradedProduct) (ρ : Env) (a b e : CSum) (A B : MV ℝ)
    (hA : SumDenotes ρ (P + Q + R) a A) (hB : SumDenotes ρ (P + Q + R) b B)
    (h : mulC (orthMapping (P + Q + R) (mkSignedFactor P Q R) g) k a b = some e) :
    SumDenotes ρ (P + Q + R) e (signedProd P Q R g A B) :=
  Props.C23_metric_products_partial ρ P Q R hN g k a b e A B hA hB h

theorem op_denotes (hN : N ≤ 62) (ρ : Env) (a b e : CSum) (A B : MV ℝ) (hA : SumDenotes ρ N a A)
    (hB : SumDenotes ρ N b B) (h : mulC (extMapping N) k a b = some e) : SumDenotes ρ N e (GATL.op A B) :=
  Props.C23_op ρ N hN k a b e A B hA hB h

theorem good_reverse (hN : N ≤ 63) : Good1 N (gradedMinusC k 0xcccccccccccccccc) reverse where
  within _ hc hE a e ha h := within_minus hc hE k a e ha h
  denotes ρ a e A hA h := (Props.C23_involutions ρ N hN k a e A hA).1 h

theorem good_involute (hN : N ≤ 63) : Good1 N (gradedMinusC k 0xaaaaaaaaaaaaaaaa) involute where
  within _ hc hE a e ha h := within_minus hc hE k a e ha h
  denotes ρ a e A hA h := (Props.C23_involutions ρ N hN k a e A hA).2.1 h

theorem good_conjugate (hN : N ≤ 63) : Good1 N (gradedMinusC k 0x6666666666666666) conjugate where
  within _ hc hE a e ha h := within_minus hc hE k a e ha h
  denotes ρ a e A hA h := (Props.C23_involutions ρ N hN k a e A hA).2.2 h

/-! ## Programs -/

/-- A relation between objects and multivectors that all functions of the library keep. -/
theorem run_keeps {P Q R : Nat} (hN : P + Q + R ≤ 62) {I : Object → MV ℝ → Prop}
    (h1 : ∀ f F M A o, Good1 (P + Q + R) f F → I M A → call1 k τ outer f M = some o → I o (F A))
    (h2 : ∀ f F M M' A B o, Good2 (P + Q + R) f F → I M A → I M' B →
      call2 k τ outer f M M' = some o → I o (F A B))
    (hc : ∀ v : Int, I (constObject v) (Finsupp.single 0 (v : ℝ)))
    {Ms : List Object} {As : List (MV ℝ)} (hI : List.Forall₂ I Ms As) (t : Program) :
    ∀ o, t.run P Q R k τ outer Ms = some o → I o (t.value P Q R As) := by
  induction t with
  | input i =>
    intro o h
    simp only [Program.run] at h
    simp only [Program.value]
    have : ∀ (Ms : List Object) (As : List (MV ℝ)) (i : Nat), List.Forall₂ I Ms As →
        Ms[i]? = some o → I o (As.getD i 0) := by
      intro Ms As i hI
      induction hI generalizing i with
      | nil => simp
      | cons hab _ ih =>
        cases i with
        | zero => intro e; simp at e; subst e; simpa using hab
        | succ i => intro e; simpa using ih i (by simpa using e)
    exact this Ms As i hI h
  | lit v =>
    intro o h
    simp only [Program.run, Option.some.injEq] at h
    subst h
    exact hc v
  | add s t ihs iht =>
    intro o h
    simp only [Program.run, Option.bind_eq_bind, Option.bind_eq_some_iff] at h
    obtain ⟨x, hx, y, hy, h⟩ := h
    exact h2 _ _ _ _ _ _ _ (good_add (by omega)) (ihs x hx) (iht y hy) h
  | sub s t ihs iht =>
    intro o h
    simp only [Program.run, Option.bind_eq_bind, Option.bind_eq_some_iff] at h
    obtain ⟨x, hx, y, hy, h⟩ := h
    exact h2 _ _ _ _ _ _ _ (good_sub hN) (ihs x hx) (iht y hy) h
  | neg t iht =>
    intro o h
    simp only [Program.run, Option.bind_eq_bind, Option.bind_eq_some_iff] at h
    obtain ⟨y, hy, h⟩ := h
    exact h1 _ _ _ _ _ (good_neg hN) (iht y hy) h
  | scale v t iht =>
    intro o h
    simp only [Program.run, Option.bind_eq_bind, Option.bind_eq_some_iff] at h
    obtain ⟨y, hy, h⟩ := h
    exact h1 _ _ _ _ _ (good_scale hN v) (iht y hy) h
  | op s t ihs iht =>
    intro o h
    simp only [Program.run, Option.bind_eq_bind, Option.bind_eq_some_iff] at h
    obtain ⟨x, hx, y, hy, h⟩ := h
    exact h2 _ _ _ _ _ _ _ (good_op hN) (ihs x hx) (iht y hy) h
  | rp s t ihs iht =>
    intro o h
    simp only [Program.run, Option.bind_eq_bind, Option.bind_eq_some_iff] at h
    obtain ⟨x, hx, y, hy, h⟩ := h
    exact h2 _ _ _ _ _ _ _ (good_rp hN) (ihs x hx) (iht y hy) h
  | graded g s t ihs iht =>
    intro o h
    simp only [Program.run, Option.bind_eq_bind, Option.bind_eq_some_iff] at h
    obtain ⟨x, hx, y, hy, h⟩ := h
    exact h2 _ _ _ _ _ _ _ (good_graded hN g) (ihs x hx) (iht y hy) h
  | reverse t iht =>
    intro o h
    simp only [Program.run, Option.bind_eq_bind, Option.bind_eq_some_iff] at h
    obtain ⟨y, hy, h⟩ := h
    exact h1 _ _ _ _ _ (good_reverse (by omega)) (iht y hy) h
  | involute t iht =>
    intro o h
    simp only [Program.run, Option.bind_eq_bind, Option.bind_eq_some_iff] at h
    obtain ⟨y, hy, h⟩ := h
    exact h1 _ _ _ _ _ (good_involute (by omega)) (iht y hy) h
  | conjugate t iht =>
    intro o h
    simp only [Program.run, Option.bind_eq_bind, Option.bind_eq_some_iff] at h
    obtain ⟨y, hy, h⟩ := h
    exact h1 _ _ _ _ _ (good_conjugate (by omega)) (iht y hy) h

theorem holds_const (v : Int) : Holds outer N (constObject v) (Finsupp.single 0 (v : ℝ)) := by
  refine ⟨⟨canonical_single ⟨0, rfl, by simp [vecs]⟩, ?_⟩, ?_⟩
  · intro c hc
    simp only [constObject, constSum, List.mem_singleton] at hc
    subst hc
    exact .inr ⟨v, rfl⟩
  · refine reads_const (ρ := outer) (s := constSum v) ?_ ?_ (Props.constSum_denotes outer N v) <;>
      intro c hc <;> simp only [constSum, List.mem_singleton] at hc <;> subst hc
    · exact ⟨0, rfl, by simp [vecs]⟩
    · exact ⟨v, rfl⟩

/-- Eager programs. -/
theorem run_holds {P Q R : Nat} (hN : P + Q + R ≤ 62) {Ms : List Object} {As : List (MV ℝ)}
    (hI : List.Forall₂ (Holds outer (P + Q + R)) Ms As) (t : Program) (o : Object)
    (h : t.run P Q R k τ outer Ms = some o) : Holds outer (P + Q + R) o (t.value P Q R As) :=
  run_keeps hN (fun _ _ _ _ _ hf hM h => call1_holds (by omega) hf hM h)
    (fun _ _ _ _ _ _ _ hf hM hM' h => call2_holds (by omega) hf hM hM' h) holds_const hI t o h

theorem deferred_const {Q : Expr → Prop} (hc : ∀ v, Q (.const v)) (v : Int) :
    Deferred ρ N Q (constObject v) (Finsupp.single 0 (v : ℝ)) :=
  ⟨within_constSum hc v, Props.constSum_denotes ρ N v, rfl, rfl⟩

theorem forall₂_zip {I : Object → MV ℝ → Prop} {J : CSum → MV ℝ → Prop} {g : Object → CSum → Object}
    (hg : ∀ M a A, J a A → I (g M a) A) : ∀ (Ms : List Object) (as : List CSum) (As : List (MV ℝ)),
    List.Forall₂ J as As → Ms.length = as.length → List.Forall₂ I (List.zipWith g Ms as) As
  | [], [], _, h, _ => by cases h; exact .nil
  | M :: Ms, a :: as, _, h, hl => by
    cases h with
    | cons h1 h2 => exact .cons (hg M a _ h1) (forall₂_zip hg Ms as _ h2 (by simpa using hl))
  | [], _ :: _, _, _, hl => by simp at hl
  | _ :: _, [], _, _, hl => by simp at hl

theorem arguments_length : ∀ (base : Nat) (Ms : List Object) (as : List CSum),
    arguments base Ms = some as → Ms.length = as.length
  | _, [], as, h => by simp only [arguments, Option.some.injEq] at h; subst h; rfl
  | base, M :: Ms, as, h => by
    unfold arguments at h
    split at h <;> simp only [Option.bind_eq_bind, Option.bind_eq_some_iff, Option.some.injEq] at h
    · obtain ⟨a, _, as', h, rfl⟩ := h
      simp [arguments_length _ Ms as' h]
    · obtain ⟨as', h, rfl⟩ := h
      simp [arguments_length _ Ms as' h]

/-- Lazy programs. -/
theorem runLazy_holds {P Q R : Nat} (hN : P + Q + R ≤ 62) {Ms : List Object} {As : List (MV ℝ)}
    (hI : List.Forall₂ (Holds outer (P + Q + R)) Ms As) (t : Program) (o : Object)
    (h : t.runLazy P Q R k τ outer Ms = some o) : Holds outer (P + Q + R) o (t.value P Q R As) := by
  simp only [Program.runLazy, Option.bind_eq_bind, Option.bind_eq_some_iff] at h
  obtain ⟨as, h1, r, hr, h⟩ := h
  have hp : ∀ M ∈ Ms, PlainC M.expr := by
    intro M hM
    clear h h1 hr
    induction hI with
    | nil => simp at hM
    | cons h _ ih =>
      rcases List.mem_cons.1 hM with rfl | hM
      · exact h.1
      · exact ih hM
  have hd := arguments_reads (N := P + Q + R) (outer := outer) (by omega) (base := baseId Ms) Ms [] as As h1
    (le_baseId (Ms := Ms)) (hI.imp fun _ _ h => h.2)
  rw [List.nil_append] at hd
  have hlen := arguments_length _ _ _ h1
  have key : ∀ Q' : Expr → Prop, (∀ v, Q' (.const v)) → ExpClosed Q' →
      (∀ e, Q' e → hasStored e = false) →
      (∀ t i, baseId Ms < t → t ≤ baseId Ms + (storedInputs Ms).length → Q' (.value t i)) →
      Deferred (contextEnv outer (baseId Ms) (storedInputs Ms)) (P + Q + R) Q' r
        (t.value P Q R As) := by
    intro Q' hc hE hQ hv
    have hw := arguments_within (Q := Q') (base := baseId Ms) hc Ms [] as hp hv h1
    refine run_keeps hN (fun _ _ _ _ _ hf hM h => call1_deferred hc hE hQ hf hM h)
      (fun _ _ _ _ _ _ _ hf hM hM' h => call2_deferred hc hE hQ hf hM hM' h)
      (deferred_const hc) ?_ t r hr
    refine forall₂_zip (J := fun a A => Within Q' a ∧
      SumDenotes (contextEnv outer (baseId Ms) (storedInputs Ms)) (P + Q + R) a A)
      (fun M a A h => ⟨h.1, h.2, rfl, rfl⟩) Ms as As ?_ hlen
    clear hr h h1 hlen hI
    induction hd with
    | nil => exact .nil
    | cons h _ ih => exact .cons ⟨hw _ (by simp), h⟩ (ih fun a ha => hw a (by simp [ha]))
  exact contextEval_poly (fun Q' hc hE hQ hv => (key Q' hc hE hQ hv).1)
    (key (Poly (baseId Ms + 1) (baseId Ms + (storedInputs Ms).length)) poly_const poly_closed
      poly_stored fun t i h1 h2 => .inr ⟨t, i, h1, h2, rfl⟩).2.1 (contextObject_eval h)

end GATL
