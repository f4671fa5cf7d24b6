import Verif.Proofs.ExpType
import Verif.Proofs.InverseTotal
import Verif.Proofs.Integers

/-!
# Exponentials compile
-/

namespace GATL.Total

open Expr Spec

variable {N n k L U : Nat} {ρ : Env} {τ : Types} {P Q R : Nat}

/-! ## Products -/

theorem mul_pair_total {x w : Expr} (hx : ∀ v, x ≠ .const v) (l1 : asAdd x = none) (l2 : asMul x = none)
    (l3 : asPower x = none) (l4 : asRecip x = none) (h0 : w ≠ .const 0) (h1 : w ≠ .const 1) (ha : asAdd w = none)
    (hm : asMul w = none) (hp : ∀ b q, asPower w = some (b, q) → b ≠ x) (hne : x ≠ w) :
    ∃ z, simp (n + 1) .mul x w = some z := by
  change ∃ z, applyRules (mulRules (simp n)) x w = some z
  unfold mulRules
  rw [applyRules_skip (by simp [mulZero, hx, h0]), applyRules_skip (by simp [mulOne, hx, h1]),
    applyRules_skip (by simp [mulDistribute, l1, ha]),
    applyRules_skip (by simp [mulHelper, l2, hm, mulCollect1, hne])]
  have hc2 : mulCollect2 (simp n) x w = some none := by
    unfold mulCollect2
    rw [l3]
    cases hw' : asPower w with
    | none => rfl
    | some p => obtain ⟨b, q⟩ := p; simp [hp b q hw']
  rw [applyRules_skip (by simp [mulHelper, l2, hm, hc2]),
    applyRules_skip (by simp [mulHelper, l2, hm, mulCollect3, l3]),
    applyRules_skip (by simp [mulHelper, l2, hm, mulConst1, asConst_ne hx, l4]),
    applyRules_skip (by simp [mulConst2, asConst_ne hx, l4])]
  have t1 := mkMul_total (hx 0) (hx 1) h0 h1
  have t2 := mkMul_total h0 h1 (hx 0) (hx 1)
  by_cases hlt : lt x w = true
  · rw [applyRules_fire (o := mkMul [x, w]) (by simp [mulMergeLt, l2, hm, hlt])]
    exact ⟨_, t1⟩
  rw [applyRules_skip (by simp [mulMergeLt, l2, hm, hlt])]
  by_cases hgt : lt w x = true
  · rw [applyRules_fire (o := mkMul [w, x]) (by simp [mulMergeGt, l2, hm, hgt])]
    exact ⟨_, t2⟩
  rw [applyRules_skip (by simp [mulMergeGt, l2, hm, hgt]),
    applyRules_fire (o := mkMul [x, w]) (by simp [mulMergeEq, l2, hm])]
  exact ⟨_, t1⟩

/-- The product of the sine of an expression and a power. -/
theorem sine_power_total {name : Name} (hname : name = .sine ∨ name = .hsine) {α b q : Expr} (hb : ∀ as, b ≠ .fn name as) :
    ∃ z, Ev (fun j => simp j .mul (.fn name [α]) (powerOf b q)) z := by
  obtain ⟨z, hz⟩ := mul_pair_total (n := 0) (x := .fn name [α]) (w := powerOf b q) (by simp)
    (by rcases hname with rfl | rfl <;> rfl) (by rcases hname with rfl | rfl <;> rfl)
    (by rcases hname with rfl | rfl <;> rfl) (by rcases hname with rfl | rfl <;> rfl) (by simp) (by simp) rfl rfl
    (by
      intro b' q' h e
      simp only [asPower, Option.some.injEq, Prod.mk.injEq] at h
      exact hb _ (h.1.trans e))
    (by rcases hname with rfl | rfl <;> simp)
  exact ⟨z, ev_simp hz⟩

theorem one_mul_ev (z : Expr) : ∃ y, Ev (fun j => simp j .mul (.const 1) z) y := by
  by_cases h0 : z = .const 0
  · subst h0; exact ⟨_, ev_simp (k := 1) rfl⟩
  refine ⟨z, ev_simp (k := 1) ?_⟩
  change applyRules (mulRules (simp 0)) (.const 1) z = some z
  unfold mulRules
  rw [applyRules_skip (by simp [mulZero, h0])]
  exact applyRules_fire (o := some z) (by simp [mulOne, fire])

/-! ## Products with a scalar -/

section
variable {M : CMapping} {w : Expr}

theorem scale_left_one_total (hS : SignMapping N M) (hU : UnitLeft N M) (hw : w ≠ .const 0) {c : Comp}
    (hI : In N [c]) (hs : InSpaceC N [c]) (hq : ∃ z, Ev (fun j => simp j .mul w c.coef) z) :
    ∃ e, Ev (fun k => mulC M k [⟨w, .const 0⟩] [c]) e := by
  by_cases hz : c.coef = .const 0
  · exact ⟨[c], Ev.succ ⟨0, fun j _ => by
      show mulC M (j + 1) [⟨w, .const 0⟩] [c] = _
      unfold mulC; rw [if_neg (by simp [hw]), if_pos ⟨hz, rfl⟩]⟩⟩
  obtain ⟨b, eb, hb⟩ := hI c (by simp)
  obtain ⟨d, hd, -, -⟩ := hS 0 b (by simp [InSpace]) hb
  have ed := hd.fact (p := fun r => r = [⟨.const 1, .const b⟩]) fun k y h => hU k b y (hs c (by simp) b eb) h
  obtain ⟨y, hy⟩ := hq
  refine ⟨[mkComp y (.const b)], Ev.succ ?_⟩
  refine Ev.congr (f := fun j => simp j .mul w c.coef >>= fun y => M j (.const 0) c.blade >>= fun r => distribute j y r)
    ?_ fun j => ?_
  · refine hy.bind ?_
    rw [eb]
    refine hd.bind ?_
    rw [ed]
    refine Ev.congr (f := fun j => simp j .mul y (.const 1) >>= fun z => some [mkComp z (.const b)]) ?_ fun j => rfl
    exact (mul_one_ev y).bind (Ev.pure _)
  · unfold mulC
    rw [if_neg (by simp [hw]), if_neg (by simp [hz])]

/-- Products with a scalar on the left compile. -/
theorem scale_left_total (hS : SignMapping N M) (hU : UnitLeft N M) (hw : w ≠ .const 0) : ∀ a : CSum,
    Canonical a → In N a → InSpaceC N a → (∀ c ∈ a, ∃ z, Ev (fun j => simp j .mul w c.coef) z) →
    ∃ e, Ev (fun k => mulC M k [⟨w, .const 0⟩] a) e
  | [], ha, _, _, _ => absurd rfl ha.1
  | [c], _, hI, hs, hq => scale_left_one_total hS hU hw hI hs (hq c (by simp))
  | c :: d :: a, ha, hI, hs, hq => by
    obtain ⟨t1, t2, t3, t4, t5⟩ := canonical_tail ha (by simp)
    have hs1 : InSpaceC N [c] := fun x hx => hs x (by simp at hx; simp [hx])
    have hs2 : InSpaceC N (d :: a) := fun x hx => hs x (by simp at hx ⊢; tauto)
    obtain ⟨s, es⟩ := scale_left_one_total hS hU hw (fun x hx => hI x (by simp at hx; simp [hx])) hs1 (hq c (by simp))
    obtain ⟨u, eu⟩ := scale_left_total hS hU hw (d :: a) t1 (fun x hx => hI x (by simp at hx ⊢; tauto)) hs2
      (fun x hx => hq x (by simp at hx ⊢; tauto))
    have f1 := es.fact (p := fun e => Scaled (fun _ => True) [c] e ∧ ∃ d, e = [d])
      fun k y h => scale_left_one hU trivial hw t3 hs1 (fun _ _ _ => trivial) h
    have f2 := eu.fact (p := fun e => Scaled (fun _ => True) (d :: a) e)
      fun k y h => scale_left hU trivial hw (d :: a) k y t1 hs2 (fun _ _ _ _ _ => trivial) h
    obtain ⟨e, he⟩ := scaled_add t2 f1.1 f1.2 f2
    refine ⟨e, Ev.succ ?_⟩
    refine Ev.congr (f := fun j => mulC M j [⟨w, .const 0⟩] [c] >>= fun x => mulC M j [⟨w, .const 0⟩] (d :: a) >>= fun y =>
      addC j x y) (es.bind (eu.bind he)) fun j => ?_
    conv_lhs => unfold mulC
    rw [if_neg (by simp [hw]), if_neg (by simp)]

end

/-! ## The root of the square -/

/-- The types that `exp` computes from the square `s` of the blade. -/
structure RootType (s sq α i z1 z2 : Expr) : Prop where
  abs : Ev (fun k => mkAbsolute (simp k) s) sq
  root : Ev (fun k => simp k .pow sq half) α
  inv : Ev (fun k => simp k .pow α (.const (-1))) i
  sine : Ev (fun k => simp k .mul (.fn .sine [α]) i) z1
  hsine : Ev (fun k => simp k .mul (.fn .hsine [α]) i) z2

theorem root_abs_total {s : Expr} (hneg : ∃ e, Ev (fun k => simp k .mul (.const (-1)) s) e) (hc : isConstant s = false)
    (hn : isNonNegative s = some false) : ∃ sq α i z1 z2, RootType s sq α i z1 z2 := by
  have ou := abs_opaque hc
  obtain ⟨z1, h1⟩ := sine_power_total (name := .sine) (.inl rfl) (α := powerOf (.fn .absolute [s]) half)
    (b := .fn .absolute [s]) (q := minusHalf) (by simp)
  obtain ⟨z2, h2⟩ := sine_power_total (name := .hsine) (.inr rfl) (α := powerOf (.fn .absolute [s]) half)
    (b := .fn .absolute [s]) (q := minusHalf) (by simp)
  refine ⟨.fn .absolute [s], powerOf (.fn .absolute [s]) half, powerOf (.fn .absolute [s]) minusHalf, z1, z2, ?_, ?_, ?_, h1, h2⟩
  · obtain ⟨e, k0, hk⟩ := hneg
    refine ⟨k0, fun k hj => ?_⟩
    simp only [mkAbsolute, hn, hc, hk k hj, Option.bind_eq_bind, Option.bind_some, Bool.false_and, Bool.false_eq_true,
      if_false]
  · exact ev_simp (pow_opaque (n := 0) (r := half) (ne_const ou.1) rfl rfl (by decide) (by decide))
  · refine ev_simp (k := 12 + 1) ?_
    rw [pow_power (by decide) (by decide), simp_mono (by norm_num) _ _ _ _ half_neg]
    exact pow_opaque (n := 11) (r := minusHalf) (opaque_ne ou) ou.2.2.1 ou.2.2.2 (by decide) (by decide)

theorem root_atom_total {t i : Nat} (hneg : ∃ e, Ev (fun k => simp k .mul (.const (-1)) (powerOf (.value t i) (.const 2))) e) :
    ∃ sq α j z1 z2, RootType (powerOf (.value t i) (.const 2)) sq α j z1 z2 := by
  obtain ⟨z1, h1⟩ := sine_power_total (name := .sine) (.inl rfl) (α := .value t i) (b := .value t i) (q := .const (-1)) (by simp)
  obtain ⟨z2, h2⟩ := sine_power_total (name := .hsine) (.inr rfl) (α := .value t i) (b := .value t i) (q := .const (-1)) (by simp)
  refine ⟨powerOf (.value t i) (.const 2), .value t i, powerOf (.value t i) (.const (-1)), z1, z2, ?_, ?_, ?_, h1, h2⟩
  · obtain ⟨e, k0, hk⟩ := hneg
    refine ⟨k0, fun k hj => ?_⟩
    simp only [mkAbsolute, isNonNegative, isEven, hk k hj, Option.bind_eq_bind, Option.bind_some]
    simp
  · refine ev_simp (k := 10 + 1) ?_
    rw [pow_power (by decide) (by decide), two_half]
    exact pow_one (n := 9) (l := .value t i) (by simp)
  · exact ev_simp (pow_opaque (n := 0) (r := .const (-1)) (by simp) rfl rfl (by decide) (by decide))

theorem root_zero_total : ∃ sq α i z1 z2, RootType (.const 0) sq α i z1 z2 := by
  obtain ⟨z1, h1⟩ := sine_power_total (name := .sine) (.inl rfl) (α := .const 0) (b := .const 0) (q := .const (-1)) (by simp)
  obtain ⟨z2, h2⟩ := sine_power_total (name := .hsine) (.inr rfl) (α := .const 0) (b := .const 0) (q := .const (-1)) (by simp)
  refine ⟨.const 0, .const 0, powerOf (.const 0) (.const (-1)), z1, z2, ⟨1, fun k hk => ?_⟩,
    ev_simp (k := 5) (by decide +kernel), ev_simp (k := 5) (by decide +kernel), h1, h2⟩
  have : simp k .mul (.const (-1)) (.const 0) = some (.const 0) := simp_mono hk _ _ _ _ rfl
  simp only [mkAbsolute, isNonNegative, this, Option.bind_eq_bind, Option.bind_some]
  simp

theorem sqrt_small {a : Nat} (h : a ≤ 2 ^ 62) : (Nat.sqrt a + 1) ^ 2 < 2 ^ 63 := by
  have h1 : Nat.sqrt a * Nat.sqrt a ≤ a := Nat.sqrt_le a
  by_contra hc
  nlinarith

theorem isqrt_nat {a : Nat} (h1 : 0 < a) (h2 : a ≤ 2 ^ 62) : isqrt (a + 2) a = some (Nat.sqrt a : Int) := by
  have key := isqrtLoop_spec a 1 le_rfl (by omega) (sqrt_small h2) (a + 2) (by have := Nat.sqrt_le_self a; omega)
  unfold isqrt
  simpa using key

theorem square_i64 {a : Nat} (h2 : a ≤ 2 ^ 62) : i64 ((Nat.sqrt a : Int) * Nat.sqrt a) = some ((Nat.sqrt a : Int) * Nat.sqrt a) := by
  have : Nat.sqrt a * Nat.sqrt a ≤ a := Nat.sqrt_le a
  have h' : (Nat.sqrt a : Int) * Nat.sqrt a ≤ a := by exact_mod_cast this
  have h'' : (0 : Int) ≤ (Nat.sqrt a : Int) * Nat.sqrt a := by positivity
  unfold i64
  rw [if_pos]
  constructor <;> omega

theorem isqrt_cases {v s : Int} (h1 : 0 < v) (h2 : isqrt (v.toNat + 2) v = some s) (h3 : i64 (s * s) = some (s * s)) :
    simplerIsqrt v = if s * s = v then some (.const s) else some (powerOf (.const v) half) := by
  rw [simplerIsqrt, if_pos h1, h2, Option.bind_eq_bind, Option.bind_some, h3, Option.bind_some]

theorem isqrt_total {a : Nat} (h1 : 0 < a) (h2 : a ≤ 2 ^ 62) : simplerIsqrt a = some (powerOf (.const a) half) ∨
    ∃ r, 0 < r ∧ simplerIsqrt a = some (.const r) := by
  have hp : 0 < Nat.sqrt a := Nat.sqrt_pos.2 h1
  have h3 : (0 : Int) < a := Int.natCast_pos.2 h1
  have h4 : isqrt ((a : Int).toNat + 2) a = some (Nat.sqrt a : Int) := by
    rw [Int.toNat_natCast]
    exact isqrt_nat h1 h2
  rw [isqrt_cases h3 h4 (square_i64 h2)]
  split_ifs with h
  · exact .inr ⟨_, Int.natCast_pos.2 hp, rfl⟩
  · exact .inl rfl

theorem inv_const_ev {r : Int} (h0 : 0 < r) : Ev (fun k => simp k .pow (.const r) (.const (-1)))
    (if r = 1 then .const 1 else powerOf (.const r) (.const (-1))) := by
  refine ev_simp (k := 1) ?_
  change applyRules (powRules (simp 0)) (.const r) (.const (-1)) = _
  unfold powRules
  split_ifs with h1
  · subst h1
    exact applyRules_fire (o := some (.const 1)) (by simp [powMisc1, fire])
  rw [applyRules_skip (by simp [powMisc1, h0.ne', h1]), applyRules_skip (by simp [powMisc2])]
  refine applyRules_fire (o := some (powerOf (.const r) (.const (-1)))) ?_
  have h3 : powMisc3 (.const r) (.const (-1)) = (simplerIpow r 1).bind fun p =>
      if r = -1 then some (some (.const (-1))) else some (some (powerOf p (.const (-1)))) := by
    unfold powMisc3
    simp [asConst, half, iabs, i64]
  have hp : ipow 66 r 1 = some r := by unfold ipow; rw [if_pos rfl]
  rw [h3, simplerIpow, hp]
  simp only [Option.map_some, Option.bind_some, if_neg (show r ≠ -1 by omega), fire]

theorem root_const_total {c : Int} (h0 : c ≠ 0) (hc : c.natAbs ≤ 2 ^ 62) : ∃ sq α i z1 z2, RootType (.const c) sq α i z1 z2 := by
  obtain ⟨sq, hsq⟩ := abs_const (n := 0) (v := c) (by omega)
  obtain ⟨v, rfl⟩ := abs_const_shape hsq
  obtain ⟨ρ⟩ := mapping_env
  have hv : v = |c| := by
    have vq : V ρ (.const v) |(c : ℝ)| :=
      ⟨.const v, abs_den (fun _ => ⟨c, rfl⟩) (.const c) (by simp [TraitSafe]) (V.const (ρ := ρ) c).2 hsq⟩
    have := V.const_eq vq
    exact_mod_cast this.symm
  have hv0 : 0 < v := by rw [hv]; exact abs_pos.2 h0
  have hv2 : v ≤ 2 ^ 62 := by rw [hv, Int.abs_eq_natAbs]; exact_mod_cast hc
  have eabs : Ev (fun k => mkAbsolute (simp k) (.const c)) (.const v) := by
    obtain ⟨e, k0, hk⟩ : ∃ e, Ev (fun k => simp k .mul (.const (-1)) (.const c)) e := by
      simp only [mkAbsolute, isNonNegative, Option.bind_eq_bind, Option.bind_some, Option.bind_eq_some_iff] at hsq
      obtain ⟨neg, hneg, -⟩ := hsq
      exact ⟨neg, ev_simp hneg⟩
    refine ⟨max k0 2, fun k hj => ?_⟩
    have hk' : simp k .mul (.const (-1)) (.const c) = some e := hk k (by omega)
    simp only [mkAbsolute, isNonNegative, Option.bind_eq_bind, Option.bind_some, Option.bind_eq_some_iff] at hsq
    obtain ⟨neg, hneg, hh⟩ := hsq
    have : e = neg := by
      have := simp_mono (show 2 ≤ k by omega) _ _ _ _ hneg
      rw [hk'] at this
      exact Option.some.inj this
    subst this
    simp only [mkAbsolute, isNonNegative, Option.bind_eq_bind, Option.bind_some, hk', hh]
  -- products with the inverse of the root
  have fin : ∀ α, Ev (fun k => simp k .pow (.const v) half) α → (∃ i, Ev (fun k => simp k .pow α (.const (-1))) i ∧
      (i = .const 1 ∨ ∃ r q, i = powerOf (.const r) q)) → ∃ sq α i z1 z2, RootType (.const c) sq α i z1 z2 := by
    rintro α hα ⟨i, hi, rfl | ⟨r, q, rfl⟩⟩
    · exact ⟨_, α, _, _, _, eabs, hα, hi, mul_one_ev _, mul_one_ev _⟩
    · obtain ⟨z1, h1⟩ := sine_power_total (name := .sine) (.inl rfl) (α := α) (b := .const r) (q := q) (by simp)
      obtain ⟨z2, h2⟩ := sine_power_total (name := .hsine) (.inr rfl) (α := α) (b := .const r) (q := q) (by simp)
      exact ⟨_, α, _, z1, z2, eabs, hα, hi, h1, h2⟩
  by_cases hv1 : v = 1
  · subst hv1
    refine fin (.const 1) (ev_simp (k := 1) (by rfl)) ⟨.const 1, ev_simp (k := 1) (by rfl), .inl rfl⟩
  have hroot : ∀ x, simplerIsqrt v = some x → Ev (fun k => simp k .pow (.const v) half) x := by
    intro x hx
    refine ev_simp (k := 1) ?_
    change applyRules (powRules (simp 0)) (.const v) half = _
    unfold powRules
    rw [applyRules_skip (by simp [powMisc1, hv0.ne', hv1]), applyRules_skip (by simp [powMisc2, half])]
    exact applyRules_fire (o := some x) (by simp [powMisc3, asConst, hx, fire])
  have hnat : ((v.toNat : Nat) : Int) = v := Int.toNat_of_nonneg hv0.le
  have ht := isqrt_total (a := v.toNat) (by omega) (by omega)
  rw [hnat] at ht
  rcases ht with h | ⟨r, hr0, h⟩
  · refine fin _ (hroot _ h) ⟨powerOf (.const v) minusHalf, ev_simp (k := 12 + 1) ?_, .inr ⟨_, _, rfl⟩⟩
    rw [pow_power (by decide) (by decide), simp_mono (by norm_num) _ _ _ _ half_neg]
    change applyRules (powRules (simp 11)) (.const v) minusHalf = _
    unfold powRules
    rw [applyRules_skip (by simp [powMisc1, hv0.ne', hv1]), applyRules_skip (by simp [powMisc2, minusHalf]),
      applyRules_skip (by simp [powMisc3, minusHalf, half, asConst])]
    exact applyRules_fire (o := some (powerOf (.const v) minusHalf)) (by simp [powDistribute, asMul, asPower, fire])
  · refine fin _ (hroot _ h) ⟨_, inv_const_ev hr0, ?_⟩
    split_ifs
    · exact .inl rfl
    · exact .inr ⟨_, _, rfl⟩

/-! ## The exponential -/

/-- A choice with a constant in front. -/
theorem choice_compile {t b : Expr} (ht : GT True n L U t) (h : GE False n L U (.fn .ifElse [t, .const 1, b])) :
    GE True n L U (.fn .ifElse [t, .const 1, b]) := by
  refine ge_comp h ⟨(.stored, [.value (.fn .ifElse [t, .const 1, b])]), ?_⟩
  rcases ht with ⟨b', rfl⟩ | ⟨t1, -, -, t4⟩
  · have := h.ev
    cases this
    next h' _ _ => cases h'
  obtain ⟨⟨t', p⟩, ht'⟩ := t4 trivial
  have hct : canBeStored t' = true := by
    rcases (compile_out t1 _ ht').2 with ot | ot <;> · cases ot; rfl
  change (do
    let (t', p) ← compile n L U t
    let (a', q) ← compile n L U (.const 1)
    if canBeStored t' && canBeStored a' && canBeStored a' then
      storeValue L U (.fn .ifElse [t, .const 1, b])
    else do
      let (_, r) ← compile n L U b
      some (mkIfElse t' a' a', p ++ q ++ r)) = _
  have hc1 : canBeStored (.const 1) = true := rfl
  simp only [ht', compile_const, Option.bind_eq_bind, Option.bind_some, hct, hc1, Bool.and_self, if_true]
  rw [storeValue, if_pos (evaluable_context h.ev).1]

/-- The coefficients of the exponential. -/
def Chosen (n L U : Nat) (w : Expr) : Prop :=
  w = .const 1 ∨ (∃ t a b, w = .fn .ifElse [t, a, b]) ∧ GE True n L U w ∧ isConstant w = false

theorem chosen_of {t b : Expr} (hne : t ≠ .cbool false) (ht : GT True n L U t)
    (h : ExpCoef n L U (mkIfElse t (.const 1) b)) : Chosen n L U (mkIfElse t (.const 1) b) := by
  rcases h with h | ⟨h1, h2, h3⟩
  · exact .inl h
  have hm : mkIfElse t (.const 1) b = .const 1 ∨ mkIfElse t (.const 1) b = .fn .ifElse [t, .const 1, b] := by
    unfold mkIfElse
    split
    · exact .inl rfl
    · exact absurd rfl hne
    · split_ifs
      · exact .inl rfl
      · exact .inr rfl
  rcases hm with hm | hm
  · exact .inl hm
  · rw [hm] at h1 h2 h3 ⊢
    exact .inr ⟨h1, choice_compile ht h2, h3⟩

/-- The weight of a constant. -/
theorem pw_const {D w : Nat} {c : Int} (h : PW D (.const c) w) : c.natAbs ≤ w := by
  obtain ⟨X, e, hX, hw⟩ := h
  rcases X with _ | ⟨m, _ | ⟨m', ms⟩⟩
  · have e : Expr.const c = .const 0 := e
    cases e
    simp
  · have e : Expr.const c = prodL m.items := e
    have hc : c = m.c := by
      unfold Mon.items at e
      rcases hf : m.fs with _ | ⟨f, _ | ⟨f', fs⟩⟩
      · rw [hf] at e
        split_ifs at e with h1
        · cases e; exact h1.symm
        · cases e; rfl
      · rw [hf] at e
        split_ifs at e with h1
        · exact absurd (Item.expr_const (a := .fac f.1 f.2) e.symm) (by simp)
        · cases e
      · rw [hf] at e
        split_ifs at e with h1
        · cases e
        · cases e
    rw [wt_cons] at hw
    omega
  · have e : Expr.const c = .fn .add _ := e
    cases e

theorem exp_assemble_total (hN : N ≤ 62) {b : CSum} {B : MV ℝ} (hb : Within (Leaf L U) b) (dB : SumDenotes ρ N b B)
    (hs : ∀ c ∈ b, c.blade ≠ .const 0) {c w : Expr} {x y : ℝ} {k0 : Nat} (hc : ∀ k, k0 ≤ k → Chosen k L U c)
    (hw : ∀ k, k0 ≤ k → Chosen k L U w) (vc : V ρ c x) (vw : V ρ w y) :
    ∃ u e, Ev (fun k => mulC (extMapping N) k [mkComp w (.const 0)] b) u ∧ Ev (fun k => addC k [mkComp c (.const 0)] u) e ∧
      SumDenotes ρ N e (Finsupp.single 0 x + y • B) ∧ ∃ k1, ∀ k, k1 ≤ k → Within (GE True k L U) e := by
  rw [expCoef_comp, expCoef_comp]
  have hw0 : w ≠ .const 0 := by
    rcases hw k0 le_rfl with rfl | ⟨⟨t, a, b, rfl⟩, -⟩ <;> simp
  obtain ⟨u, eu⟩ := scale_left_total (ext_sign hN) (ext_unit hN) hw0 b hb.1 (in_of hb.1 dB) (inSpaceC_of dB) fun d hd => by
    have hl := hb.2 d hd
    rcases hw k0 le_rfl with rfl | ⟨⟨t, p, q, rfl⟩, gw, hcw⟩
    · exact one_mul_ev _
    · obtain ⟨z, hz⟩ := mul_leaf_right_total (n := 0) hl hcw rfl rfl (by simp [asPower]) (by
        intro e
        rcases hl with ⟨v, h⟩ | ⟨t, i, -, -, h⟩ <;> rw [h] at e <;> cases e)
      exact ⟨z, ev_simp hz⟩
  have hsc := fun k (hk : max k0 2 ≤ k) => eu.fact (p := fun u => Scaled (GE True k L U) b u) fun j u hu =>
    scale_left (Q := GE True k L U) (ext_unit hN) (ge_const 0) hw0 b j u hb.1 (inSpaceC_of dB)
    (fun d hd j z hz => by
      have hl := hb.2 d hd
      rcases hw k (by omega) with rfl | ⟨⟨t, p, q, rfl⟩, gw, hcw⟩
      · rcases simp_one_mul hz with rfl | rfl
        · exact (leaf_ge hl).1
        · exact ge_const 0
      · refine ge_product_total (by omega) hl gw hcw rfl (by simp) (mul_leaf_right hl hcw rfl rfl (by simp [asPower]) ?_ hz)
        intro e
        rcases hl with ⟨v, h⟩ | ⟨t, i, -, -, h⟩ <;> rw [h] at e <;> cases e) hu
  have h2 := hsc _ le_rfl
  have kc : Known ⟨c, .const 0⟩ := ⟨0, rfl, by simp [vecs]⟩
  have hfront : IsZero u ∨ c = .const 0 ∨ ∀ d ∈ u, BeforeC ⟨c, .const 0⟩ d := by
    rcases h2.2 with h | h
    · exact .inl h
    · refine .inr (.inr fun d hd p q hp hq => ?_)
      obtain ⟨c', hc', e'⟩ := h d hd
      obtain rfl : p = 0 := by cases hp; rfl
      have hne : q ≠ 0 := by
        rintro rfl
        exact hs c' hc' (e'.symm.trans hq)
      have hq0 : gradeOf q ≠ 0 := by
        intro h0
        exact hne (gradeOf_zero h0)
      have : gradeOf (0 : Word) = 0 := by simp [gradeOf, vecs]
      exact .inl (by omega)
  obtain ⟨e, he, -⟩ := addC_front (k := 0) kc h2.1.1 hfront
  have dU := eu.fact (p := fun u => SumDenotes ρ N u (op (Finsupp.single 0 y) B)) fun k u hu =>
    (op_denotes hN) ρ _ b u _ B (single_denotes (N := N) vw.1 vw.2) dB hu
  have dE := addC_ok (by omega) 1 _ u e _ _ (single_denotes (N := N) vc.1 vc.2) dU he
  have hop : op (Finsupp.single 0 y) B = y • B := op_scalar_left y B
  rw [hop] at dE
  refine ⟨u, e, eu, ⟨1, fun j hj => addC_mono hj _ _ _ he⟩, dE, max k0 2, fun k hk => ?_⟩
  obtain ⟨h1, -, h3⟩ := addC_front_eq kc h2.1.1 hfront he
  refine ⟨h1, ?_⟩
  have gc : GE True k L U c := by
    rcases hc k (by omega) with rfl | ⟨-, h, -⟩
    · exact ge_const 1
    · exact h
  have gu := (hsc k hk).1.2
  rcases h3 with ⟨-, -, rfl⟩ | ⟨-, -, rfl⟩ | ⟨-, -, rfl⟩ | ⟨-, -, rfl⟩
  · simpa using gc
  · exact gu
  · simpa using gc
  · simpa using ⟨gc, gu⟩

theorem exp_core_total (hN : P + Q + R ≤ 62) {b : CSum} {B : MV ℝ} (hb : Within (Leaf L U) b)
    (dB : SumDenotes ρ (P + Q + R) b B) (hs : ∀ c ∈ b, c.blade ≠ .const 0) {s sq t α i z1 z2 : Expr} {x y tol : ℝ}
    (ht : Leaf L U t) (vt : Denotes ρ t tol) (h0 : 0 ≤ tol) (hT : RootType s sq α i z1 z2)
    (hR : ∃ k0, ∀ k, k0 ≤ k → RootData ρ k L U s sq t α i x y) (gs : ∃ k0, ∀ k, k0 ≤ k → GE True k L U s)
    (h1 : Ev (fun k => mulC (orthMapping (P + Q + R) (mkSignedFactor P Q R) .sp) k b b) [⟨s, .const 0⟩]) :
    ∃ e A, Ev (fun k => expExpr P Q R k b t) e ∧ SumDenotes ρ (P + Q + R) e A ∧
      ∃ k1, ∀ k, k1 ≤ k → Within (GE True k L U) e := by
  obtain ⟨ka, hka⟩ := hR
  obtain ⟨kb, hkb⟩ := gs
  obtain ⟨kc, hkc⟩ := hT.abs
  obtain ⟨kd, hkd⟩ := hT.sine
  obtain ⟨ke, hke⟩ := hT.hsine
  have hx : ¬ |x| ≤ tol → x ≠ 0 := by
    rintro h rfl
    exact h (by simpa using h0)
  have key := fun k (hk : max (max ka kb) (max (max kc kd) (max ke 1)) ≤ k) => by
    have hR := hka k (by omega)
    have vcos := v_elementary (ρ := ρ) (name := .cosine) (z := Real.cos y) (by simp [elementary]) hR.va rfl
    have vcosh := v_elementary (ρ := ρ) (name := .hcosine) (z := Real.cosh y) (by simp [elementary]) hR.va rfl
    have vsin := v_elementary (ρ := ρ) (name := .sine) (z := Real.sin y) (by simp [elementary]) hR.va rfl
    have vsinh := v_elementary (ρ := ρ) (name := .hsine) (z := Real.sinh y) (by simp [elementary]) hR.va rfl
    have hz1 : simp k .mul (.fn .sine [α]) i = some z1 := hkd k (by omega)
    have hz2 : simp k .mul (.fn .hsine [α]) i = some z2 := hke k (by omega)
    have gt : GT True k L U (mkLessOrEqual sq t) :=
      gt_le (ge_abs (hkb k (by omega)) (by omega) (hkc k (by omega))) (leaf_ge ht).1
    obtain ⟨c1, c2⟩ := two_choices (z1 := Real.cos y) (z2 := Real.cosh y) hR ht vt
      (exponent_elementary (name := .cosine) (by simp [elementary]) hR.ea)
      (exponent_elementary (name := .hcosine) (by simp [elementary]) hR.ea)
      (fun _ _ => vcos) (fun _ _ => vcosh)
    obtain ⟨w1, w2⟩ := two_choices (z1 := Real.sin y * y⁻¹) (z2 := Real.sinh y * y⁻¹) hR ht vt
      (hR.prod _ _ (.inl rfl) hz1) (hR.prod _ _ (.inr rfl) hz2)
      (fun h _ => (simp_sound ρ k).mul _ _ _ _ _ vsin (hR.vi (hx h)) hz1)
      (fun h _ => (simp_sound ρ k).mul _ _ _ _ _ vsinh (hR.vi (hx h)) hz2)
    exact And.intro (And.intro (chosen_of hR.ne gt c1) c2) (And.intro (chosen_of hR.ne gt w1) w2)
  obtain ⟨u, e, eu, ee, de, hge⟩ := exp_assemble_total hN hb dB hs (fun k hk => (key k hk).1.1) (fun k hk => (key k hk).2.1)
    (key _ le_rfl).1.2 (key _ le_rfl).2.2
  have eh : Ev (fun k => simp k .pow (.const 2) (.const (-1))) half := ev_simp (k := 5) (by decide +kernel)
  exact ⟨e, _, h1.bind ((Ev.pure s).bind (hT.abs.bind (eh.bind (hT.root.bind (hT.inv.bind (hT.sine.bind (hT.hsine.bind
    (eu.bind ee)))))))), de, hge⟩

/-- Roots for all depths. -/
theorem root_data {s sq α i z1 z2 t : Expr} {x y : ℝ} (hT : RootType s sq α i z1 z2)
    (h : ∀ k, mkAbsolute (simp k) s = some sq → simp k .pow sq half = some α → simp k .pow α (.const (-1)) = some i →
      RootData ρ k L U s sq t α i x y) : ∃ k0, ∀ k, k0 ≤ k → RootData ρ k L U s sq t α i x y := by
  obtain ⟨ka, hka⟩ := hT.abs
  obtain ⟨kb, hkb⟩ := hT.root
  obtain ⟨kc, hkc⟩ := hT.inv
  exact ⟨max ka (max kb kc), fun k hk => h k (hka k (by omega)) (hkb k (by omega)) (hkc k (by omega))⟩

section
variable (hN : P + Q + R ≤ 62) {M T : Object} {A : MV ℝ} {tol : ℝ} (hM : Represents ρ (P + Q + R) M A)
  (hT : ScalarValue ρ (P + Q + R) T tol) (h0 : 0 ≤ tol) (hb : ∀ c ∈ M.expr, c.blade ≠ .const 0)
  (hc : T.expr = [⟨.stored, .const 0⟩] ∨ ∀ c, ConstantSquare ρ P Q R M c → |c| ≤ tol)
  (hw : weightC M.expr < 2 ^ 31) (hn : ∀ c ∈ M.expr, Normal c)
include hN hM hT h0 hb hc hw hn

theorem exp_total : ∃ k0, ∀ k, k0 ≤ k → ∃ o, expObject P Q R k τ ρ M T = some o := by
  have hsc : scalarCoef M.expr = none := by
    cases hs : scalarCoef M.expr with
    | none => rfl
    | some c => exact absurd rfl (hb ⟨c, .const 0⟩ (by rw [scalarCoef_inv hs]; simp))
  obtain ⟨a, t, h1, w1, lt, d1, dt, -⟩ := args2 (by omega) hM hT
  have hbl := arguments_blades hM.1 hb h1
  -- the weights
  have wa : Weighs 1 a (2 ^ 31) := by
    obtain ⟨as, h1', has⟩ := arguments_total (baseId [M, T]) [M, T] [2 ^ 31, weightC T.expr]
      (fun X hX => by
        simp only [List.mem_cons, List.not_mem_nil, or_false] at hX
        rcases hX with rfl | rfl
        · exact hM.1
        · exact hT.2.1)
      (.cons ((plainWs_weight hM.1.2).mono hw.le) (.cons (plainWs_weight hT.2.1.2) .nil))
    rw [h1] at h1'
    cases h1'
    exact (List.forall₂_cons.1 has).1
  have na : ∀ c ∈ a, Normal c := by
    unfold arguments at h1
    split at h1
    · simp only [Option.bind_eq_bind, Option.bind_eq_some_iff, Option.some.injEq, List.cons.injEq] at h1
      obtain ⟨b, hb, l, -, rfl, -⟩ := h1
      exact tagC_normal _ _ _ _ _ hb
    · simp only [Option.bind_eq_bind, Option.bind_eq_some_iff, Option.some.injEq, List.cons.injEq] at h1
      obtain ⟨l, -, rfl, -⟩ := h1
      exact hn
  have ia := in_of w1.1 d1
  obtain ⟨sa, esa, csa, wsa⟩ := tot_mul (signed_sign hN .sp) 1 1 _ _ a a w1.1 w1.1 ia ia wa wa
    (by norm_num [B]) (by norm_num [B])
  have ssa := esa.fact (p := fun e => ∀ c ∈ e, OnScalar c) fun k y h =>
    mulC_scalar (fun k a b r h => sp_onScalar hN h) k _ _ _ (fun c hc => ⟨canonical_known w1.1 c hc, na c hc⟩)
      (fun c hc => ⟨canonical_known w1.1 c hc, na c hc⟩) h
  obtain ⟨s, rfl⟩ := scalar_single csa ssa
  obtain ⟨ks, hks⟩ := id esa
  have hsa := hks ks le_rfl
  have hv : squareCoef P Q R ks M T = some s := by
    simp only [squareCoef, h1, Option.bind_eq_bind, Option.bind_some, hsa, scalarCoef_single]
  have hden := fun vs A => squareCoef_values (outer := ρ) hN hM.1 hT hv (vs := vs) (A := A)
  have psa := (good_graded (k := ks) hN .sp).within _ (poly_const ·) poly_closed a a _
    (within_mono (fun _ => leaf_poly) w1) (within_mono (fun _ => leaf_poly) w1) hsa
  have dsa := (graded_denotes (k := ks) hN .sp) _ a a _ _ _ d1 d1 hsa
  have pv : Poly _ _ s := psa.2 ⟨s, .const 0⟩ (by simp)
  have bv : Built s := (dsa.1 ⟨s, .const 0⟩ (by simp)).1
  rw [sp_square] at dsa
  have dv := single_denotes_inv dsa
  obtain ⟨x, y, px, -, hxy⟩ := wsa
  replace hxy : x + y ≤ 2 ^ 31 * 2 ^ 31 := hxy
  have hx62 : x ≤ 2 ^ 62 := le_trans (Nat.le_add_right x y) (hxy.trans (by norm_num))
  have hxB : x < B := lt_of_le_of_lt hx62 (by norm_num [B])
  obtain ⟨cs, ecs, -⟩ := compile_total px hxB pv
  have hneg : ∃ e, Ev (fun k => simp k .mul (.const (-1)) s) e := by
    obtain ⟨e, he, -⟩ := PW.mul (D := 0) (by norm_num [B]) (PW.const 0 (-1)) px (by simpa using hxB)
    exact ⟨e, he⟩
  have gv : isConstant s = false → ∀ k,
      GE False k (baseId [M, T] + 1) (baseId [M, T] + (storedInputs [M, T]).length) s := fun hc k =>
    ⟨poly_evaluable bv pv, bv, (fun h => by simp [hc] at h), fun τ => poly_noInt _ pv, fun h => h.elim⟩
  have gs : ∃ k0, ∀ k, k0 ≤ k → GE True k (baseId [M, T] + 1) (baseId [M, T] + (storedInputs [M, T]).length) s := by
    obtain ⟨k0, hk⟩ := ecs
    by_cases hcs : isConstant s = false
    · exact ⟨k0, fun k hk' => ge_comp (gv hcs k) ⟨_, hk k hk'⟩⟩
    · rcases squareCoef_lin hN w1 d1 hsa with (⟨c, rfl⟩ | ⟨b, rfl, hb, t', i', rfl⟩ |
        ⟨c, a', rfl, ⟨b, rfl, hb, t', i', rfl⟩, hkc⟩) | ⟨h, t', rfl, ht, -, hn⟩
      · exact ⟨0, fun k _ => ge_const c⟩
      · exact absurd (by simp [isConstant, isConstantAll]) hcs
      · exact absurd (by simp [isConstant, isConstantAll]) hcs
      · obtain ⟨x, t'', rfl⟩ := List.exists_cons_of_ne_nil ht
        exact absurd (by simp [isConstant, isConstantAll, (hn x (by simp)).not_constant]) hcs
  have fin : ∀ y sq α i z1 z2, RootType s sq α i z1 z2 →
      (∀ k, mkAbsolute (simp k) s = some sq → simp k .pow sq half = some α → simp k .pow α (.const (-1)) = some i →
      RootData (contextEnv ρ (baseId [M, T]) (storedInputs [M, T])) k (baseId [M, T] + 1)
        (baseId [M, T] + (storedInputs [M, T]).length) s sq t α i (signedProd P Q R .gp A A 0) y) →
      ∃ k0, ∀ k, k0 ≤ k → ∃ o, expObject P Q R k τ ρ M T = some o := by
    intro y sq α i z1 z2 hrt hrd
    obtain ⟨e, E, ⟨ke, hke⟩, de, ⟨kg, hkg⟩⟩ := exp_core_total hN w1 d1 hbl lt dt h0 hrt (root_data hrt hrd) gs esa
    refine ⟨max ke (max kg 1), fun k hk => ?_⟩
    simp only [expObject, hsc, Option.isSome_none, Bool.false_eq_true, if_false, h1, Option.bind_eq_bind,
      Option.bind_some, scalarCoef_single]
    have : expExpr P Q R k a t = some e := hke k (by omega)
    rw [this, Option.bind_some]
    exact (context_ge (R := True) (τ := τ) (k := k) (Ms := [M, T]) (hkg k (by omega)) de).2 trivial (by omega)
  have hpd : ∀ (ρ : Env) t i, PowDefined (ρ.val t i) ((2 : Int) : ℝ) := by
    intro ρ t i
    rcases lt_trichotomy (ρ.val t i) 0 with h | h | h
    · exact .inr (.inr ⟨h, 2, rfl⟩)
    · exact .inr (.inl ⟨h, by norm_num⟩)
    · exact .inl h
  have hsq' : ∀ ρ : Env, ∀ t i, Denotes ρ (powerOf (.value t i) (.const 2)) (ρ.val t i ^ 2) := by
    intro ρ t i
    have := (V.power (ρ := ρ) (l := .value t i) (x := ρ.val t i) ⟨.value _ _, rfl⟩ (V.const (ρ := ρ) 2)
      ⟨by simp, by simp⟩ (hpd ρ t i)).2
    simpa using this
  have abs : isConstant s = false → isNonNegative s = some false →
      ∃ k0, ∀ k, k0 ≤ k → ∃ o, expObject P Q R k τ ρ M T = some o := by
    intro hcs hnn
    obtain ⟨sq, α, i, z1, z2, hrt⟩ := root_abs_total hneg hcs hnn
    exact fin _ _ _ _ _ _ hrt fun k g2 g3 g4 => root_abs ⟨bv, dv⟩ (gv hcs k) (poly_traitSafe _ pv) hcs hnn g2 g3 g4
  rcases squareCoef_lin hN w1 d1 hsa with (⟨c, rfl⟩ | ⟨b, rfl, hb, t', i', rfl⟩ |
    ⟨c, a', rfl, ⟨b, rfl, hb, t', i', rfl⟩, hkc⟩) | ⟨h, t', rfl, ht, -, hn⟩
  · have hc0 : ∀ vs A, Reads ρ (P + Q + R) M.expr vs M.bitsets A → signedProd P Q R .gp A A 0 = (c : ℝ) := by
      intro vs A hA
      have := hden vs A hA
      simpa [Denotes, den] using this.symm
    have ex : signedProd P Q R .gp A A 0 = c := hc0 _ _ hM.2
    by_cases e0 : c = 0
    · subst e0
      obtain ⟨sq, α, i, z1, z2, hrt⟩ := root_zero_total
      refine fin 0 _ _ _ _ _ hrt fun k g2 g3 g4 => ?_
      rw [ex, Int.cast_zero]
      exact root_zero dt h0 g2 g3 g4
    obtain ⟨sq, α, i, z1, z2, hrt⟩ := root_const_total e0 ((pw_const px).trans hx62)
    refine fin √|(c : ℝ)| _ _ _ _ _ hrt fun k g2 g3 g4 => ?_
    rw [ex]
    refine root_const e0 g2 g3 g4 ?_
    obtain ⟨v, rfl⟩ := abs_const_shape g2
    rcases hc with hc | hc
    · obtain ⟨_, _, rfl⟩ := arguments_stored hc h1
      simp [mkLessOrEqual]
    · have hle := hc c hc0
      have vq : Denotes ρ (.const v) |(c : ℝ)| :=
        abs_den (fun _ => ⟨c, rfl⟩) (.const c) (by simp [TraitSafe]) (V.const (ρ := ρ) c).2 g2
      have hv : |(c : ℝ)| = v := V.const_eq ⟨.const v, vq⟩
      unfold mkLessOrEqual
      split
      · next a b e =>
        cases e
        have : tol = (b : ℝ) := by
          have := dt
          simpa [Denotes, den] using this.symm
        rw [this, hv] at hle
        have : v ≤ b := by exact_mod_cast hle
        simp [this]
      · next e => cases e
      · split_ifs <;> simp
  · have ex : signedProd P Q R .gp A A 0 =
        (contextEnv ρ (baseId [M, T]) (storedInputs [M, T])).val t' i' ^ 2 := by
      have := dv.symm.trans (hsq' _ t' i')
      simpa using this
    obtain ⟨hL, hU⟩ : baseId [M, T] + 1 ≤ t' ∧ t' ≤ baseId [M, T] + (storedInputs [M, T]).length := by
      have := (evaluable_context (gv (by simp [isConstant, isConstantAll]) 0).ev).1
      simpa [inRange, inRangeAll] using this
    obtain ⟨sq, α, i, z1, z2, hrt⟩ := root_atom_total hneg
    refine fin ((contextEnv ρ (baseId [M, T]) (storedInputs [M, T])).val t' i') _ _ _ _ _ hrt fun k g2 g3 g4 => ?_
    rw [ex]
    exact root_atom hL hU g2 g3 g4
  · by_cases hcc : 0 ≤ c
    · exfalso
      have hd : ∀ ρ : Env, Denotes ρ (.fn .mul [.const c, powerOf (.value t' i') (.const 2)]) (c * ρ.val t' i' ^ 2) := by
        intro ρ
        have := hpd ρ t' i'
        have h2 : ((2 : Int) : ℝ) = 2 := by norm_num
        rw [h2] at this
        simp [Denotes, den, denList, interp, this, prodVals]
      rcases square_multiple hN w1 d1 (arguments_distinct hM.1 h1) hsa hd with h | h | h
      · exact hkc.1 (by exact_mod_cast h)
      · exact hkc.2 (by exact_mod_cast h)
      · have : c = -1 := by exact_mod_cast h
        omega
    · exact abs (by simp [isConstant, isConstantAll]) (by simp [isNonNegative, isNonNegativeAll, hcc, isEven])
  · obtain ⟨x, t'', rfl⟩ := List.exists_cons_of_ne_nil ht
    exact abs (by simp [isConstant, isConstantAll, (hn x (by simp)).not_constant]) rfl

end

end GATL.Total
