import Verif.Proofs.UnitConst
import Verif.Proofs.UnitOne

/-!
`unit` of a multivector whose squared norm is a constant at compile time compiles.
-/

namespace GATL.Total

open Expr Spec

variable {τ : Types} {ρ : Env} {P Q R k L U : Nat} {M : Object} {A : MV ℝ} {a ra : CSum}

/-- Evaluation in the context compiles from some depth on. -/
def Compiles (L U : Nat) (z : Expr) : Prop := ∃ d, Ev (fun k => compile k L U z) d

theorem compiles_const (v : Int) : Compiles L U (.const v) := ⟨_, 0, fun _ _ => rfl⟩

theorem mkMul_pair {a b : Expr} (h1 : a ≠ .const 0) (h2 : a ≠ .const 1) (h3 : b ≠ .const 0) (h4 : b ≠ .const 1) :
    mkMul [a, b] = some (.fn .mul [a, b]) := by
  simp [mkMul, h1.symm, h2.symm, h3.symm, h4.symm]

theorem compile_pair (x y : Expr) : compile k L U (.fn .mul [x, y]) = (compile k L U x).bind fun a => (compile k L U y).bind fun b =>
    (simp k .mul a.1 b.1).bind fun e => if anyIs .stored a.1 b.1 then storeValue L U (.fn .mul [x, y]) else some (e, a.2 ++ b.2) := by
  simp only [compile, compileMul]
  rfl

theorem recip_compile {r : Int} (h : 2 ≤ r) : Ev (fun k => compile k L U (recip r)) (recip r, []) := by
  obtain ⟨k0, hk⟩ := inv_const_ev (r := r) (by omega)
  refine ⟨k0, fun k h' => ?_⟩
  have : simp k .pow (.const r) (.const (-1)) = _ := hk k h'
  rw [if_neg (by omega)] at this
  simp only [recip, powerOf, compile, Option.bind_eq_bind, Option.bind_some]
  rw [this]
  rfl

theorem zero_times (y : Expr) : Ev (fun k => simp k .mul (.const 0) y) (.const 0) := by
  refine ev_simp (k := 1) ?_
  show applyRules (mulRules (simp 0)) (.const 0) y = _
  unfold mulRules
  exact applyRules_fire (o := some (.const 0)) (by simp [mulZero, fire])

theorem one_times {y : Expr} (h : y ≠ .const 0) : Ev (fun k => simp k .mul (.const 1) y) y := by
  refine ev_simp (k := 1) ?_
  show applyRules (mulRules (simp 0)) (.const 1) y = _
  unfold mulRules
  rw [applyRules_skip (by simp [mulZero, h])]
  exact applyRules_fire (o := some y) (by simp [mulOne, fire])

/-! ### Quotients of integers -/

theorem iabs_of {v : Int} (h : -2 ^ 63 < v) : iabs v = some |v| := by
  unfold iabs i64
  by_cases h0 : v ≥ 0
  · rw [if_pos h0, abs_of_nonneg h0]
  · rw [if_neg h0, if_pos (by constructor <;> omega), abs_of_neg (by omega)]

theorem igcd_abs (n d : Int) : igcd |n| |d| = Int.gcd n d := by
  rw [Int.abs_eq_natAbs, Int.abs_eq_natAbs, igcd_nat]; rfl

theorem isign_abs (v : Int) : isign v * |v| = v := by
  unfold isign
  by_cases h : v > 0
  · rw [if_pos h, abs_of_pos h, one_mul]
  by_cases h' : v < 0
  · rw [if_neg h, if_pos h', abs_of_neg h']; ring
  · have : v = 0 := by omega
    subst this; rfl

theorem isign_pos {d : Int} (h : 0 < d) : isign d = 1 := by unfold isign; rw [if_pos h]

/-- The rule that simplifies quotients. -/
theorem ratio_step {v d : Int} (h0 : v ≠ 0) (h1 : v ≠ 1) (hne : d ≠ v) :
    simp (k + 1) .mul (.const v) (recip d) = simplerRational (simp k) v d := by
  show applyRules (mulRules (simp k)) (.const v) (recip d) = _
  unfold mulRules
  rw [applyRules_skip (by simp [mulZero, h0]), applyRules_skip (by simp [mulOne, h1]),
    applyRules_skip (by simp [mulDistribute, asAdd]),
    applyRules_skip (by simp [mulHelper, asMul, mulCollect1]),
    applyRules_skip (by simp [mulHelper, asMul, mulCollect2, asPower, hne]),
    applyRules_skip (by simp [mulHelper, asMul, mulCollect3, asPower]),
    applyRules_skip (by simp [mulHelper, asMul, mulConst1, asConst, asRecip]),
    applyRules_fire (o := simplerRational (simp k) v d) (by simp [mulConst2, asConst, asRecip])]

theorem ratio_coprime {v d : Int} (h0 : v ≠ 0) (h1 : v ≠ 1) (hd : 2 ≤ d) (hv : -2 ^ 63 < v) (hg : Int.gcd v d = 1) :
    Ev (fun k => simp k .mul (.const v) (recip d)) (.fn .mul [.const v, recip d]) := by
  obtain ⟨k0, hk⟩ := inv_const_ev (r := d) (by omega)
  have hne : d ≠ v := by
    rintro rfl
    rw [Int.gcd_self] at hg
    omega
  refine ev_simp (k := k0 + 1) ?_
  rw [ratio_step h0 h1 hne]
  have e := hk k0 le_rfl
  rw [if_neg (by omega)] at e
  have ha : |d| = d := abs_of_pos (by omega)
  have g : igcd |v| d = 1 := by
    have := igcd_abs v d
    rw [ha, hg] at this
    simpa using this
  have hs : isign v * isign d * |v| = v := by rw [isign_pos (show 0 < d by omega), mul_one, isign_abs]
  simp only [simplerRational, iabs_of hv, iabs_of (show -2 ^ 63 < d by omega), ha, Option.bind_eq_bind, Option.bind_some, g,
    if_true, hs, e]
  exact mkMul_pair (by simpa using h0) (by simpa using h1) (by simp) (by simp)

theorem ratio_compiles {v d : Int} (h0 : v ≠ 0) (h1 : v ≠ 1) (hd : 2 ≤ d) (hv : -2 ^ 63 < v) (hg : Int.gcd v d = 1) :
    Compiles L U (.fn .mul [.const v, recip d]) := by
  obtain ⟨k1, hk1⟩ := ratio_coprime h0 h1 hd hv hg
  obtain ⟨k2, hk2⟩ := recip_compile (L := L) (U := U) hd
  refine ⟨(.fn .mul [.const v, recip d], []), max k1 k2, fun k hk => ?_⟩
  have e1 : simp k .mul (.const v) (recip d) = _ := hk1 k (by omega)
  have e2 : compile k L U (recip d) = _ := hk2 k (by omega)
  have e3 : compile k L U (.const v) = some (.const v, []) := rfl
  show compile k L U (.fn .mul [.const v, recip d]) = _
  rw [compile_pair, e3, Option.bind_some, e2, Option.bind_some]
  dsimp only
  rw [e1]
  rfl

/-- An integer times the inverse of an integer. -/
theorem ratio_total {v d : Int} (hd : 2 ≤ d) (hv : -2 ^ 63 < v) (hv' : v < 2 ^ 63) :
    ∃ z, Ev (fun k => simp k .mul (.const v) (recip d)) z ∧ Compiles L U z := by
  by_cases h0 : v = 0
  · subst h0
    exact ⟨.const 0, zero_times _, compiles_const 0⟩
  by_cases h1 : v = 1
  · subst h1
    exact ⟨recip d, one_times (by simp), _, recip_compile hd⟩
  by_cases hne : d = v
  · subst hne
    refine ⟨.const 1, ev_simp (k := 5 + 1) ?_, compiles_const 1⟩
    show applyRules (mulRules (simp 5)) (.const d) (recip d) = _
    unfold mulRules
    have e1 : simp 5 .add (.const 1) (.const (-1)) = some (.const 0) := by decide +kernel
    have e2 : simp 5 .pow (.const d) (.const 0) = some (.const 1) := by
      show applyRules (powRules (simp 4)) (.const d) (.const 0) = _
      unfold powRules
      rw [applyRules_skip (by simp [powMisc1, h0, h1])]
      exact applyRules_fire (o := some (.const 1)) (by simp [powMisc2, h0, fire])
    rw [applyRules_skip (by simp [mulZero, h0]), applyRules_skip (by simp [mulOne, h1]),
      applyRules_skip (by simp [mulDistribute, asAdd]),
      applyRules_skip (by simp [mulHelper, asMul, mulCollect1])]
    exact applyRules_fire (o := some (.const 1)) (by simp [mulHelper, asMul, mulCollect2, asPower, e1, e2, fire])
  by_cases hg : Int.gcd v d = 1
  · exact ⟨_, ratio_coprime h0 h1 hd hv hg, ratio_compiles h0 h1 hd hv hg⟩
  obtain ⟨v1, ev⟩ := Int.gcd_dvd_left (a := v) (b := d)
  obtain ⟨d1, ed⟩ := Int.gcd_dvd_right (a := v) (b := d)
  have hgp : 0 < Int.gcd v d := Int.gcd_pos_of_ne_zero_left _ h0
  generalize eg : Int.gcd v d = g at *
  have hg' : (0 : Int) < g := by exact_mod_cast hgp
  have hd1 : 0 < d1 := by
    by_contra hn
    have := mul_nonpos_of_nonneg_of_nonpos hg'.le (not_lt.1 hn)
    omega
  have hv1 : v1 ≠ 0 := by rintro rfl; simp at ev; exact h0 ev
  have hco : Int.gcd v1 d1 = 1 := by
    have := eg
    rw [ev, ed, Int.gcd_mul_left, Int.natAbs_natCast] at this
    exact Nat.eq_of_mul_eq_mul_left hgp (by omega)
  have hb : -2 ^ 63 < v1 ∧ v1 < 2 ^ 63 := by
    constructor <;> nlinarith
  have ha : |d| = d := abs_of_pos (by omega)
  have gi : igcd |v| d = g := by
    have := igcd_abs v d
    rwa [ha, eg] at this
  have ht1 : |v|.tdiv g = |v1| := by
    rw [ev, abs_mul, abs_of_pos hg', Int.mul_tdiv_cancel_left _ hg'.ne']
  have ht2 : d.tdiv g = d1 := by rw [ed, Int.mul_tdiv_cancel_left _ hg'.ne']
  have hs : isign v * isign d * |v1| = v1 := by
    rw [isign_pos (by omega : 0 < d), mul_one]
    have : isign v = isign v1 := by
      unfold isign
      have hp : v > 0 ↔ v1 > 0 := by rw [ev]; exact mul_pos_iff_of_pos_left hg'
      have hn : v < 0 ↔ v1 < 0 := by
        rw [ev]
        constructor <;> intro h
        · by_contra hc
          have := mul_nonneg hg'.le (not_lt.1 hc)
          omega
        · exact mul_neg_of_pos_of_neg hg' h
      simp only [hp, hn]
    rw [this, isign_abs]
  obtain ⟨k0, hk⟩ := inv_const_ev (r := d1) hd1
  have step : ∀ z, Ev (fun k => simp k .mul (.const v1) (if d1 = 1 then .const 1 else powerOf (.const d1) (.const (-1)))) z →
      Ev (fun k => simp k .mul (.const v) (recip d)) z := by
    rintro z ⟨k1, hk1⟩
    refine ev_simp (k := max k0 k1 + 1) ?_
    rw [ratio_step h0 h1 hne]
    have g1 : (g : Int) ≠ 1 := by exact_mod_cast hg
    simp only [simplerRational, iabs_of hv, iabs_of (show -2 ^ 63 < d by omega), ha, Option.bind_eq_bind, Option.bind_some, gi,
      g1, hg'.ne', if_false, ht1, ht2, hs, hk (max k0 k1) (by omega)]
    exact hk1 _ (by omega)
  by_cases hd2 : d1 = 1
  · rw [if_pos hd2] at step
    exact ⟨_, step _ (mul_one_ev _), compiles_const v1⟩
  rw [if_neg hd2] at step
  by_cases hv2 : v1 = 1
  · subst hv2
    exact ⟨recip d1, step _ (one_times (by simp)), _, recip_compile (by omega)⟩
  · exact ⟨_, step _ (ratio_coprime hv1 hv2 (by omega) hb.1 hco), ratio_compiles hv1 hv2 (by omega) hb.1 hco⟩

/-! ### Integers times the inverse of a root -/

theorem minusHalf_compile : Ev (fun k => compile k L U minusHalf) (minusHalf, []) := by
  obtain ⟨k1, hk1⟩ := ev_simp (show simp 10 .mul (.const (-1)) half = some minusHalf by decide +kernel)
  obtain ⟨k2, hk2⟩ := recip_compile (L := L) (U := U) (r := 2) le_rfl
  refine ⟨max k1 k2, fun k hk => ?_⟩
  have e1 : simp k .mul (.const (-1)) half = _ := hk1 k (by omega)
  have e2 : compile k L U half = some (half, []) := hk2 k (by omega)
  have e3 : compile k L U (.const (-1)) = some (.const (-1), []) := rfl
  show compile k L U (.fn .mul [.const (-1), half]) = _
  rw [compile_pair, e3, Option.bind_some, e2, Option.bind_some]
  dsimp only
  rw [e1]
  rfl

theorem three_compile : Ev (fun k => compile k L U (.fn .add [.const 1, minusHalf])) (.fn .add [.const 1, minusHalf], []) := by
  obtain ⟨k1, hk1⟩ := ev_simp (show simp 10 .add (.const 1) minusHalf = some (.fn .add [.const 1, minusHalf]) by decide +kernel)
  obtain ⟨k2, hk2⟩ := minusHalf_compile (L := L) (U := U)
  refine ⟨max k1 k2, fun k hk => ?_⟩
  have e1 : simp k .add (.const 1) minusHalf = _ := hk1 k (by omega)
  have e2 : compile k L U minusHalf = _ := hk2 k (by omega)
  have key : ∀ x y : Expr, compile k L U (.fn .add [x, y]) = (compile k L U x).bind fun a => (compile k L U y).bind fun b =>
      (simp k .add a.1 b.1).bind fun e => if anyIs .stored a.1 b.1 then storeValue L U (.fn .add [x, y]) else some (e, a.2 ++ b.2) := by
    intro x y
    simp only [compile, compileAdd]
    rfl
  have e3 : compile k L U (.const 1) = some (.const 1, []) := rfl
  show compile k L U (.fn .add [.const 1, minusHalf]) = _
  rw [key, e3, Option.bind_some, e2, Option.bind_some]
  dsimp only
  rw [e1]
  rfl

/-- Powers of integers with these exponents are left as they are. -/
theorem root_power {u : Int} (hu : 2 ≤ u) {q : Expr} (hq : q = minusHalf ∨ q = .fn .add [.const 1, minusHalf]) :
    simp 1 .pow (.const u) q = some (powerOf (.const u) q) := by
  show applyRules (powRules (simp 0)) (.const u) q = _
  unfold powRules
  have h0 : u ≠ 0 := by omega
  have h1 : u ≠ 1 := by omega
  rcases hq with rfl | rfl
  · rw [applyRules_skip (by simp [powMisc1, h0, h1]), applyRules_skip (by simp [powMisc2, minusHalf]),
      applyRules_skip (by simp [powMisc3, minusHalf, half, asConst])]
    exact applyRules_fire (o := some _) (by simp [powDistribute, asMul, asPower, fire])
  · rw [applyRules_skip (by simp [powMisc1, h0, h1]), applyRules_skip (by simp [powMisc2]),
      applyRules_skip (by simp [powMisc3, half, asConst])]
    exact applyRules_fire (o := some _) (by simp [powDistribute, asMul, asPower, fire])

theorem root_compile {u : Int} (hu : 2 ≤ u) {q : Expr} (hq : q = minusHalf ∨ q = .fn .add [.const 1, minusHalf]) :
    Ev (fun k => compile k L U (powerOf (.const u) q)) (powerOf (.const u) q, []) := by
  obtain ⟨k1, hk1⟩ := ev_simp (root_power hu hq)
  obtain ⟨k2, hk2⟩ : Ev (fun k => compile k L U q) (q, []) := by
    rcases hq with rfl | rfl
    · exact minusHalf_compile
    · exact three_compile
  refine ⟨max k1 k2, fun k hk => ?_⟩
  have e1 : simp k .pow (.const u) q = _ := hk1 k (by omega)
  have e2 : compile k L U q = _ := hk2 k (by omega)
  have key : ∀ x y : Expr, compile k L U (powerOf x y) = (compile k L U x).bind fun a => (compile k L U y).bind fun b =>
      (simp k .pow a.1 b.1).bind fun e => if anyIs .stored a.1 b.1 then storeValue L U (powerOf x y) else some (e, a.2 ++ b.2) := by
    intro x y
    simp only [compile]
    rfl
  have e3 : compile k L U (.const u) = some (.const u, []) := rfl
  show compile k L U (powerOf (.const u) q) = _
  rw [key, e3, Option.bind_some, e2, Option.bind_some]
  dsimp only
  rw [e1]
  rcases hq with rfl | rfl <;> rfl

theorem root_times {v u : Int} {q : Expr} (hq : q = half ∨ q = minusHalf) (h0 : v ≠ 0) (h1 : v ≠ 1) (hne : u ≠ v) :
    Ev (fun k => simp k .mul (.const v) (powerOf (.const u) q)) (.fn .mul [.const v, powerOf (.const u) q]) := by
  refine ev_simp (k := 1) ?_
  show applyRules (mulRules (simp 0)) (.const v) (powerOf (.const u) q) = _
  unfold mulRules
  have g : lt (.const v) (powerOf (.const u) q) = true := by rcases hq with rfl | rfl <;> rfl
  have a : asRecip (powerOf (.const u) q) = none := by rcases hq with rfl | rfl <;> rfl
  rw [applyRules_skip (by simp [mulZero, h0]), applyRules_skip (by simp [mulOne, h1]),
    applyRules_skip (by simp [mulDistribute, asAdd]),
    applyRules_skip (by simp [mulHelper, asMul, mulCollect1]),
    applyRules_skip (by simp [mulHelper, asMul, mulCollect2, asPower, hne]),
    applyRules_skip (by simp [mulHelper, asMul, mulCollect3, asPower]),
    applyRules_skip (by simp [mulHelper, asMul, mulConst1, asConst, a]),
    applyRules_skip (by simp [mulConst2, asConst, a]),
    applyRules_fire (o := mkMul [.const v, powerOf (.const u) q]) (by simp [mulMergeLt, asMul, g])]
  exact mkMul_pair (by simpa using h0) (by simpa using h1) (by simp) (by simp)

theorem root_total {v u : Int} (hu : 2 ≤ u) :
    ∃ z, Ev (fun k => simp k .mul (.const v) (powerOf (.const u) minusHalf)) z ∧ Compiles L U z := by
  by_cases h0 : v = 0
  · subst h0
    exact ⟨.const 0, zero_times _, compiles_const 0⟩
  by_cases h1 : v = 1
  · subst h1
    exact ⟨_, one_times (by simp), _, root_compile hu (.inl rfl)⟩
  by_cases hne : u = v
  · subst hne
    refine ⟨powerOf (.const u) (.fn .add [.const 1, minusHalf]), ev_simp (k := 10 + 1) ?_, _, root_compile hu (.inr rfl)⟩
    show applyRules (mulRules (simp 10)) (.const u) (powerOf (.const u) minusHalf) = _
    unfold mulRules
    have e1 : simp 10 .add (.const 1) minusHalf = some (.fn .add [.const 1, minusHalf]) := by decide +kernel
    have e2 := simp_mono (show 1 ≤ 10 by omega) _ _ _ _ (root_power hu (.inr rfl))
    rw [applyRules_skip (by simp [mulZero, h0]), applyRules_skip (by simp [mulOne, h1]),
      applyRules_skip (by simp [mulDistribute, asAdd]),
      applyRules_skip (by simp [mulHelper, asMul, mulCollect1])]
    exact applyRules_fire (o := some _) (by simp [mulHelper, asMul, mulCollect2, asPower, e1, e2, fire])
  · have ht := root_times (.inr rfl) h0 h1 hne
    refine ⟨_, ht, (.fn .mul [.const v, powerOf (.const u) minusHalf], []), ?_⟩
    obtain ⟨k1, hk1⟩ := ht
    obtain ⟨k2, hk2⟩ := root_compile (L := L) (U := U) hu (.inl rfl)
    refine ⟨max k1 k2, fun k hk => ?_⟩
    have e1 : simp k .mul (.const v) (powerOf (.const u) minusHalf) = _ := hk1 k (by omega)
    have e2 : compile k L U (powerOf (.const u) minusHalf) = _ := hk2 k (by omega)
    have e3 : compile k L U (.const v) = some (.const v, []) := rfl
    show compile k L U (.fn .mul [.const v, powerOf (.const u) minusHalf]) = _
    rw [compile_pair, e3, Option.bind_some, e2, Option.bind_some]
    dsimp only
    rw [e1]
    rfl

/-! ### Variables -/

/-- The inverse of an integer, or of the root of one. -/
def Inverse (w : Expr) : Prop := ∃ u : Int, 2 ≤ u ∧ (w = recip u ∨ w = powerOf (.const u) minusHalf)

theorem inverse_is_weight {w : Expr} (h : Inverse w) : Weight w := by
  obtain ⟨u, -, rfl | rfl⟩ := h
  · exact .inr (.inl ⟨u, rfl⟩)
  · exact .inr (.inr ⟨u, rfl⟩)

theorem inverse_compile {w : Expr} (h : Inverse w) : Ev (fun k => compile k L U w) (w, []) := by
  obtain ⟨u, hu, rfl | rfl⟩ := h
  · exact recip_compile hu
  · exact root_compile hu (.inl rfl)

theorem power_stored (b : Int) (q : Expr) : simp 1 .mul (powerOf (.const b) q) .stored = some (.fn .mul [powerOf (.const b) q, .stored]) := by
  show applyRules (mulRules (simp 0)) (powerOf (.const b) q) .stored = _
  unfold mulRules
  have g : lt (powerOf (.const b) q) .stored = true := rfl
  rw [applyRules_skip (by simp [mulZero]), applyRules_skip (by simp [mulOne]),
    applyRules_skip (by simp [mulDistribute, asAdd]),
    applyRules_skip (by simp [mulHelper, asMul, mulCollect1]),
    applyRules_skip (by simp [mulHelper, asMul, mulCollect2, asPower]),
    applyRules_skip (by simp [mulHelper, asMul, mulCollect3, asPower]),
    applyRules_skip (by simp [mulHelper, asMul, mulConst1, asConst, asRecip]),
    applyRules_skip (by simp [mulConst2, asConst, asRecip]),
    applyRules_fire (o := mkMul [powerOf (.const b) q, .stored]) (by simp [mulMergeLt, asMul, g])]
  exact mkMul_pair (by simp) (by simp) (by simp) (by simp)

theorem value_power (b : Int) {q : Expr} (hq : q = .const (-1) ∨ q = minusHalf) (t i : Nat) :
    simp 1 .mul (.value t i) (powerOf (.const b) q) = some (.fn .mul [powerOf (.const b) q, .value t i]) := by
  show applyRules (mulRules (simp 0)) (.value t i) (powerOf (.const b) q) = _
  unfold mulRules
  have g1 : lt (.value t i) (powerOf (.const b) q) = false := by rcases hq with rfl | rfl <;> rfl
  have g2 : lt (powerOf (.const b) q) (.value t i) = true := rfl
  rw [applyRules_skip (by simp [mulZero]), applyRules_skip (by simp [mulOne]),
    applyRules_skip (by simp [mulDistribute, asAdd]),
    applyRules_skip (by simp [mulHelper, asMul, mulCollect1]),
    applyRules_skip (by simp [mulHelper, asMul, mulCollect2, asPower]),
    applyRules_skip (by simp [mulHelper, asMul, mulCollect3, asPower]),
    applyRules_skip (by simp [mulHelper, asMul, mulConst1, asConst, asRecip]),
    applyRules_skip (by simp [mulConst2, asConst, asRecip]),
    applyRules_skip (by simp [mulMergeLt, asMul, g1]),
    applyRules_fire (o := mkMul [powerOf (.const b) q, .value t i]) (by simp [mulMergeGt, asMul, g2])]
  exact mkMul_pair (by simp) (by simp) (by simp) (by simp)

theorem value_compile {w : Expr} (hw : Inverse w) {t i : Nat} (h1 : L ≤ t) (h2 : t ≤ U) :
    Ev (fun k => simp k .mul (.value t i) w) (.fn .mul [w, .value t i]) ∧
      Ev (fun k => compile k L U (.fn .mul [w, .value t i])) (.stored, [.value (.fn .mul [w, .value t i])]) := by
  have ew := weight_exponent (L := L) (U := U) (inverse_is_weight hw)
  have hev : Evaluable L U .num (.fn .mul [w, .value t i]) := .mul _ (by simp) (by simp [ew.ev, Evaluable.value t i h1 h2])
  have hw' := hw
  obtain ⟨u, q, hq, rfl⟩ : ∃ u q, (q = .const (-1) ∨ q = minusHalf) ∧ w = powerOf (.const u) q := by
    obtain ⟨u, -, rfl | rfl⟩ := hw
    · exact ⟨_, _, .inl rfl, rfl⟩
    · exact ⟨_, _, .inr rfl, rfl⟩
  refine ⟨ev_simp (value_power u hq t i), ?_⟩
  obtain ⟨k1, hk1⟩ := ev_simp (power_stored u q)
  obtain ⟨k2, hk2⟩ := inverse_compile (L := L) (U := U) hw'
  refine ⟨max k1 k2, fun k hk => ?_⟩
  have e1 : simp k .mul (powerOf (.const u) q) .stored = _ := hk1 k (by omega)
  have e2 : compile k L U (powerOf (.const u) q) = _ := hk2 k (by omega)
  have e3 : compile k L U (.value t i) = some (.stored, [.value (.value t i)]) := by
    rw [compile, if_pos ⟨h1, h2⟩]
    simp [storeValue, inRange, h1, h2]
  show compile k L U (.fn .mul [powerOf (.const u) q, .value t i]) = _
  rw [compile_pair, e2, Option.bind_some, e3, Option.bind_some]
  dsimp only
  rw [e1]
  have hin := (evaluable_context hev).1
  have ha : anyIs .stored (powerOf (.const u) q) .stored = true := by rcases hq with rfl | rfl <;> rfl
  rw [Option.bind_some, if_pos ha, storeValue, if_pos hin]

theorem value_total {w : Expr} (hw : Inverse w) {t i : Nat} (h1 : L ≤ t) (h2 : t ≤ U) :
    ∃ z, Ev (fun k => simp k .mul (.value t i) w) z ∧ Compiles L U z :=
  ⟨_, (value_compile hw h1 h2).1, _, (value_compile hw h1 h2).2⟩

/-! ### The inverse of the norm -/

theorem inverse_scalar_ev {P Q R : Nat} (hN : P + Q + R ≤ 62) {x s i w : Expr} (hx : x ≠ .const 0) (hi0 : i ≠ .const 0)
    (sx : hasStored x = false) (ss : hasStored s = false) (si : hasStored i = false) (sw : hasStored w = false)
    (hneg : ∃ e, Ev (fun k => simp k .mul (.const (-1)) x) e) (hsq : Ev (fun k => simp k .mul x x) s)
    (hinv : Ev (fun k => simp k .pow s (.const (-1))) i) (hri : Ev (fun k => simp k .mul x i) w) :
    Ev (fun k => inverseExpr P Q R k [⟨x, .const 0⟩]) [⟨w, .const 0⟩] := by
  have e1 : Ev (fun k => reverseExpr k [⟨x, .const 0⟩]) [⟨x, .const 0⟩] :=
    (scalar_reverse_ev hneg).bind (lazyOnly_ev (scalar_stored sx))
  have e2 : Ev (fun k => normExpr P Q R k [⟨x, .const 0⟩]) [⟨s, .const 0⟩] :=
    e1.bind ((scalar_mul_ev (scalarMap hN le_rfl (by omega) (signedFactor_small P Q R) (signed_scalar (.inr rfl) hN))
      hx hx hsq).bind (lazyOnly_ev (scalar_stored ss)))
  have e3 : Ev (fun k => powExpr k [⟨s, .const 0⟩] (constSum (-1))) [⟨i, .const 0⟩] :=
    hinv.bind (lazyOnly_ev (scalar_stored si))
  exact e2.bind (e3.bind (e1.bind ((scalar_mul_ev (scalarMap (N := 0) (by omega) (by omega) le_rfl
    (f := mkRealFactor) (fun b => ⟨1, rfl, by simp⟩) real_scalar) hx hi0 hri).bind
    (lazyOnly_ev (scalar_stored sw)))))

theorem inv_ev {u : Int} (hu : 2 ≤ u) : Ev (fun k => simp k .pow (.const u) (.const (-1))) (recip u) := by
  have := inv_const_ev (r := u) (by omega)
  rwa [if_neg (by omega)] at this

theorem inverse_ev {P Q R : Nat} (hN : P + Q + R ≤ 62) {u : Int} {x : Expr} (hu : 2 ≤ u) (hb : u ≤ 2 ^ 62)
    (hx : Ev (fun k => simp k .pow (.const u) half) x) :
    hasStored x = false ∧ ∃ w, Inverse w ∧ Ev (fun k => inverseExpr P Q R k [⟨x, .const 0⟩]) [⟨w, .const 0⟩] := by
  obtain ⟨ρ⟩ := mapping_env
  have hu' : (0 : ℝ) < u := by exact_mod_cast (show 0 < u by omega)
  have vx : V ρ x ((u : ℝ) ^ (1 / 2 : ℝ)) := hx.fact fun k y h =>
    (simp_sound ρ k).pow _ _ _ _ _ (V.const u) v_half (.inl hu') (.inr (.direct _ ⟨by simp, by simp⟩)) h
  have hq : (u : ℝ) ^ (1 / 2 : ℝ) * (u : ℝ) ^ (1 / 2 : ℝ) = u := by
    rw [← Real.sqrt_eq_rpow, Real.mul_self_sqrt hu'.le]
  have hp : (0 : ℝ) < (u : ℝ) ^ (1 / 2 : ℝ) := Real.rpow_pos_of_pos hu' _
  have hsh := hx.fact (p := fun x => (∃ r, x = .const r) ∨ x = powerOf (.const u) half) fun k y h => root_const_shape h
  rcases hsh with ⟨r, rfl⟩ | rfl
  · -- the root is an integer
    have er := vx.const_eq
    rw [er] at hq hp
    have hr : 0 < r := by exact_mod_cast hp
    have eu : r * r = u := by exact_mod_cast hq
    have hr2 : 2 ≤ r := by
      by_contra hc
      have : r = 1 := by omega
      subst this
      omega
    have hrb : r ≤ 2 ^ 31 := by
      by_contra hc
      nlinarith
    have hnat : r.natAbs * r.natAbs < B := by
      have h1 : ((r.natAbs * r.natAbs : Nat) : Int) ≤ 2 ^ 62 := by
        rw [Nat.cast_mul, Int.natCast_natAbs, abs_of_pos hr, eu]; exact hb
      have h2 : r.natAbs * r.natAbs ≤ 2 ^ 62 := by exact_mod_cast h1
      exact lt_of_le_of_lt h2 (by norm_num [B])
    obtain ⟨s, hs, -⟩ := PW.mul (D := 0) (D' := 0) (by norm_num [B]) (PW.const 0 r) (PW.const 0 r) hnat
    obtain ⟨e, he, -⟩ := PW.mul (D := 0) (D' := 0) (by norm_num [B]) (PW.const 0 (-1)) (PW.const 0 r)
      (by simp only [Int.natAbs_neg, Int.natAbs_one, one_mul]; nlinarith [show 0 < r.natAbs by omega])
    obtain ⟨q, rfl⟩ := hs.fact (p := fun x => ∃ q, x = .const q) fun k y h => mul_const_const h
    have vs : V ρ (.const q) ((r : ℝ) * r) := hs.fact fun k y h => (simp_sound ρ k).mul _ _ _ _ _ (V.const r) (V.const r) h
    have eq : q = u := by
      have := vs.const_eq
      rw [hq] at this
      exact_mod_cast this.symm
    subst eq
    obtain ⟨w, hw, -⟩ := ratio_total (L := 0) (U := 0) (v := r) (d := q) hu (by omega) (by omega)
    have vr : V ρ (recip q) (q : ℝ)⁻¹ := (inv_ev hu).fact fun k y h => by
      have := (simp_sound ρ k).pow _ _ _ _ _ (V.const q) (V.const (-1)) (.inl hu') (.inl ⟨-1, rfl⟩) h
      simpa [Real.rpow_neg_one] using this
    have vw : V ρ w ((r : ℝ) * (q : ℝ)⁻¹) := hw.fact fun k y h => (simp_sound ρ k).mul _ _ _ _ _ (V.const r) vr h
    have e1 : (r : ℝ) * (q : ℝ)⁻¹ = (r : ℝ)⁻¹ := by
      rw [← hq, mul_inv, ← mul_assoc, mul_inv_cancel₀ hp.ne', one_mul]
    rw [e1] at vw
    have hsh := hw.fact (p := fun w => IsConst w ∨ ∃ d, w = recip d) fun k y h => by
      rw [← eu] at h
      exact mul_square hr h
    obtain rfl : w = recip r := by
      rcases hsh with ⟨d, rfl⟩ | ⟨d, rfl⟩
      · exfalso
        have e := vw.const_eq
        have e' : (d : ℝ) * r = 1 := by rw [← e, inv_mul_cancel₀ hp.ne']
        have e'' : d * r = 1 := by exact_mod_cast e'
        have := Int.eq_one_of_mul_eq_one_left hr.le e''
        omega
      · obtain ⟨-, e⟩ := vw.recip_inv
        have e' : r = d := by exact_mod_cast inv_injective e
        rw [e']
    exact ⟨rfl, recip r, ⟨r, hr2, .inl rfl⟩, inverse_scalar_ev hN (by simp; omega) (by simp) rfl rfl rfl rfl ⟨e, he⟩ hs (inv_ev hu) hw⟩
  · refine ⟨rfl, powerOf (.const u) minusHalf, ⟨u, hu, .inr rfl⟩, inverse_scalar_ev hN (s := .const u) (i := recip u) (by simp) (by simp) rfl rfl rfl rfl
      ⟨_, root_times (.inl rfl) (by decide) (by decide) (by omega)⟩ (ev_simp (k := 12 + 1) ?_) (inv_ev hu) (ev_simp (k := 12 + 1) ?_)⟩
    · rw [mul_self (by simp) rfl rfl, pow_power (by decide) (by decide), simp_mono (by norm_num) _ _ _ _ half_two]
      show applyRules (powRules (simp 10)) (.const u) (.const 1) = _
      unfold powRules
      rw [applyRules_skip (by simp [powMisc1, show u ≠ 0 by omega, show u ≠ 1 by omega])]
      exact applyRules_fire (o := some (.const u)) (by simp [powMisc2, fire])
    · show simp (12 + 1) .mul (powerOf (.const u) half) (powerOf (.const u) (.const (-1))) = _
      rw [mul_powers (by decide), simp_mono (by norm_num) _ _ _ _ half_sub]
      exact simp_mono (by norm_num) _ _ _ _ (root_power hu (.inl rfl))

theorem inverse_value (ρ : Env) {w : Expr} (h : Inverse w) : ∃ x, V ρ w x := by
  obtain ⟨u, hu, rfl | rfl⟩ := h
  · have hu' : (0 : ℝ) < u := by exact_mod_cast (show 0 < u by omega)
    exact (inv_ev hu).fact (p := fun w => ∃ x, V ρ w x) fun k y h => ⟨_, (simp_sound ρ k).pow _ _ _ _ _ (V.const u) (V.const (-1)) (.inl hu') (.inl ⟨-1, rfl⟩) h⟩
  · have hu' : (0 : ℝ) < u := by exact_mod_cast (show 0 < u by omega)
    have hm : V ρ minusHalf (((-1 : Int) : ℝ) * (1 / 2)) :=
      (simp_sound ρ 10).mul _ _ _ _ _ (V.const (-1)) v_half (show simp 10 .mul (.const (-1)) half = some minusHalf by decide +kernel)
    exact ⟨_, (simp_sound ρ 1).pow _ _ _ _ _ (V.const u) hm (.inl hu') (.inr (.direct _ ⟨by simp, by simp⟩)) (root_power hu (.inl rfl))⟩

/-! ### `unit` -/

theorem weight_total {x w : Expr} (hx : Leaf L U x) (hb : ∀ v, x = .const v → v.natAbs < 2 ^ 63) (hw : Inverse w) :
    ∃ z, Ev (fun k => simp k .mul x w) z ∧ Compiles L U z := by
  rcases hx with ⟨v, rfl⟩ | ⟨t, i, h1, h2, rfl⟩
  · have := hb v rfl
    obtain ⟨u, hu, rfl | rfl⟩ := hw
    · exact ratio_total hu (by omega) (by omega)
    · exact root_total hu
  · exact value_total hw h1 h2

theorem Compiles.all {s : CSum} (h : ∀ c ∈ s, Compiles L U c.coef) :
    ∃ k0, ∀ k, k0 ≤ k → ∀ c ∈ s, ∃ d, compile k L U c.coef = some d := by
  induction s with
  | nil => exact ⟨0, by simp⟩
  | cons c cs ih =>
    obtain ⟨k1, h1⟩ := ih fun c hc => h c (by simp [hc])
    obtain ⟨d, k2, h2⟩ := h c (by simp)
    refine ⟨max k1 k2, fun k hk x hx => ?_⟩
    rcases List.mem_cons.1 hx with rfl | hx
    · exact ⟨d, h2 k (by omega)⟩
    · exact h1 k (by omega) x hx

theorem context_staging_total {N : Nat} {M : Object} {A : MV ℝ} {e : CSum} (hk : k ≠ 0)
    (hw : Within (Staging (baseId [M] + 1) (baseId [M] + (storedInputs [M]).length)) e)
    (hc : ∀ c ∈ e, ∃ d, compile k (baseId [M] + 1) (baseId [M] + (storedInputs [M]).length) c.coef = some d)
    (hA : SumDenotes (contextEnv ρ (baseId [M]) (storedInputs [M])) N e A) : ∃ o, contextObject k τ ρ [M] e = some o := by
  have hev : ∃ r, contextEval k τ ρ [M] e = some r := by
    unfold contextEval
    dsimp only
    split_ifs with hemp
    · exact ⟨_, rfl⟩
    obtain ⟨⟨s', p⟩, hcp⟩ := compileC_staged (n := k) (B := baseId [M]) (U := baseId [M] + (storedInputs [M]).length) hk e hw.1
      (fun x hx => ⟨canonical_known hw.1 x hx, fun y hy => (compile_out (hw.2 x hx).ev y hy).coef⟩) hc
    obtain ⟨vs, h1, -⟩ := compileC_staging (τ := contextTypes τ (baseId [M]) (storedInputs [M])) (ρ' := ρ) e s' p hw.1.1
      (canonical_known hw.1) hw.2 (canonical_iff.1 hw.1).2.2.1 hcp _
      (fun t ht i => ((context_agree ρ _ (storedInputs [M])) t ht i).imp Eq.symm Eq.symm) hA
    simp only [hcp, h1, Option.bind_eq_bind, Option.bind_some]
    exact ⟨_, rfl⟩
  obtain ⟨⟨e', vs, ws⟩, hev⟩ := hev
  simp only [contextObject, hev, Option.bind_eq_bind, Option.bind_some]
  exact ⟨_, rfl⟩

/-- `unit` compiles if the squared norm is a constant. -/
theorem unit_const_total {P Q R : Nat} (hN : P + Q + R ≤ 62) {M : Object} {A : MV ℝ} {a ra : CSum} {c : Int}
    (hM : Represents ρ (P + Q + R) M A) (hw : weightC M.expr < 2 ^ 31)
    (h : NormType P Q R ρ M A a ra (.const c)) (hc : 2 ≤ |c|) (hs : scalarCoef M.expr = none) :
    ∃ k0, ∀ k, k0 ≤ k → ∃ o, unitObject P Q R k τ ρ M = some o := by
  obtain ⟨sq, α, i', z1, z2, hT⟩ := root_const_total (c := c) (by rintro rfl; simp at hc) (h.small c rfl)
  obtain ⟨u, rfl⟩ := hT.abs.fact (p := fun s => ∃ u, s = .const u) fun k y h => abs_const_shape h
  have hu : u = |c| := by
    obtain ⟨ρ⟩ := mapping_env
    have vq : V ρ (.const u) |(c : ℝ)| := hT.abs.fact (p := fun w => V ρ w |(c : ℝ)|) fun k y h =>
      ⟨by obtain ⟨u, rfl⟩ := abs_const_shape h; exact .const u,
        abs_den (fun _ => ⟨c, rfl⟩) (.const c) (by simp [TraitSafe]) (V.const (ρ := ρ) c).2 h⟩
    have := V.const_eq vq
    exact_mod_cast this.symm
  have hub : u ≤ 2 ^ 62 := by
    have := h.small c rfl
    rw [hu, Int.abs_eq_natAbs]
    exact_mod_cast this
  obtain ⟨hst, w, iw, e3⟩ := inverse_ev (P := P) (Q := Q) (R := R) hN (hu ▸ hc) hub hT.root
  have e1 : Ev (fun k => absExpr k [⟨.const c, .const 0⟩]) [⟨.const u, .const 0⟩] := hT.abs.bind (lazyOnly_ev (scalar_stored rfl))
  have e2 : Ev (fun k => sqrtExpr k [⟨.const u, .const 0⟩]) [⟨α, .const 0⟩] := by
    have e1 : Ev (fun k => simp k .pow (.const 2) (.const (-1))) half := ev_simp (k := 5) (by decide +kernel)
    exact e1.bind ((lazyOnly_ev rfl).bind (hT.root.bind (lazyOnly_ev (scalar_stored hst))))
  have hU := (orth_unit hN (mkSignedFactor_const P Q R) (signed_factor hN) (.inl rfl)).1
  have hw0 : w ≠ .const 0 := by obtain ⟨u, -, rfl | rfl⟩ := iw <;> simp
  -- the coefficients of the argument
  have hPw : PlainWs M.expr (weightC M.expr) := plainWs_weight hM.1.2
  obtain ⟨as, h1, has⟩ := arguments_total (baseId [M]) [M] [weightC M.expr]
    (fun X hX => by rw [List.mem_singleton] at hX; subst hX; exact hM.1) (.cons hPw .nil)
  rw [h.args] at h1
  obtain rfl := Option.some.inj h1
  have wa : Weighs 1 a (weightC M.expr) := (List.forall₂_cons.1 has).1
  have tot : ∀ x ∈ a, ∃ z, Ev (fun k => simp k .mul x.coef w) z ∧
      Compiles (baseId [M] + 1) (baseId [M] + (storedInputs [M]).length) z := fun x hx =>
    weight_total (h.leaf.2 x hx) (fun v e => by
      have := pw_const_weight (e ▸ wa.mem x hx)
      omega) iw
  obtain ⟨e, e4⟩ := scale_right_total (signed_sign hN .gp) hU hw0 a h.leaf.1 (in_of h.leaf.1 h.denotes) (inSpaceC_of h.denotes)
    fun x hx => (tot x hx).imp fun _ => And.left
  obtain ⟨k1, hk1⟩ : Ev (fun k => unitExpr P Q R k a) e := h.expr.bind (e1.bind (e2.bind (e3.bind e4)))
  -- its value
  obtain ⟨y, vw⟩ := inverse_value (contextEnv ρ (baseId [M]) (storedInputs [M])) iw
  have de := e4.fact (p := fun e => SumDenotes (contextEnv ρ (baseId [M]) (storedInputs [M])) (P + Q + R) e
    (signedProd P Q R .gp A (Finsupp.single 0 y)))
    fun k z hz => (graded_denotes (k := k) hN .gp) _ a _ _ _ _ h.denotes (single_denotes vw.1 vw.2) hz
  have qe := e4.fact (p := fun e => Within (fun z => Staging (baseId [M] + 1) (baseId [M] + (storedInputs [M]).length) z ∧
      Compiles (baseId [M] + 1) (baseId [M] + (storedInputs [M]).length) z) e)
    fun k z hz => (scale_right (Q := fun z => Staging (baseId [M] + 1) (baseId [M] + (storedInputs [M]).length) z ∧
      Compiles (baseId [M] + 1) (baseId [M] + (storedInputs [M]).length) z) hU ⟨(exponent_const 0).staging, compiles_const 0⟩ hw0 a k z
      h.leaf.1 (inSpaceC_of h.denotes) (fun x hx j z hz => ⟨leaf_weight (h.leaf.2 x hx) (inverse_is_weight iw) hz, by
        obtain ⟨z', h1, h2⟩ := tot x hx
        rw [simp_eq h1 hz]
        exact h2⟩) hz).1
  obtain ⟨k2, hk2⟩ := Compiles.all fun x hx => (qe.2 x hx).2
  refine ⟨max (max k1 k2) 1, fun k hk => ?_⟩
  rw [unit_pure hs h.args (leaf_stored h.leaf) (hk1 k (by omega))]
  exact context_staging_total (by omega) (within_mono (fun _ => And.left) qe) (hk2 k (by omega)) de

end GATL.Total
