import Verif.Proofs.Scale
import Verif.Proofs.Depth

/-!
Square roots and inverses of opaque expressions: the types that the simplifier computes.
-/

namespace GATL

open Expr Spec

variable {n : Nat} {u l r e : Expr}

/-- The exponent `-1/2`. -/
abbrev minusHalf : Expr := .fn .mul [.const (-1), recip 2]

theorem const_constant (v : Int) : isConstant (.const v) = true := rfl

theorem ne_const (h : isConstant u = false) (v : Int) : u ≠ .const v := by
  rintro rfl; simp [isConstant] at h

theorem asConst_ne (h : ∀ v, u ≠ .const v) : asConst u = none := by
  cases u <;> first | rfl | exact absurd rfl (h _)

/-- The power of an expression that is neither a constant, nor a product, nor a power. -/
theorem pow_opaque (hc : ∀ v, l ≠ .const v) (hm : asMul l = none) (hp : asPower l = none) (h0 : r ≠ .const 0)
    (h1 : r ≠ .const 1) : simp (n + 1) .pow l r = some (powerOf l r) := by
  show applyRules (powRules (simp n)) l r = _
  unfold powRules
  rw [applyRules_skip (by simp [powMisc1, hc]), applyRules_skip (by simp [powMisc2, h0, h1]),
    applyRules_skip (by simp [powMisc3, asConst_ne hc])]
  exact applyRules_fire (o := some (powerOf l r)) (by simp [powDistribute, hm, hp, fire])

theorem pow_one (hc : ∀ v, l ≠ .const v) : simp (n + 1) .pow l (.const 1) = some l := by
  show applyRules (powRules (simp n)) l (.const 1) = _
  unfold powRules
  rw [applyRules_skip (by simp [powMisc1, hc])]
  exact applyRules_fire (o := some l) (by simp [powMisc2, fire])

/-- The power of a power. -/
theorem pow_power {a p : Expr} (h0 : r ≠ .const 0) (h1 : r ≠ .const 1) :
    simp (n + 1) .pow (powerOf a p) r = (simp n .mul p r).bind fun q => simp n .pow a q := by
  show applyRules (powRules (simp n)) (powerOf a p) r = _
  unfold powRules
  rw [applyRules_skip (by simp [powMisc1]), applyRules_skip (by simp [powMisc2, h0, h1]),
    applyRules_skip (by simp [powMisc3, asConst])]
  exact applyRules_fire (by simp [powDistribute, asMul, asPower])

/-- The square of an expression that is neither a constant, nor a sum, nor a product. -/
theorem mul_self (hc : ∀ v, l ≠ .const v) (ha : asAdd l = none) (hm : asMul l = none) :
    simp (n + 1) .mul l l = simp n .pow l (.const 2) := by
  show applyRules (mulRules (simp n)) l l = _
  unfold mulRules
  rw [applyRules_skip (by simp [mulZero, hc]), applyRules_skip (by simp [mulOne, hc]),
    applyRules_skip (by simp [mulDistribute, ha])]
  exact applyRules_fire (by simp [mulHelper, hm, mulCollect1])

theorem powerOf_base (a p : Expr) : a ≠ powerOf a p := by
  intro h
  have := congrArg size h
  simp [size, sizeList] at this
  omega

/-- The product of two powers of the same base. -/
theorem mul_powers {a p q : Expr} (hpq : p ≠ q) :
    simp (n + 1) .mul (powerOf a p) (powerOf a q) = (simp n .add p q).bind fun s => simp n .pow a s := by
  show applyRules (mulRules (simp n)) (powerOf a p) (powerOf a q) = _
  unfold mulRules
  rw [applyRules_skip (by simp [mulZero]), applyRules_skip (by simp [mulOne]),
    applyRules_skip (by simp [mulDistribute, asAdd]),
    applyRules_skip (by simp [mulHelper, asMul, mulCollect1, hpq]),
    applyRules_skip (by simp [mulHelper, asMul, mulCollect2, asPower, powerOf_base])]
  exact applyRules_fire (by simp [mulHelper, asMul, mulCollect3, asPower])

theorem simp_eq {j k : Nat} {op : Op} {x : Expr} (hj : simp j op l r = some e)
    (hk : simp k op l r = some x) : e = x := by
  have h1 := simp_mono (Nat.le_max_left j k) op l r _ hj
  have h2 := simp_mono (Nat.le_max_right j k) op l r _ hk
  rw [h1] at h2
  exact Option.some.inj h2

theorem half_eq (h : simp n .pow (.const 2) (.const (-1)) = some e) : e = half :=
  simp_eq h (k := 5) (by decide +kernel)

theorem half_two : simp 10 .mul half (.const 2) = some (.const 1) := by decide +kernel

theorem half_sub : simp 10 .add half (.const (-1)) = some minusHalf := by decide +kernel

theorem half_neg : simp 10 .mul half (.const (-1)) = some minusHalf := by decide +kernel

section
variable (hu : Opaque u)
include hu

theorem opaque_ne (v : Int) : u ≠ .const v := ne_const hu.1 v

theorem root_eq (h : simp n .pow u half = some e) : e = powerOf u half :=
  simp_eq h (pow_opaque (n := 0) (opaque_ne hu) hu.2.2.1 hu.2.2.2 (by decide) (by decide))

/-- The square of the square root. -/
theorem root_square (h : simp n .mul (powerOf u half) (powerOf u half) = some e) : e = u := by
  refine simp_eq h (k := 12 + 1) ?_
  rw [mul_self (by simp) rfl rfl, pow_power (by decide) (by decide), simp_mono (by norm_num) _ _ _ _ half_two]
  exact pow_one (opaque_ne hu)

theorem inv_eq (h : simp n .pow u (.const (-1)) = some e) : e = powerOf u (.const (-1)) :=
  simp_eq h (pow_opaque (n := 0) (opaque_ne hu) hu.2.2.1 hu.2.2.2 (by decide) (by decide))

/-- The square root times the inverse. -/
theorem root_inv (h : simp n .mul (powerOf u half) (powerOf u (.const (-1))) = some e) : e = powerOf u minusHalf := by
  refine simp_eq h (k := 12 + 1) ?_
  rw [mul_powers (by decide), simp_mono (by norm_num) _ _ _ _ half_sub]
  exact pow_opaque (opaque_ne hu) hu.2.2.1 hu.2.2.2 (by decide) (by decide)

/-- The inverse of the square root. -/
theorem inv_root (h : simp n .pow (powerOf u half) (.const (-1)) = some e) : e = powerOf u minusHalf := by
  refine simp_eq h (k := 12 + 1) ?_
  rw [pow_power (by decide) (by decide), simp_mono (by norm_num) _ _ _ _ half_neg]
  exact pow_opaque (opaque_ne hu) hu.2.2.1 hu.2.2.2 (by decide) (by decide)

end

end GATL
