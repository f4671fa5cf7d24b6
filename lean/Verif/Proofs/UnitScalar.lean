import Verif.Proofs.UnitType
import Verif.Proofs.RunMono
import Verif.Props.Take
import Verif.Props.Lazy

/-!
`unit` of scalars: the type that it computes, for every depth of instantiation.
-/

namespace GATL

open Expr Spec

variable {P Q R j k : Nat} {τ : Types} {ρ : Env}

theorem absScalar_mono (h : j ≤ k) (M : Object) : OLe (absScalar j τ ρ M) (absScalar k τ ρ M) :=
  call1_mono h (fun _ => OLe.bind (OLe.refl _) fun _ => OLe.bind (mkAbsolute_ole (simp_mono h) _) fun _ => OLe.refl _) M

theorem sqrtScalar_mono (h : j ≤ k) (M : Object) : OLe (sqrtScalar j τ ρ M) (sqrtScalar k τ ρ M) :=
  OLe.bind (simp_mono h _ _ _) fun _ => powScalar_mono h _ _

theorem reverseObject_mono (h : j ≤ k) (M : Object) : OLe (reverseObject j τ ρ M) (reverseObject k τ ρ M) :=
  call1_mono h (gradedMinus_mono h _) M

theorem gradedObject_mono (h : j ≤ k) (g : GradedProduct) (M M' : Object) :
    OLe (gradedObject P Q R j g τ ρ M M') (gradedObject P Q R k g τ ρ M M') :=
  call2_mono h (mulC_mono (orth_mono _ _ _) h) M M'

theorem unit_mono (h : j ≤ k) (M : Object) : OLe (unitObject P Q R j τ ρ M) (unitObject P Q R k τ ρ M) := by
  unfold unitObject
  refine OLe.bind (OLe.refl _) fun as => ?_
  split
  · split_ifs
    · exact OLe.bind (absScalar_mono h _) fun _ => OLe.bind (powScalar_mono h _ _) fun _ =>
        OLe.bind (call2_mono h (mulC_mono (orth_mono _ _ _) h) _ _) fun _ => contextObject_mono h _ _
    · exact OLe.bind (reverseObject_mono h _) fun _ => OLe.bind (gradedObject_mono h _ _ _) fun _ =>
        OLe.bind (absScalar_mono h _) fun _ => OLe.bind (sqrtScalar_mono h _) fun _ =>
        OLe.bind (inverseIn_mono (signedSpace_mono P Q R) h _) fun _ =>
        OLe.bind (gradedObject_mono h _ _ _) fun _ => contextObject_mono h _ _
  · exact OLe.refl _

theorem unit_eq {M o p : Object} (h : unitObject P Q R j τ ρ M = some o) (h' : unitObject P Q R k τ ρ M = some p) :
    o = p := by
  have h1 := unit_mono (Nat.le_max_left j k) M _ h
  have h2 := unit_mono (Nat.le_max_right j k) M _ h'
  rw [h1] at h2
  exact Option.some.inj h2

/-- `unit` of a scalar. -/
def unitScalarExpr (k : Nat) (a : CSum) : Option CSum := do
  let i ← powExpr k (← absExpr k a) (constSum (-1))
  mulC (orthMapping 63 mkRealFactor .gp) k a i

/-- `unit` of a scalar evaluates the type that `unitScalarExpr` computes. -/
theorem unit_scalar_pure {M : Object} {a e : CSum} (hs : (scalarCoef M.expr).isSome)
    (ha : arguments (baseId [M]) [M] = some [a]) (hl : hasStoredC a = false) (he : unitScalarExpr k a = some e) :
    unitObject P Q R k τ ρ M = contextObject k τ ρ [M] e := by
  simp only [unitScalarExpr, Option.bind_eq_bind, Option.bind_eq_some_iff] at he
  obtain ⟨b, h1, i, h2, h3⟩ := he
  have hX : hasStoredC (lazyObject M.floats a).expr = false := hl
  obtain ⟨⟨f1, e1⟩, s1⟩ := abs_pure (τ := τ) (outer := ρ) hX h1
  obtain ⟨⟨f2, e2⟩, s2⟩ := pow_pure (τ := τ) (outer := ρ) (X := ⟨f1, b, [], []⟩) s1 (Y := constObject (-1)) rfl h2
  obtain ⟨f3, e3⟩ := call2_lazy (k := k) (τ := τ) (outer := ρ) hX (Y := ⟨f2, i, [], []⟩) s2 h3
  simp only [unitObject, ha, Option.bind_eq_bind, Option.bind_some, hs, if_true, e1, e2, e3]

theorem unit_stored_type : unitScalarExpr 40 [⟨.value 1 0, .const 0⟩] =
    some [⟨.fn .mul [.value 1 0, powerOf (.fn .absolute [.value 1 0]) (.const (-1))], .const 0⟩] := by
  decide +kernel

theorem sign_truncate {x : ℝ} (h : x ≠ 0) : truncate (x / |x|) = x / |x| := by
  rcases lt_or_gt_of_ne h with h | h
  · rw [abs_of_neg h, div_neg, div_self h.ne]; norm_num [truncate]
  · rw [abs_of_pos h, div_self h.ne']; norm_num [truncate]

theorem unit_stored (f : Bool) (x : ℝ) (h : x ≠ 0) :
    ∃ g, unitObject P Q R 40 τ ρ ⟨f, [⟨.stored, .const 0⟩], [x], []⟩ = some ⟨g, [⟨.stored, .const 0⟩], [x / |x|], []⟩ := by
  rw [unit_scalar_pure (a := [⟨.value 1 0, .const 0⟩]) (by rfl) (by rfl) (by rfl) unit_stored_type]
  refine ⟨_, Props.contextObject_some (s' := [⟨.stored, .const 0⟩]) (vs := [x / |x|]) (ws := [])
    (by simp [storedInputs, hasStoredC, hasStored]) (by rfl) ?_⟩
  have : ∀ a b, divide a b x (if 0 ≤ x then x else -x) = some (x / |x|) := by
    intro a b
    have e : (if 0 ≤ x then x else -x) = |x| := by
      split_ifs with h
      · exact (abs_of_nonneg h).symm
      · exact (abs_of_neg (not_le.1 h)).symm
    rw [e]
    unfold divide
    rw [if_neg (by simpa using h), sign_truncate h, ite_self]
  simp [exec, eval, evalList, evalFn, evalMul, contextEnv, num2, asNumber, baseId, storedInputs,
      hasStoredC, hasStored, greaterIdC, greaterId, Blade.greaterId, this]

/-! ### Constants -/

theorem pow_inv_const {n : Nat} {c : Int} (h : 2 ≤ c) :
    simp (n + 1) .pow (.const c) (.const (-1)) = some (powerOf (.const c) (.const (-1))) := by
  show applyRules (powRules (simp n)) _ _ = _
  unfold powRules
  have e : simplerIpow c 1 = some (.const c) := by simp [simplerIpow, ipow]
  have c0 : c ≠ 0 := by omega
  have c1 : c ≠ 1 := by omega
  rw [applyRules_skip (by simp [powMisc1, c0, c1]), applyRules_skip (by simp [powMisc2])]
  refine applyRules_fire (o := some (powerOf (.const c) (.const (-1)))) ?_
  have hh : (Expr.const (-1)) ≠ half := by simp [half, recip]
  have h1 : c ≠ -1 := by omega
  have hi : iabs (-1) = some 1 := by decide
  simp [powMisc3, asConst, hh, hi, e, h1, fire]

theorem mul_inv_const {n : Nat} {c : Int} (h : 2 ≤ c) :
    simp (n + 3) .mul (.const c) (powerOf (.const c) (.const (-1))) = some (.const 1) := by
  show applyRules (mulRules (simp (n + 2))) _ _ = _
  unfold mulRules
  have e1 : simp (n + 2) .add (.const 1) (.const (-1)) = some (.const 0) :=
    simp_mono (by omega : 2 ≤ n + 2) _ _ _ _ (by decide +kernel)
  have e2 : simp (n + 2) .pow (.const c) (.const 0) = some (.const 1) := by
    show applyRules (powRules (simp (n + 1))) _ _ = _
    unfold powRules
    have c0 : c ≠ 0 := by omega
    have c1 : c ≠ 1 := by omega
    rw [applyRules_skip (by simp [powMisc1, c0, c1])]
    exact applyRules_fire (o := some (.const 1)) (by simp [powMisc2, c0, fire])
  rw [applyRules_skip (by simp [mulZero]; omega), applyRules_skip (by simp [mulOne]; omega),
    applyRules_skip (by simp [mulDistribute, asAdd]),
    applyRules_skip (by simp [mulHelper, asMul, mulCollect1])]
  exact applyRules_fire (o := some (.const 1)) (by simp [mulHelper, asMul, mulCollect2, asPower, e1, e2, fire])

theorem mul_neg_inv_const {n : Nat} {c : Int} (h : 2 ≤ c) (h63 : c < 2 ^ 63) :
    simp (n + 3) .mul (.const (-c)) (powerOf (.const c) (.const (-1))) = some (.const (-1)) := by
  show applyRules (mulRules (simp (n + 2))) _ _ = _
  unfold mulRules
  have e1 : simp (n + 2) .pow (.const 1) (.const (-1)) = some (.const 1) :=
    simp_mono (by omega : 2 ≤ n + 2) _ _ _ _ (by decide +kernel)
  have e2 : simp (n + 2) .mul (.const (-1)) (.const 1) = some (.const (-1)) :=
    simp_mono (by omega : 2 ≤ n + 2) _ _ _ _ (by decide +kernel)
  have e3 : simplerRational (simp (n + 2)) (-c) c = some (.const (-1)) := by
    have a1 : iabs (-c) = some c := by
      unfold iabs i64
      rw [if_neg (by omega), neg_neg, if_pos ⟨by omega, h63⟩]
    have a2 : iabs c = some c := by unfold iabs; rw [if_pos (by omega)]
    have g : igcd c c = c := by
      obtain ⟨m, rfl⟩ := Int.eq_ofNat_of_zero_le (by omega : 0 ≤ c)
      rw [igcd_nat, Nat.gcd_self]
    have s : isign (-c) * isign c = -1 := by
      unfold isign
      rw [if_neg (by omega), if_pos (by omega), if_pos (by omega)]; rfl
    have c1 : c ≠ 1 := by omega
    have c0 : c ≠ 0 := by omega
    simp [simplerRational, a1, a2, g, s, c1, c0, e1, e2]
  rw [applyRules_skip (by simp [mulZero]; omega), applyRules_skip (by simp [mulOne]; omega),
    applyRules_skip (by simp [mulDistribute, asAdd]),
    applyRules_skip (by simp [mulHelper, asMul, mulCollect1]),
    applyRules_skip (by simp [mulHelper, asMul, mulCollect2, asPower]; omega),
    applyRules_skip (by simp [mulHelper, asMul, mulCollect3, asPower]),
    applyRules_skip (by simp [mulHelper, asMul, mulConst1, asConst, asRecip])]
  exact applyRules_fire (o := some (.const (-1))) (by simp [mulConst2, asConst, asRecip, e3, fire])

theorem scalar_mul_lazy {n : Nat} {x y z : Expr} (hx : x ≠ .const 0) (hy : y ≠ .const 0)
    (hz : simp (n + 20) .mul x y = some z) (h1 : simp (n + 20) .mul z (.const 1) = some z) :
    mulC (orthMapping 63 mkRealFactor .gp) (n + 21) [⟨x, .const 0⟩] [⟨y, .const 0⟩] = some [⟨z, .const 0⟩] := by
  have hm : orthMapping 63 mkRealFactor .gp (n + 20) (.const 0) (.const 0) = some [⟨.const 1, .const 0⟩] :=
    orth_mono _ _ _ (by omega : 20 ≤ n + 20) _ _ _ (by decide +kernel)
  unfold mulC
  rw [if_neg (by simp [hx]), if_neg (by simp [hy])]
  simp only [Option.bind_eq_bind, hz, hm, Option.bind_some, distribute, h1]
  have : (Blade.const 0).grades ≠ 0 := by decide
  unfold mkComp
  rw [if_neg this]
  split <;> rfl

theorem mul_one_const (n : Nat) (z : Expr) (h : z ≠ .const 0) : simp (n + 1) .mul z (.const 1) = some z := by
  show applyRules (mulRules (simp n)) _ _ = _
  unfold mulRules
  rw [applyRules_skip (by simp [mulZero, h])]
  by_cases h1 : z = .const 1
  · subst h1
    exact applyRules_fire (o := some (.const 1)) (by simp [mulOne, fire])
  · exact applyRules_fire (o := some z) (by simp [mulOne, h1, fire])

theorem mul_neg_const {n : Nat} {c : Int} (h0 : c ≠ 0) (h1 : c ≠ 1) (h2 : c ≠ -1) (h63 : |c| < 2 ^ 63) :
    simp (n + 1) .mul (.const (-1)) (.const c) = some (.const (-c)) := by
  have hi : mkConst (-c) = some (.const (-c)) := by
    have := abs_lt.1 h63
    unfold mkConst i64
    rw [if_pos (by omega)]; rfl
  show applyRules (mulRules (simp n)) _ _ = _
  unfold mulRules
  rw [applyRules_skip (by simp [mulZero, h0]), applyRules_skip (by simp [mulOne, h1]),
    applyRules_skip (by simp [mulDistribute, asAdd]),
    applyRules_skip (by simp [mulHelper, asMul, mulCollect1, h2.symm]),
    applyRules_skip (by simp [mulHelper, asMul, mulCollect2, asPower]),
    applyRules_skip (by simp [mulHelper, asMul, mulCollect3, asPower])]
  exact applyRules_fire (o := some (.const (-c))) (by simp [mulHelper, asMul, mulConst1, asConst, hi, fire])

theorem unit_const_type {n : Nat} {c : Int} (h0 : c ≠ 0) (h63 : |c| < 2 ^ 63) :
    unitScalarExpr (n + 21) [⟨.const c, .const 0⟩] = some [⟨.const c.sign, .const 0⟩] := by
  have key : ∀ {a b}, mkAbsolute (simp (n + 21)) (.const c) = some a → hasStored a = false →
      simp (n + 21) .pow a (.const (-1)) = some b → hasStored b = false →
      b ≠ .const 0 → simp (n + 20) .mul (.const c) b = some (.const c.sign) →
      unitScalarExpr (n + 21) [⟨.const c, .const 0⟩] = some [⟨.const c.sign, .const 0⟩] := by
    intro a b ha sa hb sb b0 hm
    have hz : (.const c.sign : Expr) ≠ .const 0 := by simpa using h0
    simp only [unitScalarExpr, absExpr, powExpr, constSum, scalarCoef_single, ha, hb, lazyOnly, scalar_stored sa,
      scalar_stored sb, Option.bind_eq_bind, Option.bind_some, if_true]
    exact scalar_mul_lazy (by simpa using h0) b0 hm (mul_one_const _ _ hz)
  rcases lt_trichotomy c (-1) with h | h | h
  · have e := abs_of_neg (by omega : c < 0)
    rw [e] at h63
    have hs : c.sign = -1 := Int.sign_eq_neg_one_of_neg (by omega)
    refine key (a := .const (-c)) (b := powerOf (.const (-c)) (.const (-1))) ?_ rfl
      (pow_inv_const (by omega)) rfl (by simp) ?_
    · have := mul_neg_const (n := n + 20) h0 (by omega) (by omega) (e ▸ h63)
      simp [mkAbsolute, isNonNegative, this, isConstant, isFunction]
      omega
    · have := mul_neg_inv_const (n := n + 17) (c := -c) (by omega) h63
      rw [neg_neg] at this
      rw [hs]; exact this
  · subst h
    refine key (a := .const 1) (b := .const 1) ?_ rfl ?_ rfl (by simp) ?_
    · exact mkAbsolute_ole (simp_mono (by omega : 5 ≤ n + 21)) _ _ (by decide +kernel)
    · exact simp_mono (by omega : 5 ≤ n + 21) _ _ _ _ (by decide +kernel)
    · exact simp_mono (by omega : 5 ≤ n + 20) _ _ _ _ (by decide +kernel)
  · rcases eq_or_lt_of_le (by omega : 1 ≤ c) with h1 | h1
    · subst h1
      refine key (a := .const 1) (b := .const 1) ?_ rfl ?_ rfl (by simp) ?_
      · exact mkAbsolute_ole (simp_mono (by omega : 5 ≤ n + 21)) _ _ (by decide +kernel)
      · exact simp_mono (by omega : 5 ≤ n + 21) _ _ _ _ (by decide +kernel)
      · exact simp_mono (by omega : 5 ≤ n + 20) _ _ _ _ (by decide +kernel)
    · have hs : c.sign = 1 := Int.sign_eq_one_of_pos (by omega)
      refine key (a := .const c) (b := powerOf (.const c) (.const (-1))) ?_ rfl
        (pow_inv_const (by omega)) rfl (by simp) ?_
      · have := mul_neg_const (n := n + 20) h0 (by omega) (by omega) h63
        simp [mkAbsolute, isNonNegative, this]
        omega
      · rw [hs]; exact mul_inv_const (n := n + 17) (by omega)

theorem unit_const (f : Bool) {n : Nat} {c : Int} (h0 : c ≠ 0) (h63 : |c| < 2 ^ 63) :
    ∃ g, unitObject P Q R (n + 21) τ ρ ⟨f, [⟨.const c, .const 0⟩], [], []⟩ =
      some ⟨g, [⟨.const c.sign, .const 0⟩], [], []⟩ := by
  rw [unit_scalar_pure (a := [⟨.const c, .const 0⟩]) (by rfl) (by rfl) (by rfl) (unit_const_type h0 h63)]
  exact ⟨_, rfl⟩

end GATL
