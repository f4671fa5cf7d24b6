import Verif.Proofs.Simplify

/-!
# The product and power rules preserve values
-/

namespace GATL

open Expr Spec

variable {ρ : Env}

section Arithmetic

/-- Whatever the fuel, `ipow` returns the power if it returns. -/
theorem ipow_sound (fuel : Nat) (b e r : Int) (h : ipow fuel b e = some r) :
    0 ≤ e ∧ r = b ^ e.toNat := by
  induction fuel generalizing e r with
  | zero => simp [ipow] at h
  | succ fuel ih =>
    unfold ipow at h
    split at h
    · rename_i h1; subst h1
      simp only [Option.some.injEq] at h; subst h; simp
    · split at h
      · rename_i h0; subst h0
        simp only [Option.some.injEq] at h; subst h; simp
      · simp only [Option.bind_eq_bind, Option.bind_eq_some_iff] at h
        obtain ⟨x, hx, y, hy, z, hz, w, hw, h⟩ := h
        obtain ⟨e1, rfl⟩ := ih _ _ hx
        obtain ⟨-, rfl⟩ := ih _ _ hy
        obtain ⟨e2, rfl⟩ := ih _ _ hw
        obtain rfl := i64_eq hz
        obtain rfl := i64_eq h
        rw [Int.shiftRight_eq_div_pow] at *
        have h0 : 0 ≤ e := by
          have : e / ((2 ^ 1 : Nat) : Int) ≥ 0 := e1
          omega
        refine ⟨h0, ?_⟩
        rw [← pow_add, ← pow_add]
        congr 1
        rw [Int.tmod_eq_emod_of_nonneg h0] at *
        norm_num
        omega

theorem isqrtLoop_nonneg (fuel : Nat) (sq dlt a s : Int) (hd : 3 ≤ dlt)
    (h : isqrtLoop fuel sq dlt a = some s) : 0 ≤ s := by
  induction fuel generalizing sq dlt with
  | zero => simp [isqrtLoop] at h
  | succ fuel ih =>
    unfold isqrtLoop at h
    split at h
    · simp only [Option.bind_eq_bind, Option.bind_eq_some_iff] at h
      obtain ⟨x, hx, y, hy, h⟩ := h
      exact ih _ _ (by rw [i64_eq hy]; omega) h
    · simp only [Option.some.injEq] at h
      subst h
      rw [Int.shiftRight_eq_div_pow]
      norm_num
      omega

theorem iabs_some {x y : Int} (h : iabs x = some y) : y = |x| := by
  unfold iabs at h
  split at h
  · simp only [Option.some.injEq] at h
    rw [← h, abs_of_nonneg (by assumption)]
  · rw [i64_eq h, abs_of_neg (by omega)]

theorem isign_mul_abs (x : Int) : isign x * |x| = x := by
  unfold isign
  split
  · rw [abs_of_pos (by assumption), one_mul]
  · split
    · rw [abs_of_neg (by assumption)]; ring
    · have : x = 0 := by omega
      subst this; simp

theorem powDefined_int {a : ℝ} {n : ℤ} : PowDefined a n ↔ a ≠ 0 ∨ 0 < n := by
  unfold PowDefined
  constructor
  · rintro (h | ⟨rfl, h⟩ | ⟨h, -⟩)
    · exact Or.inl h.ne'
    · exact Or.inr (by exact_mod_cast h)
    · exact Or.inl h.ne
  · intro h
    rcases lt_trichotomy a 0 with h' | h' | h'
    · exact Or.inr (Or.inr ⟨h', n, rfl⟩)
    · rcases h with h | h
      · exact absurd h' h
      · exact Or.inr (Or.inl ⟨h', by exact_mod_cast h⟩)
    · exact Or.inl h'

theorem powDefined_add {a p q : ℝ} (h1 : PowDefined a p) (h2 : PowDefined a q) :
    PowDefined a (p + q) ∧ a ^ (p + q) = a ^ p * a ^ q := by
  rcases lt_trichotomy a 0 with h | h | h
  · have hint : ∀ {x}, PowDefined a x → ∃ n : ℤ, x = n := by
      rintro x (h' | ⟨h', -⟩ | ⟨-, h'⟩)
      · linarith
      · linarith
      · exact h'
    obtain ⟨n, rfl⟩ := hint h1
    obtain ⟨m, rfl⟩ := hint h2
    refine ⟨Or.inr (Or.inr ⟨h, n + m, by push_cast; rfl⟩), ?_⟩
    rw [← Int.cast_add, Real.rpow_intCast, Real.rpow_intCast, Real.rpow_intCast, zpow_add₀ h.ne]
  · subst h
    have hp : 0 < p := by
      rcases h1 with h | ⟨-, h⟩ | ⟨h, -⟩
      · exact absurd h (lt_irrefl _)
      · exact h
      · exact absurd h (lt_irrefl _)
    have hq : 0 < q := by
      rcases h2 with h | ⟨-, h⟩ | ⟨h, -⟩
      · exact absurd h (lt_irrefl _)
      · exact h
      · exact absurd h (lt_irrefl _)
    refine ⟨Or.inr (Or.inl ⟨rfl, by linarith⟩), ?_⟩
    rw [Real.zero_rpow (by linarith), Real.zero_rpow hp.ne', zero_mul]
  · exact ⟨Or.inl h, Real.rpow_add h p q⟩

theorem powDefined_one (a : ℝ) : PowDefined a 1 := by
  have : PowDefined a ((1 : ℤ) : ℝ) := powDefined_int.2 (Or.inr one_pos)
  simpa using this

theorem powDefined_neg_one {d : ℝ} (hd : d ≠ 0) : PowDefined d (((-1 : Int)) : ℝ) :=
  powDefined_int.2 (Or.inl hd)

theorem powDefined_zero_pos {b : ℝ} (h : PowDefined 0 b) : 0 < b := by
  rcases h with h | ⟨-, h⟩ | ⟨h, -⟩
  · exact absurd h (lt_irrefl _)
  · exact h
  · exact absurd h (lt_irrefl _)

end Arithmetic

section Product

variable {S : Simp} (hS : Sound ρ S)
include hS

theorem mulHelper_ok {rule : Rule} (h : RuleOk ρ (· * ·) rule) :
    RuleOk ρ (· * ·) (mulHelper S rule) := by
  intro l r e a b hl hr he
  unfold mulHelper at he
  split at he
  · exact h l r e a b hl hr he
  · rename_i b' bs h1 h2
    obtain rfl := asMul_some h2
    obtain ⟨x, y, hx, hy, hne, rfl⟩ := hr.mul_cons
    simp only [Option.bind_eq_bind, Option.bind_eq_some_iff] at he
    obtain ⟨o, ho, he⟩ := he
    rcases o with _ | o
    · simp at he
    · simp only [fire_some, Option.bind_eq_some_iff] at he
      obtain ⟨m, hm, he⟩ := he
      exact (hS.mul _ _ _ _ _ (h _ _ _ _ _ hl hx ho) (hy.mkMul hne hm) he).of_eq
        (by simp only; ring)
  · rename_i a' as h1 h2
    obtain rfl := asMul_some h1
    obtain ⟨x, y, hx, hy, hne, rfl⟩ := hl.mul_cons
    simp only [Option.bind_eq_bind, Option.bind_eq_some_iff] at he
    obtain ⟨o, ho, he⟩ := he
    rcases o with _ | o
    · simp at he
    · simp only [fire_some, Option.bind_eq_some_iff] at he
      obtain ⟨m, hm, he⟩ := he
      exact (hS.mul _ _ _ _ _ (h _ _ _ _ _ hx hr ho) (hy.mkMul hne hm) he).of_eq
        (by simp only; ring)
  · rename_i a' as b' bs h1 h2
    obtain rfl := asMul_some h1
    obtain rfl := asMul_some h2
    obtain ⟨x, y, hx, hy, hne, rfl⟩ := hl.mul_cons
    obtain ⟨z, w, hz, hw, hne', rfl⟩ := hr.mul_cons
    simp only [Option.bind_eq_bind, Option.bind_eq_some_iff] at he
    obtain ⟨o, ho, he⟩ := he
    rcases o with _ | o
    · simp at he
    · simp only [fire_some, Option.bind_eq_some_iff] at he
      obtain ⟨m, hm, n, hn, p, hp, he⟩ := he
      exact (hS.mul _ _ _ _ _ (h _ _ _ _ _ hx hz ho)
        (hS.mul _ _ _ _ _ (hy.mkMul hne hm) (hw.mkMul hne' hn) hp) he).of_eq (by simp only; ring)

omit hS in
theorem mulZero_ok : RuleOk ρ (· * ·) mulZero := by
  intro l r e a b hl hr he
  unfold mulZero at he
  split at he
  · rename_i h
    simp only [Option.some.injEq] at he; subst he
    refine (V.const 0).of_eq ?_
    rcases h with rfl | rfl
    · simp only; rw [hl.const_eq]; simp
    · simp only; rw [hr.const_eq]; simp
  · simp at he

omit hS in
theorem mulOne_ok : RuleOk ρ (· * ·) mulOne := by
  intro l r e a b hl hr he
  unfold mulOne at he
  split at he
  · rename_i h; subst h
    simp only [Option.some.injEq] at he; subst he
    exact hr.of_eq (by simp only; rw [hl.const_eq]; simp)
  · split at he
    · rename_i h; subst h
      simp only [Option.some.injEq] at he; subst he
      exact hl.of_eq (by simp only; rw [hr.const_eq]; simp)
    · simp at he

theorem mulDistribute_ok : RuleOk ρ (· * ·) (mulDistribute S) := by
  intro l r e a b hl hr he
  unfold mulDistribute at he
  split at he
  · simp at he
  · rename_i h1 h2
    obtain rfl := asAdd_some h2
    obtain ⟨x, y, hx, hy, -, rfl⟩ := hr.add_cons
    simp only [fire_some, Option.bind_eq_bind, Option.bind_eq_some_iff] at he
    obtain ⟨m, hm, n, hn, p, hp, he⟩ := he
    exact (hS.add _ _ _ _ _ (hS.mul _ _ _ _ _ hl hx hm)
      (hS.mul _ _ _ _ _ hl (hy.mkAdd hn) hp) he).of_eq (by simp only; ring)
  · rename_i h1 h2
    obtain rfl := asAdd_some h1
    obtain ⟨x, y, hx, hy, -, rfl⟩ := hl.add_cons
    simp only [fire_some, Option.bind_eq_bind, Option.bind_eq_some_iff] at he
    obtain ⟨m, hm, n, hn, p, hp, he⟩ := he
    exact (hS.add _ _ _ _ _ (hS.mul _ _ _ _ _ hx hr hm)
      (hS.mul _ _ _ _ _ (hy.mkAdd hn) hr hp) he).of_eq (by simp only; ring)
  · rename_i h1 h2
    obtain rfl := asAdd_some h1
    obtain rfl := asAdd_some h2
    obtain ⟨x, y, hx, hy, -, rfl⟩ := hl.add_cons
    obtain ⟨z, w, hz, hw, -, rfl⟩ := hr.add_cons
    simp only [fire_some, Option.bind_eq_bind, Option.bind_eq_some_iff] at he
    obtain ⟨m1, h1, m2, h2, m3, h3, m4, h4, m5, h5, m6, h6, m7, h7, m8, h8, m9, h9,
      m10, h10, he⟩ := he
    exact (hS.add _ _ _ _ _
      (hS.add _ _ _ _ _ (hS.mul _ _ _ _ _ hx hz h1) (hS.mul _ _ _ _ _ (hy.mkAdd h2) hz h3) h4)
      (hS.add _ _ _ _ _ (hS.mul _ _ _ _ _ hx (hw.mkAdd h5) h6)
        (hS.mul _ _ _ _ _ (hy.mkAdd h7) (hw.mkAdd h8) h9) h10) he).of_eq (by simp only; ring)

theorem mulCollect1_ok : RuleOk ρ (· * ·) (mulCollect1 S) := by
  intro l r e a b hl hr he
  unfold mulCollect1 at he
  split at he
  · rename_i h; subst h
    rw [fire_some] at he
    refine (hS.pow _ _ _ _ _ hl (V.const 2) (powDefined_int.2 (Or.inr (by norm_num)))
      (Or.inl ⟨2, by norm_num⟩) he).of_eq ?_
    rw [hr.unique hl, Real.rpow_intCast]
    norm_num [sq]
  · simp at he

theorem mulCollect2_ok : RuleOk ρ (· * ·) (mulCollect2 S) := by
  intro l r e a b hl hr he
  have second : ∀ q, r = powerOf l q → (∃ s, S .add (.const 1) q = some s ∧ S .pow l s = some e) →
      V ρ e (a * b) := by
    rintro q rfl ⟨s, hs, he⟩
    obtain ⟨x, y, hx, hy, hdir, hp, rfl⟩ := hr.power_inv
    obtain rfl := hl.unique hx
    have hd := powDefined_add (powDefined_one a) hp
    have hs' := hS.add _ _ _ _ _ (V.const 1) hy hs
    push_cast at hs'
    refine (hS.pow _ _ _ _ _ hx hs' hd.1 (Or.inr (.direct _ hdir)) he).of_eq ?_
    rw [hd.2, Real.rpow_one]
  unfold mulCollect2 at he
  split at he
  · rename_i p h1
    obtain rfl := asPower_some h1
    split at he
    · rename_i hc; subst hc
      simp only [fire_some, Option.bind_eq_bind, Option.bind_eq_some_iff] at he
      obtain ⟨s, hs, he⟩ := he
      obtain ⟨x, y, hx, hy, hdir, hp, rfl⟩ := hl.power_inv
      obtain rfl := hr.unique hx
      have hd := powDefined_add hp (powDefined_one b)
      have hs' := hS.add _ _ _ _ _ hy (V.const 1) hs
      push_cast at hs'
      refine (hS.pow _ _ _ _ _ hx hs' hd.1 (Or.inr (.direct _ hdir)) he).of_eq ?_
      rw [hd.2, Real.rpow_one]
    · split at he
      · rename_i h2
        split at he
        · rename_i hc
          have h2 := asPower_some h2
          subst hc
          simp only [fire_some, Option.bind_eq_bind, Option.bind_eq_some_iff] at he
          exact second _ h2 he
        · simp at he
      · simp at he
  · split at he
    · rename_i h2
      split at he
      · rename_i hc
        have h2 := asPower_some h2
        subst hc
        simp only [fire_some, Option.bind_eq_bind, Option.bind_eq_some_iff] at he
        exact second _ h2 he
      · simp at he
    · simp at he

theorem mulCollect3_ok : RuleOk ρ (· * ·) (mulCollect3 S) := by
  intro l r e a b hl hr he
  unfold mulCollect3 at he
  split at he
  · rename_i h1 h2
    split at he
    · rename_i hc; subst hc
      obtain rfl := asPower_some h1
      obtain rfl := asPower_some h2
      simp only [fire_some, Option.bind_eq_bind, Option.bind_eq_some_iff] at he
      obtain ⟨s, hs, he⟩ := he
      obtain ⟨x, y, hx, hy, hdir, hp, rfl⟩ := hl.power_inv
      obtain ⟨z, w, hz, hw, -, hq, rfl⟩ := hr.power_inv
      obtain rfl := hz.unique hx
      have hd := powDefined_add hp hq
      exact (hS.pow _ _ _ _ _ hx (hS.add _ _ _ _ _ hy hw hs) hd.1 (Or.inr (.direct _ hdir))
        he).of_eq hd.2
    · simp at he
  · simp at he

theorem mulConst1_ok : RuleOk ρ (· * ·) (mulConst1 S) := by
  intro l r e a b hl hr he
  unfold mulConst1 at he
  split at he
  · rename_i x y h1 h2
    obtain rfl := asConst_some h1
    obtain rfl := asConst_some h2
    rw [fire_some] at he
    refine (mkConst_v he).of_eq ?_
    rw [hl.const_eq, hr.const_eq]; push_cast; rfl
  · split at he
    · rename_i x y h1 h2
      obtain rfl := asRecip_some h1
      obtain rfl := asRecip_some h2
      simp only [fire_some, Option.bind_eq_bind, Option.bind_eq_some_iff] at he
      obtain ⟨m, hm, he⟩ := he
      obtain ⟨h0, rfl⟩ := hl.recip_inv
      obtain ⟨h0', rfl⟩ := hr.recip_inv
      have hne : ((x * y : Int) : ℝ) ≠ 0 := by exact_mod_cast mul_ne_zero h0 h0'
      refine (hS.pow _ _ _ _ _ (mkConst_v hm) (V.const (-1)) (powDefined_neg_one hne)
        (Or.inl ⟨-1, rfl⟩) he).of_eq ?_
      push_cast
      rw [Real.rpow_neg_one, mul_inv]
    · simp at he

theorem simplerRational_ok {n d : Int} (hd : d ≠ 0) {e : Expr}
    (he : simplerRational S n d = some e) : V ρ e ((n : ℝ) * (d : ℝ)⁻¹) := by
  unfold simplerRational at he
  simp only [Option.bind_eq_bind, Option.bind_eq_some_iff] at he
  obtain ⟨x, hx, y, hy, he⟩ := he
  obtain rfl := iabs_some hx
  obtain rfl := iabs_some hy
  have hgcd : igcd |n| |d| = Int.gcd n d := by
    rw [Int.abs_eq_natAbs, Int.abs_eq_natAbs, igcd_nat]; rfl
  have hsd : isign d ≠ 0 := by
    intro h; have := isign_mul_abs d; rw [h, zero_mul] at this; exact hd this.symm
  have hsd2 : (isign d : ℝ) * isign d = 1 := by
    unfold isign at hsd ⊢
    split
    · norm_num
    · split
      · norm_num
      · rw [if_neg (by assumption), if_neg (by assumption)] at hsd; exact absurd rfl hsd
  have hnR : (isign n : ℝ) * |(n : ℝ)| = n := by
    have := isign_mul_abs n
    exact_mod_cast congrArg (Int.cast : Int → ℝ) this
  have hdR : (isign d : ℝ) * |(d : ℝ)| = d := by
    have := isign_mul_abs d
    exact_mod_cast congrArg (Int.cast : Int → ℝ) this
  have hd0 : (d : ℝ) ≠ 0 := by exact_mod_cast hd
  have habs : |(d : ℝ)| ≠ 0 := abs_ne_zero.2 hd0
  have key : (isign n : ℝ) * isign d * |(n : ℝ)| * |(d : ℝ)|⁻¹ = n * (d : ℝ)⁻¹ := by
    have h1 : (d : ℝ)⁻¹ = isign d * |(d : ℝ)|⁻¹ := by
      rw [inv_eq_iff_eq_inv, mul_inv, inv_inv]
      have : (isign d : ℝ)⁻¹ = isign d := inv_eq_of_mul_eq_one_left hsd2
      rw [this, hdR]
    rw [h1]
    linear_combination (isign d : ℝ) * |(d : ℝ)|⁻¹ * hnR
  split at he
  · simp only [Option.bind_eq_some_iff] at he
    obtain ⟨p, hp, he⟩ := he
    have hne : ((|d| : Int) : ℝ) ≠ 0 := by exact_mod_cast (abs_ne_zero.2 hd)
    have h1 := hS.pow _ _ _ _ _ (V.const |d|) (V.const (-1)) (powDefined_neg_one hne)
      (Or.inl ⟨-1, rfl⟩) hp
    refine (((ProdV.nil.cons h1).cons (V.const _)).mkMul (by simp) he).of_eq ?_
    push_cast
    rw [Real.rpow_neg_one, mul_one]
    exact key
  · split at he
    · simp at he
    · rename_i hg
      simp only [Option.bind_eq_some_iff] at he
      obtain ⟨p, hp, he⟩ := he
      rw [hgcd] at hp he hg
      have hg0 : (Int.gcd n d : Int) ≠ 0 := hg
      have hgR : ((Int.gcd n d : Int) : ℝ) ≠ 0 := by exact_mod_cast hg0
      obtain ⟨u, hu⟩ : (Int.gcd n d : Int) ∣ |n| := (dvd_abs _ _).2 (Int.gcd_dvd_left _ _)
      obtain ⟨v, hv⟩ : (Int.gcd n d : Int) ∣ |d| := (dvd_abs _ _).2 (Int.gcd_dvd_right _ _)
      have hu' : |n|.tdiv (Int.gcd n d) = u := by rw [hu, Int.mul_tdiv_cancel_left _ hg0]
      have hv' : |d|.tdiv (Int.gcd n d) = v := by rw [hv, Int.mul_tdiv_cancel_left _ hg0]
      rw [hu'] at he
      rw [hv'] at hp
      have huR : |(n : ℝ)| = (Int.gcd n d : Int) * u := by
        exact_mod_cast congrArg (Int.cast : Int → ℝ) hu
      have hvR : |(d : ℝ)| = (Int.gcd n d : Int) * v := by
        exact_mod_cast congrArg (Int.cast : Int → ℝ) hv
      have hv0 : (v : ℝ) ≠ 0 := by
        intro h; rw [h, mul_zero] at hvR; exact habs hvR
      have h1 := hS.pow _ _ _ _ _ (V.const v) (V.const (-1)) (powDefined_neg_one hv0)
        (Or.inl ⟨-1, rfl⟩) hp
      refine (hS.mul _ _ _ _ _ (V.const _) h1 he).of_eq ?_
      rw [← key, huR, hvR]
      push_cast
      rw [Real.rpow_neg_one]
      push_cast at hgR
      field_simp

theorem mulConst2_ok : RuleOk ρ (· * ·) (mulConst2 S) := by
  intro l r e a b hl hr he
  unfold mulConst2 at he
  split at he
  · rename_i x y h1 h2
    obtain rfl := asConst_some h1
    obtain rfl := asRecip_some h2
    rw [fire_some] at he
    obtain ⟨h0, rfl⟩ := hr.recip_inv
    refine (simplerRational_ok hS h0 he).of_eq ?_
    rw [hl.const_eq]
  · split at he
    · rename_i x y h1 h2
      obtain rfl := asRecip_some h1
      obtain rfl := asConst_some h2
      rw [fire_some] at he
      obtain ⟨h0, rfl⟩ := hl.recip_inv
      refine (simplerRational_ok hS h0 he).of_eq ?_
      rw [hr.const_eq, mul_comm]
    · simp at he

theorem mulMergeLt_ok : RuleOk ρ (· * ·) (mulMergeLt S) := by
  intro l r e a b hl hr he
  unfold mulMergeLt at he
  split at he <;> split at he <;>
    simp only [fire_some, Option.bind_eq_bind, Option.bind_eq_some_iff, reduceCtorEq,
      Option.some.injEq] at he
  · exact ((ProdV.nil.cons hr).cons hl |>.mkMul (by simp) he).of_eq (by simp only; ring)
  · rename_i h2 _
    obtain rfl := asMul_some h2
    obtain ⟨x, y, hx, hy, -, rfl⟩ := hr.mul_cons
    exact ((hy.cons hx).cons hl).mkMul (by simp) he
  · rename_i h1 _ _
    obtain rfl := asMul_some h1
    obtain ⟨x, y, hx, hy, hne, rfl⟩ := hl.mul_cons
    obtain ⟨m, hm, n, hn, he⟩ := he
    exact (hS.mul _ _ _ _ _ hx (hS.mul _ _ _ _ _ (hy.mkMul hne hm) hr hn) he).of_eq
      (by simp only; ring)
  · rename_i h1 h2 _
    obtain rfl := asMul_some h1
    obtain ⟨x, y, hx, hy, hne, rfl⟩ := hl.mul_cons
    obtain ⟨m, hm, n, hn, he⟩ := he
    exact (hS.mul _ _ _ _ _ hx (hS.mul _ _ _ _ _ (hy.mkMul hne hm) hr hn) he).of_eq
      (by simp only; ring)

theorem mulMergeGt_ok : RuleOk ρ (· * ·) (mulMergeGt S) := by
  intro l r e a b hl hr he
  unfold mulMergeGt at he
  split at he <;> split at he <;>
    simp only [fire_some, Option.bind_eq_bind, Option.bind_eq_some_iff, reduceCtorEq,
      Option.some.injEq] at he
  · exact ((ProdV.nil.cons hl).cons hr |>.mkMul (by simp) he).of_eq (by simp only; ring)
  · rename_i h2 _
    obtain rfl := asMul_some h2
    obtain ⟨x, y, hx, hy, hne, rfl⟩ := hr.mul_cons
    obtain ⟨m, hm, n, hn, he⟩ := he
    exact (hS.mul _ _ _ _ _ hx (hS.mul _ _ _ _ _ hl (hy.mkMul hne hm) hn) he).of_eq
      (by simp only; ring)
  · rename_i h1 _ _
    obtain rfl := asMul_some h1
    obtain ⟨x, y, hx, hy, -, rfl⟩ := hl.mul_cons
    exact (((hy.cons hx).cons hr).mkMul (by simp) he).of_eq (by simp only; ring)
  · rename_i h1 h2 _
    obtain rfl := asMul_some h2
    obtain ⟨x, y, hx, hy, hne, rfl⟩ := hr.mul_cons
    obtain ⟨m, hm, n, hn, he⟩ := he
    exact (hS.mul _ _ _ _ _ hx (hS.mul _ _ _ _ _ hl (hy.mkMul hne hm) hn) he).of_eq
      (by simp only; ring)

theorem mulMergeEq_ok : RuleOk ρ (· * ·) (mulMergeEq S) := by
  intro l r e a b hl hr he
  unfold mulMergeEq at he
  split at he <;>
    simp only [fire_some, Option.bind_eq_bind, Option.bind_eq_some_iff] at he
  · exact ((ProdV.nil.cons hr).cons hl |>.mkMul (by simp) he).of_eq (by simp only; ring)
  · rename_i h1 h2
    obtain rfl := asMul_some h2
    obtain ⟨x, y, hx, hy, -, rfl⟩ := hr.mul_cons
    exact ((hy.cons hx).cons hl).mkMul (by simp) he
  · rename_i h1 h2
    obtain rfl := asMul_some h1
    obtain ⟨x, y, hx, hy, -, rfl⟩ := hl.mul_cons
    exact (((hy.cons hr).cons hx).mkMul (by simp) he).of_eq (by simp only; ring)
  · rename_i h1 h2
    obtain rfl := asMul_some h1
    obtain rfl := asMul_some h2
    obtain ⟨x, y, hx, hy, hne, rfl⟩ := hl.mul_cons
    obtain ⟨z, w, hz, hw, hne', rfl⟩ := hr.mul_cons
    obtain ⟨m, hm, n, hn, o, ho, p, hp, he⟩ := he
    exact (hS.mul _ _ _ _ _ ((ProdV.nil.cons hz).cons hx |>.mkMul (by simp) hm)
      (hS.mul _ _ _ _ _ (hy.mkMul hne hn) (hw.mkMul hne' ho) hp) he).of_eq (by simp only; ring)

theorem mulRules_ok : ∀ rule ∈ mulRules S, RuleOk ρ (· * ·) rule := by
  intro rule hrule
  simp only [mulRules, List.mem_cons, List.not_mem_nil, or_false] at hrule
  rcases hrule with rfl | rfl | rfl | rfl | rfl | rfl | rfl | rfl | rfl | rfl | rfl
  · exact mulZero_ok
  · exact mulOne_ok
  · exact mulDistribute_ok hS
  · exact mulHelper_ok hS (mulCollect1_ok hS)
  · exact mulHelper_ok hS (mulCollect2_ok hS)
  · exact mulHelper_ok hS (mulCollect3_ok hS)
  · exact mulHelper_ok hS (mulConst1_ok hS)
  · exact mulConst2_ok hS
  · exact mulMergeLt_ok hS
  · exact mulMergeGt_ok hS
  · exact mulMergeEq_ok hS

end Product

section Power

variable {S : Simp} (hS : Sound ρ S)

/-- The rule computes the power on the values of its operands. -/
def PowRuleOk (ρ : Env) (rule : Rule) : Prop :=
  ∀ l r e a b, V ρ l a → V ρ r b → PowDefined a b → PowOk ρ l b → rule l r = some (some e) →
    V ρ e (a ^ b)

theorem applyPowRules_ok {rules : List Rule} (h : ∀ rule ∈ rules, PowRuleOk ρ rule)
    {l r e : Expr} {a b : ℝ} (hl : V ρ l a) (hr : V ρ r b) (hd : PowDefined a b)
    (hok : PowOk ρ l b) (he : applyRules rules l r = some e) : V ρ e (a ^ b) := by
  induction rules with
  | nil => simp [applyRules] at he
  | cons rule rules ih =>
    unfold applyRules at he
    split at he
    · simp at he
    · rename_i e' he'
      simp only [Option.some.injEq] at he
      subst he
      exact h rule (by simp) _ _ _ _ _ hl hr hd hok he'
    · exact ih (fun r hr => h r (by simp [hr])) he

theorem powMisc1_ok : PowRuleOk ρ powMisc1 := by
  intro l r e a b hl hr hd _ he
  unfold powMisc1 at he
  split at he
  · rename_i h; subst h
    have ha := hl.const_eq
    simp only [Int.cast_zero] at ha
    subst ha
    have hb := powDefined_zero_pos hd
    have hz : V ρ (.const 0) ((0 : ℝ) ^ b) :=
      (V.const 0).of_eq (by rw [Real.zero_rpow hb.ne']; simp)
    split at he
    · split at he
      · simp only [Option.some.injEq] at he; subst he; exact hz
      · simp at he
    · split at he
      · simp only [Option.some.injEq] at he; subst he; exact hz
      · simp only [Option.bind_eq_bind, Option.bind_eq_some_iff] at he
        obtain ⟨p, -, he⟩ := he
        split at he
        · simp only [Option.some.injEq] at he; subst he; exact hz
        · simp at he
  · split at he
    · rename_i h; subst h
      simp only [Option.some.injEq] at he; subst he
      refine hl.of_eq ?_
      rw [hl.const_eq]; simp
    · simp at he

theorem powMisc2_ok : PowRuleOk ρ powMisc2 := by
  intro l r e a b hl hr hd _ he
  unfold powMisc2 at he
  split at he
  · rename_i h; subst h
    split at he
    · simp only [Option.some.injEq] at he; subst he
      refine (V.const 1).of_eq ?_
      rw [hr.const_eq]; simp
    · simp at he
  · split at he
    · rename_i h; subst h
      simp only [Option.some.injEq] at he; subst he
      refine hl.of_eq ?_
      rw [hr.const_eq]; simp
    · simp at he

theorem half_value {b : ℝ} (h : V ρ half b) : b = 2⁻¹ := by
  have := h.recip_inv.2
  push_cast at this
  exact this

theorem powMisc3_ok : PowRuleOk ρ powMisc3 := by
  intro l r e a b hl hr hd _ he
  unfold powMisc3 at he
  split at he
  · simp at he
  · rename_i v h1
    obtain rfl := asConst_some h1
    split at he
    · rename_i h; subst h
      rw [fire_some] at he
      unfold simplerIsqrt at he
      split at he
      · rename_i hv
        simp only [Option.bind_eq_bind, Option.bind_eq_some_iff] at he
        obtain ⟨s, hs, q, hq, he⟩ := he
        obtain rfl := i64_eq hq
        split at he
        · rename_i hsv
          simp only [Option.some.injEq] at he; subst he
          refine (V.const s).of_eq ?_
          have hs0 : (0 : ℝ) ≤ s := by
            exact_mod_cast isqrtLoop_nonneg _ _ _ _ _ (le_refl _) hs
          rw [hl.const_eq, half_value hr, ← hsv]
          push_cast
          rw [← sq, ← Real.rpow_natCast, ← Real.rpow_mul hs0]
          norm_num
        · simp only [Option.some.injEq] at he; subst he
          exact V.power hl hr (direct_const v) hd
      · simp at he
    · split at he
      · simp at he
      · rename_i k h2
        obtain rfl := asConst_some h2
        simp only [Option.bind_eq_bind, Option.bind_eq_some_iff] at he
        obtain ⟨q, hq, p, hp, he⟩ := he
        obtain rfl := iabs_some hq
        simp only [simplerIpow, Option.map_eq_some_iff] at hp
        obtain ⟨w, hw, rfl⟩ := hp
        obtain ⟨-, rfl⟩ := ipow_sound _ _ _ _ hw
        obtain rfl := hl.const_eq
        obtain rfl := hr.const_eq
        rw [Real.rpow_intCast]
        split at he
        · rename_i hv; subst hv
          simp only [Option.some.injEq] at he; subst he
          push_cast
          split
          · rename_i hk
            refine (V.const 1).of_eq ?_
            rw [Even.neg_one_zpow (Int.even_iff.2 hk)]; simp
          · rename_i hk
            refine (V.const (-1)).of_eq ?_
            rw [Odd.neg_one_zpow (Int.odd_iff.2 (by omega))]; simp
        · split at he
          · rename_i hk
            simp only [Option.some.injEq] at he; subst he
            refine (V.const _).of_eq ?_
            obtain ⟨m, rfl⟩ := Int.eq_ofNat_of_zero_le hk.le
            simp
          · rename_i hk
            simp only [Option.some.injEq] at he; subst he
            have hv : (v : ℝ) ≠ 0 := by
              rcases powDefined_int.1 hd with h | h
              · exact h
              · exact absurd h hk
            have hne : ((v ^ |k|.toNat : Int) : ℝ) ≠ 0 := by
              push_cast; exact pow_ne_zero _ hv
            refine (V.power (V.const _) (V.const (-1)) (direct_const _)
              (powDefined_neg_one hne)).of_eq ?_
            obtain ⟨m, hm⟩ := Int.eq_ofNat_of_zero_le (by omega : 0 ≤ -k)
            obtain rfl : k = -(m : Int) := by omega
            push_cast
            rw [Real.rpow_neg_one, zpow_neg]
            simp

theorem direct_of_none {l : Expr} (hb : Built l) (h1 : asMul l = none) (h2 : asPower l = none) :
    Direct l := by
  constructor
  · rintro args rfl
    cases hb with
    | fn _ _ hargs hadd hmul hpow =>
      have := hmul rfl
      match args, this with
      | a :: as, _ => simp [asMul] at h1
  · rintro args rfl
    cases hb with
    | fn _ _ hargs hadd hmul hpow =>
      obtain ⟨l', r', rfl, -⟩ := hpow rfl
      simp [asPower] at h2

theorem nonnegParts_of_mkMul {as : List Expr} (hs : ∀ a ∈ as, ∃ x, 0 ≤ x ∧ Denotes ρ a x)
    (hs' : ∀ a ∈ as, NonnegParts ρ a) (hne : as ≠ []) {e : Expr} (he : mkMul as = some e) :
    NonnegParts ρ e := by
  match as, he, hne with
  | [a], he, _ =>
    simp only [Expr.mkMul, Option.some.injEq] at he
    subst he
    exact hs' _ (by simp)
  | a :: b :: as, he, _ =>
    simp only [Expr.mkMul, Option.ite_none_left_eq_some, Option.some.injEq] at he
    obtain ⟨-, rfl⟩ := he
    exact .mul _ hs hs'

theorem ProdV.nonneg {as : List Expr} {y : ℝ} (h : ProdV ρ as y)
    (hs : ∀ a ∈ as, ∃ x, 0 ≤ x ∧ Denotes ρ a x) : 0 ≤ y := by
  induction as generalizing y with
  | nil => rw [h.nil_iff]; norm_num
  | cons a as ih =>
    obtain ⟨x, z, hx, hz, rfl⟩ := h.uncons
    obtain ⟨w, hw, hd⟩ := hs a (by simp)
    obtain rfl := hx.unique ⟨hx.1, hd⟩
    exact mul_nonneg hw (ih hz fun b hb => hs b (by simp [hb]))

include hS

theorem powDistribute_ok : PowRuleOk ρ (powDistribute S) := by
  intro l r e a b hl hr hd hok he
  unfold powDistribute at he
  split at he
  · rename_i h1
    obtain rfl := asMul_some h1
    obtain ⟨x, y, hx, hy, hne, rfl⟩ := hl.mul_cons
    simp only [fire_some, Option.bind_eq_bind, Option.bind_eq_some_iff] at he
    obtain ⟨p, hp, m, hm, q, hq, he⟩ := he
    have hym := hy.mkMul hne hm
    rcases hok with ⟨n, rfl⟩ | hok
    · have hd' := powDefined_int.1 hd
      have hdx : PowDefined x n := powDefined_int.2 (hd'.imp_left fun h => left_ne_zero_of_mul h)
      have hdy : PowDefined y n := powDefined_int.2 (hd'.imp_left fun h => right_ne_zero_of_mul h)
      refine (hS.mul _ _ _ _ _ (hS.pow _ _ _ _ _ hx hr hdx (Or.inl ⟨n, rfl⟩) hp)
        (hS.pow _ _ _ _ _ hym hr hdy (Or.inl ⟨n, rfl⟩) hq) he).of_eq ?_
      rw [Real.rpow_intCast, Real.rpow_intCast, Real.rpow_intCast, mul_zpow]
    · cases hok with
      | direct _ h => exact absurd rfl (h.1 _)
      | mul _ h hs =>
        have hx0 : 0 ≤ x := by
          obtain ⟨w, hw, hd⟩ := h _ (List.mem_cons_self ..)
          obtain rfl := hx.unique ⟨hx.1, hd⟩
          exact hw
        have hy0 : 0 ≤ y := hy.nonneg fun c hc => h c (by simp [hc])
        have hdef : ∀ {z}, 0 ≤ z → (z = 0 → x * y = 0) → PowDefined z b := by
          intro z hz h0
          rcases hz.lt_or_eq with h | h
          · exact Or.inl h
          · rw [h0 h.symm] at hd
            exact Or.inr (Or.inl ⟨h.symm, powDefined_zero_pos hd⟩)
        refine (hS.mul _ _ _ _ _
          (hS.pow _ _ _ _ _ hx hr (hdef hx0 fun h => by rw [h, zero_mul])
            (Or.inr (hs _ (by simp))) hp)
          (hS.pow _ _ _ _ _ hym hr (hdef hy0 fun h => by rw [h, mul_zero])
            (Or.inr (nonnegParts_of_mkMul (fun c hc => h c (by simp [hc])) (fun c hc => hs c (by simp [hc]))
              hne hm)) hq) he).of_eq ?_
        rw [Real.mul_rpow hx0 hy0]
  · rename_i h1
    split at he
    · rename_i h2
      obtain rfl := asPower_some h2
      obtain ⟨x, y, hx, hy, hdir, hp, rfl⟩ := hl.power_inv
      simp only [fire_some, Option.bind_eq_bind, Option.bind_eq_some_iff] at he
      obtain ⟨m, hm, he⟩ := he
      have hm' := hS.mul _ _ _ _ _ hy hr hm
      have fin : PowDefined x (y * b) → x ^ (y * b) = (x ^ y) ^ b → V ρ e ((x ^ y) ^ b) :=
        fun h1 h2 => (hS.pow _ _ _ _ _ hx hm' h1 (Or.inr (.direct _ hdir)) he).of_eq h2
      have nonneg : 0 ≤ x → V ρ e ((x ^ y) ^ b) := by
        intro hx0
        refine fin ?_ (Real.rpow_mul hx0 y b)
        rcases hx0.lt_or_eq with h | h
        · exact Or.inl h
        · subst h
          have hy0 := powDefined_zero_pos hp
          rw [Real.zero_rpow hy0.ne'] at hd
          exact Or.inr (Or.inl ⟨rfl, mul_pos hy0 (powDefined_zero_pos hd)⟩)
      rcases hok with ⟨n, rfl⟩ | hok
      · rcases lt_or_ge x 0 with hx0 | hx0
        · rcases hp with h | ⟨h, -⟩ | ⟨-, k, rfl⟩
          · linarith
          · linarith
          · refine fin (Or.inr (Or.inr ⟨hx0, k * n, by push_cast; rfl⟩)) ?_
            rw [← Int.cast_mul, Real.rpow_intCast, Real.rpow_intCast, Real.rpow_intCast, zpow_mul]
        · exact nonneg hx0
      · cases hok with
        | direct _ h => exact absurd rfl (h.2 _)
        | power _ _ h =>
          obtain ⟨w, hw, hdw⟩ := h
          obtain rfl := hx.unique ⟨hx.1, hdw⟩
          exact nonneg hw
    · rename_i h2
      simp only [Option.some.injEq] at he; subst he
      exact V.power hl hr (direct_of_none hl.1 h1 h2) hd

theorem powRules_ok : ∀ rule ∈ powRules S, PowRuleOk ρ rule := by
  intro rule hrule
  simp only [powRules, List.mem_cons, List.not_mem_nil, or_false] at hrule
  rcases hrule with rfl | rfl | rfl | rfl
  · exact powMisc1_ok
  · exact powMisc2_ok
  · exact powMisc3_ok
  · exact powDistribute_ok hS

end Power

/-- At every depth of instantiation the metafunctions compute sum, product and power. -/
theorem simp_sound (ρ : Env) (n : Nat) : Sound ρ (simp n) := by
  induction n with
  | zero => constructor <;> intros <;> simp_all [simp]
  | succ n ih =>
    constructor
    · intro l r e a b hl hr he
      exact applyRules_ok (addRules_ok ih) hl hr he
    · intro l r e a b hl hr he
      exact applyRules_ok (mulRules_ok ih) hl hr he
    · intro l r e a b hl hr hd hok he
      exact applyPowRules_ok (powRules_ok ih) hl hr hd hok he

end GATL
