import Verif.Proofs.Root

/-!
Products of leaves with opaque expressions and powers; the unit of a multivector.
-/

namespace GATL

open Expr Spec

variable {ρ outer : Env} {τ : Types} {N n k L U : Nat} {R : Prop}

/-! ### Products with leaves -/

theorem leaf_cases {x : Expr} (h : Leaf L U x) :
    asAdd x = none ∧ asMul x = none ∧ asPower x = none ∧ asRecip x = none ∧ Direct x ∧ Built x := by
  rcases h with ⟨v, rfl⟩ | ⟨t, i, -, -, rfl⟩
  · exact ⟨rfl, rfl, rfl, rfl, by simp [Direct, isFunction], .const v⟩
  · exact ⟨rfl, rfl, rfl, rfl, by simp [Direct, isFunction], .value t i⟩

theorem mkMul_two {a b z : Expr} (h : mkMul [a, b] = some z) : z = .fn .mul [a, b] := by
  simp only [mkMul] at h
  split at h
  · cases h
  · cases h; rfl

/-- What the product of a leaf `x` and an expression `w` can be. -/
def LeafProduct (x w z : Expr) : Prop :=
  z = .const 0 ∨ z = w ∨ z = .fn .mul [x, w] ∨ z = .fn .mul [w, x]

theorem asRecip_var {w : Expr} (h : isConstant w = false) : asRecip w = none := by
  unfold asRecip
  split
  · simp [isConstant, isConstantAll] at h
  · rfl

theorem asConst_var {w : Expr} (h : isConstant w = false) : asConst w = none := asConst_ne (ne_const h)

section
variable {x w z : Expr} (hx : Leaf L U x) (hc : isConstant w = false) (ha : asAdd w = none)
  (hm : asMul w = none) (hp : ∀ b q, asPower w = some (b, q) → b ≠ x)
include hx hc ha hm hp

theorem leaf_ne : x ≠ w ∨ ∃ t i, x = w ∧ w = .value t i := by
  by_cases h : x = w
  · subst h
    rcases hx with ⟨v, rfl⟩ | ⟨t, i, -, -, rfl⟩
    · exact absurd hc (by simp [isConstant])
    · exact .inr ⟨t, i, rfl, rfl⟩
  · exact .inl h

theorem mul_leaf_left (hne : x ≠ w) (h : simp n .mul x w = some z) : LeafProduct x w z := by
  cases n with
  | zero => simp [simp] at h
  | succ n =>
    obtain ⟨l1, l2, l3, l4, -⟩ := leaf_cases hx
    have hw := ne_const hc
    change applyRules (mulRules (simp n)) x w = _ at h
    unfold mulRules at h
    by_cases h0 : x = .const 0
    · rw [applyRules_fire (o := some (.const 0)) (by simp [mulZero, h0, fire])] at h
      cases h; exact .inl rfl
    rw [applyRules_skip (by simp [mulZero, h0, hw])] at h
    by_cases h1 : x = .const 1
    · rw [applyRules_fire (o := some w) (by simp [mulOne, h1, fire])] at h
      cases h; exact .inr (.inl rfl)
    rw [applyRules_skip (by simp [mulOne, h1, hw]), applyRules_skip (by simp [mulDistribute, l1, ha]),
      applyRules_skip (by simp [mulHelper, l2, hm, mulCollect1, hne])] at h
    have hc2 : mulCollect2 (simp n) x w = some none := by
      unfold mulCollect2
      rw [l3]
      cases hw' : asPower w with
      | none => rfl
      | some p => obtain ⟨b, q⟩ := p; simp [hp b q hw']
    rw [applyRules_skip (by simp [mulHelper, l2, hm, hc2]),
      applyRules_skip (by simp [mulHelper, l2, hm, mulCollect3, l3]),
      applyRules_skip (by simp [mulHelper, l2, hm, mulConst1, asConst_var hc, l4]),
      applyRules_skip (by simp [mulConst2, asRecip_var hc, l4])] at h
    by_cases hlt : lt x w = true
    · rw [applyRules_fire (o := mkMul [x, w]) (by simp [mulMergeLt, l2, hm, hlt])] at h
      exact .inr (.inr (.inl (mkMul_two h)))
    rw [applyRules_skip (by simp [mulMergeLt, l2, hm, hlt])] at h
    by_cases hgt : lt w x = true
    · rw [applyRules_fire (o := mkMul [w, x]) (by simp [mulMergeGt, l2, hm, hgt])] at h
      exact .inr (.inr (.inr (mkMul_two h)))
    rw [applyRules_skip (by simp [mulMergeGt, l2, hm, hgt]),
      applyRules_fire (o := mkMul [x, w]) (by simp [mulMergeEq, l2, hm])] at h
    exact .inr (.inr (.inl (mkMul_two h)))

theorem mul_leaf_right (hne : x ≠ w) (h : simp n .mul w x = some z) : LeafProduct x w z := by
  cases n with
  | zero => simp [simp] at h
  | succ n =>
    obtain ⟨l1, l2, l3, l4, -⟩ := leaf_cases hx
    have hw := ne_const hc
    change applyRules (mulRules (simp n)) w x = _ at h
    unfold mulRules at h
    by_cases h0 : x = .const 0
    · rw [applyRules_fire (o := some (.const 0)) (by simp [mulZero, h0, fire])] at h
      cases h; exact .inl rfl
    rw [applyRules_skip (by simp [mulZero, h0, hw])] at h
    by_cases h1 : x = .const 1
    · rw [applyRules_fire (o := some w) (by simp [mulOne, h1, fire, hw])] at h
      cases h; exact .inr (.inl rfl)
    rw [applyRules_skip (by simp [mulOne, h1, hw]), applyRules_skip (by simp [mulDistribute, l1, ha]),
      applyRules_skip (by simp [mulHelper, l2, hm, mulCollect1, Ne.symm hne])] at h
    have hc2 : mulCollect2 (simp n) w x = some none := by
      unfold mulCollect2
      rw [l3]
      cases hw' : asPower w with
      | none => rfl
      | some p => obtain ⟨b, q⟩ := p; simp [hp b q hw']
    rw [applyRules_skip (by simp [mulHelper, l2, hm, hc2]),
      applyRules_skip (by rw [mulHelper, hm, l2]; unfold mulCollect3; rw [l3]; cases asPower w <;> rfl),
      applyRules_skip (by simp [mulHelper, l2, hm, mulConst1, asConst_var hc, l4, asRecip_var hc]),
      applyRules_skip (by simp [mulConst2, asRecip_var hc, l4])] at h
    by_cases hlt : lt w x = true
    · rw [applyRules_fire (o := mkMul [w, x]) (by simp [mulMergeLt, l2, hm, hlt])] at h
      exact .inr (.inr (.inr (mkMul_two h)))
    rw [applyRules_skip (by simp [mulMergeLt, l2, hm, hlt])] at h
    by_cases hgt : lt x w = true
    · rw [applyRules_fire (o := mkMul [x, w]) (by simp [mulMergeGt, l2, hm, hgt])] at h
      exact .inr (.inr (.inl (mkMul_two h)))
    rw [applyRules_skip (by simp [mulMergeGt, l2, hm, hgt]),
      applyRules_fire (o := mkMul [w, x]) (by simp [mulMergeEq, l2, hm])] at h
    exact .inr (.inr (.inr (mkMul_two h)))

end

/-- A number of the context that is not known at compile time. -/
theorem ge_product {x w z : Expr} (hx : Leaf L U x) (hw : GE False n L U w) (hc : isConstant w = false)
    (hm : asMul w = none) (hq : ∀ b, w ≠ powerOf b (.const (-1))) (h : LeafProduct x w z) : GE False n L U z := by
  have gx := (leaf_ge (R := False) (n := n) hx).1
  rcases h with rfl | rfl | rfl | rfl
  · exact ge_const 0
  · exact hw
  · refine ⟨.mul _ (by simp) (by simp [gx.ev, hw.ev]), .fn _ _ (by simp [gx.built, hw.built])
      (fun h => by cases h) (fun _ => by simp) (fun h => by cases h), ?_, fun τ => ?_, fun h => h.elim⟩
    · intro h; simp [isConstant, isConstantAll, hc] at h
    · rw [NoIntQuotient]
      refine ⟨by simp [NoIntQuotientAll, gx.noInt, hw.noInt], fun pre l r e => ?_⟩
      have := congrArg List.getLast? e
      simp only [List.getLast?_cons_cons, List.getLast?_singleton, List.getLast?_append,
        Option.some_or, Option.some.injEq] at this
      exact absurd this (hq r)
  · refine ⟨.mul _ (by simp) (by simp [gx.ev, hw.ev]), .fn _ _ (by simp [gx.built, hw.built])
      (fun h => by cases h) (fun _ => by simp) (fun h => by cases h), ?_, fun τ => ?_, fun h => h.elim⟩
    · intro h; simp [isConstant, isConstantAll, hc] at h
    · rw [NoIntQuotient]
      refine ⟨by simp [NoIntQuotientAll, gx.noInt, hw.noInt], fun pre l r e => ?_⟩
      have := congrArg List.getLast? e
      simp only [List.getLast?_cons_cons, List.getLast?_singleton, List.getLast?_append,
        Option.some_or, Option.some.injEq] at this
      obtain ⟨-, -, l3, -⟩ := leaf_cases hx
      rw [this] at l3
      simp [asPower] at l3

/-! ### Powers -/

theorem v_half : V ρ half (1 / 2) := by
  have := V.power (ρ := ρ) (V.const 2) (V.const (-1)) ⟨by simp, by simp⟩ (.inl (by norm_num))
  rw [show (1 / 2 : ℝ) = ((2 : Int) : ℝ) ^ (((-1 : Int)) : ℝ) by push_cast; rw [Real.rpow_neg_one]; norm_num]
  exact this

theorem v_minusHalf : V ρ minusHalf (-(1 / 2)) := by
  have := (simp_sound ρ 10).add _ _ _ _ _ v_half (V.const (ρ := ρ) (-1)) half_sub
  rw [show (-(1 / 2) : ℝ) = 1 / 2 + ((-1 : Int) : ℝ) by push_cast; norm_num]
  exact this

/-- An exponent that is known at compile time. -/
structure Exponent (L U : Nat) (r : Expr) : Prop where
  ev : Evaluable L U .num r
  built : Built r
  noInt : ∀ τ, NoIntQuotient τ r

theorem exponent_recip (v : Int) : Exponent L U (recip v) :=
  ⟨.power _ _ (.const v) (.const (-1)) (.inr (.inr (.inl ⟨v, rfl⟩))),
    .fn _ _ (by simp [Built.const]) (by simp) (by simp) fun _ => ⟨_, _, rfl, by simp, by simp⟩,
    fun τ => by simp [NoIntQuotient, NoIntQuotientAll]⟩

theorem exponent_half : Exponent L U half := exponent_recip 2

theorem exponent_minusHalf : Exponent L U minusHalf := by
  have h := exponent_recip (L := L) (U := U) 2
  refine ⟨.mul _ (by simp) (by simp [h.ev, Evaluable.const]), (v_minusHalf (ρ := ⟨fun _ _ => 0, fun _ _ => 0⟩)).1,
    fun τ => ?_⟩
  rw [NoIntQuotient]
  refine ⟨by simp [NoIntQuotientAll, NoIntQuotient], fun pre l r e => .inl ?_⟩
  have := congrArg (fun x => x.reverse[1]?) e
  simpa using this.symm

theorem exponent_const (v : Int) : Exponent L U (.const v) :=
  ⟨.const v, .const v, fun τ => by simp [NoIntQuotient]⟩

theorem ge_power {u r : Expr} (hu : GE False n L U u) (hc : isConstant u = false) (hd : Direct u)
    (hr : Exponent L U r) : GE False n L U (powerOf u r) :=
  ⟨.power _ _ hu.ev hr.ev (.inl hc), .fn _ _ (by simp [hu.built, hr.built]) (by simp) (by simp)
    fun _ => ⟨_, _, rfl, hd⟩, fun h => by simp [isConstant, isConstantAll, hc] at h,
    fun τ => by simp [NoIntQuotient, NoIntQuotientAll, hu.noInt, hr.noInt], fun h => h.elim⟩

theorem abs_opaque {v : Expr} (h : isConstant v = false) : Opaque (.fn .absolute [v]) :=
  ⟨by simp [isConstant, isConstantAll, h], rfl, rfl, rfl⟩

theorem abs_direct {v : Expr} : Direct (.fn .absolute [v]) := ⟨by simp, by simp⟩

/-! ### Scalars -/

theorem lazy_scalar_mul {M : CMapping} (hM : ∀ k r, M k (.const 0) (.const 0) = some r → r = [⟨.const 1, .const 0⟩])
    {x y : Expr} {e : CSum} (hx : x ≠ .const 0) (hy : y ≠ .const 0)
    (h : mulC M k [⟨x, .const 0⟩] [⟨y, .const 0⟩] = some e) :
    ∃ j z, simp j .mul x y = some z ∧ e = [⟨z, .const 0⟩] := by
  cases k with
  | zero => simp [mulC] at h
  | succ k =>
    unfold mulC at h
    rw [if_neg (by simp [hx]), if_neg (by simp [hy])] at h
    simp only [Option.bind_eq_bind, Option.bind_eq_some_iff] at h
    obtain ⟨z, hz, r, hr, h⟩ := h
    rw [hM k r hr] at h
    simp only [distribute, Option.bind_eq_bind, Option.bind_eq_some_iff, Option.some.injEq] at h
    obtain ⟨y, hy, rfl⟩ := h
    obtain rfl := simp_mul_one hy
    refine ⟨k, y, hz, ?_⟩
    have : (Blade.const 0).grades ≠ 0 := by decide
    unfold mkComp
    rw [if_neg this]
    split <;> rfl

theorem orth_scalar {factor : Expr → Expr} (hc : ∀ b, IsConst (factor (.cbits b))) {q : Fin 64 → ℝ}
    (hf : ∀ ρ b w, BV ρ b w → V ρ (factor b) (diagFactor q w)) {g : GradedProduct} (hg : g = .gp ∨ g = .sp)
    {d : Nat} (hd : d ≤ 63) (k : Nat) (r : CSum) (h : orthMapping d factor g k (.const 0) (.const 0) = some r) :
    r = [⟨.const 1, .const 0⟩] := by
  obtain ⟨ρ⟩ := mapping_env
  have hone : orthProd (diagFactor q) g (Finsupp.single 0 1) (Finsupp.single 0 1) = Finsupp.single 0 1 := by
    rcases hg with rfl | rfl
    · exact Cl.gp_one_right (q := q) _
    · rw [sp_single]
      simp [diagFactor, par, vecs, bz, sg]
  have hP : ∀ N, N = d ∨ d = 63 → SpaceOk N d (Blade.const 0).grades (Blade.const 0).grades := fun N h =>
    h.elim (fun h => .inl h.symm) fun h => .inr ⟨h, .inl (by decide)⟩
  by_cases hd' : d = 63
  · exact unit_of (N := 0) (ρ := ρ) (by omega) (orthMapping_const (dims := d) (by omega) hc g)
      (orthMapping_ok (by omega) (hf ρ) g d) (by simp [vecs]) (by simp [vecs]) (hP 0 (.inr hd')) hone h
  · exact unit_of (N := d) (ρ := ρ) (by omega) (orthMapping_const (dims := d) (by omega) hc g)
      (orthMapping_ok (by omega) (hf ρ) g d) (by simp [vecs]) (by simp [vecs]) (hP d (.inl rfl)) hone h

/-- The reverse of a scalar. -/
theorem scalar_reverse {x : Expr} {e : CSum} (h : gradedMinusC k 0xcccccccccccccccc [⟨x, .const 0⟩] = some e) :
    e = [⟨x, .const 0⟩] := by
  simp only [gradedMinusC, gradedMinusComp, Option.bind_eq_bind, Option.bind_eq_some_iff, Option.some.injEq] at h
  obtain ⟨c, ⟨y, -, rfl⟩, rfl⟩ := h
  rw [if_pos (by decide)]

theorem call1_lazy_inv {f : CSum → Option CSum} {X p : Object} (hX : hasStoredC X.expr = false)
    (h : call1 k τ outer f X = some p) : ∃ e, f X.expr = some e ∧ p.expr = e := by
  have hs : ∀ M ∈ [X], hasStoredC M.expr = false := by simp [hX]
  simp only [call1, arguments_lazy [X] hs, List.map_cons, List.map_nil, Option.bind_eq_bind,
    Option.bind_some] at h
  cases he : f X.expr with
  | none => simp [he] at h
  | some e =>
    simp only [he, Option.bind_some, contextObject, contextEval_lazy hs] at h
    exact ⟨e, rfl, by cases h; rfl⟩

/-! ### The unit -/

/-- The coefficient of the squared norm as the library computes it: the type of
`sp(arg, reverse(arg))` inside the context. -/
def normCoef (P Q R n : Nat) (M : Object) : Option Expr := do
  match ← arguments (baseId [M]) [M] with
  | [a] => scalarCoef (← mulC (orthMapping (P + Q + R) (mkSignedFactor P Q R) .sp) n a
      (← gradedMinusC n 0xcccccccccccccccc a))
  | _ => none

section
variable {P Q R : Nat}

theorem signed_factor (hN : P + Q + R ≤ 62) (ρ : Env) (b : Expr) (w : Word) (h : BV ρ b w) :
    V ρ (mkSignedFactor P Q R b) (diagFactor (fun i => ((signature P Q R i : Int) : ℝ)) w) := by
  rw [← congrFun (signedFactor_cast (K := ℝ) P Q R (by omega)) w]
  exact signedFactor_ok P Q R b w h

theorem signed_scalar {g : GradedProduct} (hg : g = .gp ∨ g = .sp) (hN : P + Q + R ≤ 62) (k : Nat) (r : CSum)
    (h : orthMapping (P + Q + R) (mkSignedFactor P Q R) g k (.const 0) (.const 0) = some r) :
    r = [⟨.const 1, .const 0⟩] :=
  orth_scalar (mkSignedFactor_const P Q R) (signed_factor hN) hg (by omega) k r h

theorem real_scalar (k : Nat) (r : CSum)
    (h : orthMapping 63 mkRealFactor .gp k (.const 0) (.const 0) = some r) : r = [⟨.const 1, .const 0⟩] := by
  refine orth_scalar (q := fun _ => 1) (fun b => ⟨1, rfl⟩) (fun ρ b w h => ?_) (.inl rfl) (by omega) k r h
  have : diagFactor (fun _ => (1 : ℝ)) w = 1 := by simp [diagFactor]
  rw [this]
  exact Props.realFactor_ok ρ b w h

theorem scalar_stored {x : Expr} (h : hasStored x = false) : hasStoredC [(⟨x, .const 0⟩ : Comp)] = false := by
  simp [hasStoredC, h, Blade.hasStored]

/-- The squared norm of a lazy scalar. -/
theorem normSqr_lazy (hN : P + Q + R ≤ 62) {x : Expr} (hx : x ≠ .const 0) (hst : hasStored x = false)
    {X q : Object} (hX : X.expr = [⟨x, .const 0⟩]) (h : normSqrObject P Q R k τ outer X = some q) :
    ∃ j z, simp j .mul x x = some z ∧ q.expr = [⟨z, .const 0⟩] := by
  have hs : hasStoredC X.expr = false := by rw [hX]; exact scalar_stored hst
  have hl : ∀ Y ∈ [X], hasStoredC Y.expr = false := by simpa using hs
  unfold normSqrObject Program.runLazy at h
  rw [arguments_lazy _ hl] at h
  simp only [List.map_cons, List.map_nil, Option.bind_eq_bind, Option.bind_some, List.zipWith_cons_cons,
    List.zipWith_nil_right, Program.run, List.getElem?_cons_zero, Option.bind_eq_some_iff] at h
  obtain ⟨s, ⟨r, hr, hs'⟩, h⟩ := h
  obtain ⟨e1, h1, h2⟩ := call1_lazy_inv (X := lazyObject X.floats X.expr) hs hr
  rw [show (lazyObject X.floats X.expr).expr = _ from hX] at h1
  obtain rfl := scalar_reverse h1
  obtain ⟨e2, h3, h4⟩ := call2_lazy_inv (X := lazyObject X.floats X.expr) hs (by rw [h2]; exact scalar_stored hst) hs'
  rw [h2, show (lazyObject X.floats X.expr).expr = _ from hX] at h3
  obtain ⟨j, z, hz, rfl⟩ := lazy_scalar_mul (signed_scalar (.inr rfl) hN) hx hx h3
  refine ⟨j, z, hz, ?_⟩
  simp only [contextObject, contextEval_lazy hl, Option.bind_eq_bind, Option.bind_some, Option.some.injEq] at h
  rw [← h, ← h4]

theorem powScalar_lazy {x y : Expr} {X Y q : Object} (hX : X.expr = [⟨x, .const 0⟩]) (hY : Y.expr = [⟨y, .const 0⟩])
    (hx : hasStored x = false) (hy : hasStored y = false) (h : powScalar k τ outer X Y = some q) :
    ∃ z, simp k .pow x y = some z ∧ q.expr = [⟨z, .const 0⟩] := by
  obtain ⟨e, h1, h2⟩ := call2_lazy_inv (X := X) (Y := Y) (by rw [hX]; exact scalar_stored hx)
    (by rw [hY]; exact scalar_stored hy) h
  simp only [hX, hY, scalarCoef_single, Option.bind_eq_bind, Option.bind_some, Option.bind_eq_some_iff,
    Option.some.injEq] at h1
  obtain ⟨z, hz, rfl⟩ := h1
  exact ⟨z, hz, h2⟩

/-- The inverse of a lazy scalar that is the square root of an opaque expression. -/
theorem inverse_root (hN : P + Q + R ≤ 62) {u : Expr} (hu : Opaque u) (hst : hasStored u = false) {S i : Object}
    (hS : S.expr = [⟨powerOf u half, .const 0⟩]) (h : inverse P Q R k τ outer S = some i) :
    i.expr = [⟨powerOf u minusHalf, .const 0⟩] := by
  have hst' : hasStored (powerOf u half) = false := by simp [hasStored, hasStoredAny, hst, half, recip]
  have hs : hasStoredC S.expr = false := by rw [hS]; exact scalar_stored hst'
  have hs1 : ∀ X ∈ [S], hasStoredC X.expr = false := by simpa using hs
  unfold inverse at h
  rw [arguments_lazy _ hs1] at h
  simp only [List.map_cons, List.map_nil, Option.bind_eq_bind, Option.bind_some, Option.bind_eq_some_iff] at h
  obtain ⟨nn, hnn, q, hq, rv, hrv, r, hr, h⟩ := h
  simp only [contextObject, contextEval_lazy hs1, Option.bind_eq_bind, Option.bind_some, Option.some.injEq] at h
  subst h
  obtain ⟨j, z, hz, en⟩ := normSqr_lazy hN (by simp) hst' (X := lazyObject S.floats S.expr) hS hnn
  obtain rfl := root_square hu hz
  obtain ⟨y, hy, eq⟩ := powScalar_lazy en (Y := constObject (-1)) rfl hst rfl hq
  obtain rfl := inv_eq hu hy
  obtain ⟨e1, h1, h2⟩ := call1_lazy_inv (X := lazyObject S.floats S.expr) hs hrv
  rw [show (lazyObject S.floats S.expr).expr = _ from hS] at h1
  obtain rfl := scalar_reverse h1
  obtain ⟨e2, h3, h4⟩ := call2_lazy_inv (X := rv) (Y := q) (by rw [h2]; exact scalar_stored hst')
    (by rw [eq]; exact scalar_stored (by simp [hasStored, hasStoredAny, hst])) hr
  rw [h2, eq] at h3
  obtain ⟨j', w, hw, rfl⟩ := lazy_scalar_mul real_scalar (by simp) (by simp) h3
  obtain rfl := root_inv hu hw
  exact h4

theorem unit_call (hN : P + Q + R ≤ 62) {M o : Object} {A : MV ℝ} (hM : Represents outer (P + Q + R) M A)
    (hs : scalarCoef M.expr = none) {v : Expr} (hv : normCoef P Q R k M = some v) (hc : isConstant v = false)
    (hn : isNonNegative v = some false) (h0 : rnormSqr (signedProd P Q R) A ≠ 0)
    (h : unitObject P Q R k τ outer M = some o) :
    Represents outer (P + Q + R) o ((√|rnormSqr (signedProd P Q R) A|)⁻¹ • A) := by
  cases k with
  | zero =>
    simp only [normCoef, Option.bind_eq_bind, Option.bind_eq_some_iff] at hv
    obtain ⟨as, -, hv⟩ := hv
    split at hv
    · simp [mulC] at hv
    · cases hv
  | succ k =>
  obtain ⟨as, h1, h2, h3, -⟩ := arguments_ok (outer := outer) (Ms := [M]) (As := [A]) (by omega) (.cons hM .nil)
  obtain ⟨a, as', d1, h3', rfl⟩ := List.forall₂_cons_right_iff.1 h3
  obtain rfl := List.forall₂_nil_right_iff.1 h3'
  have w1 := h2 a (by simp)
  simp only [normCoef, h1, Option.bind_eq_bind, Option.bind_some, Option.bind_eq_some_iff] at hv
  obtain ⟨ra, hra, sa, hsa, hv⟩ := hv
  obtain rfl := scalarCoef_inv hv
  simp only [unitObject, h1, Option.bind_eq_bind, Option.bind_some, Option.bind_eq_some_iff, hs,
    Option.isSome_none, Bool.false_eq_true, if_false] at h
  obtain ⟨rv, hrv, s, hs', ab, hab, sq, hsq, i, hi, r, hr, ho⟩ := h
  have la : hasStoredC (lazyObject M.floats a).expr = false := leaf_stored w1
  -- the squared norm
  obtain ⟨e1, h4, h5⟩ := call1_lazy_inv la hrv
  rw [show (lazyObject M.floats a).expr = a from rfl, hra] at h4
  cases h4
  have pra := (good_reverse (k := k + 1) (by omega : P + Q + R ≤ 63)).within _ (poly_const ·) poly_closed a ra
    (within_mono (fun _ => leaf_poly) w1) hra
  have dra := (good_reverse (k := k + 1) (by omega : P + Q + R ≤ 63)).denotes _ a ra A d1 hra
  have psa := (good_graded (k := k + 1) hN .sp).within _ (poly_const ·) poly_closed a ra _
    (within_mono (fun _ => leaf_poly) w1) pra hsa
  have dsa := (graded_denotes (k := k + 1) hN .sp) _ a ra _ _ _ d1 dra hsa
  have esp : signedProd P Q R .sp A (reverse A) = Finsupp.single 0 (rnormSqr (signedProd P Q R) A) := by
    rw [rnormSqr]
    unfold signedProd
    rw [Iso.sp_scalar]
    simp [scalar]
  rw [esp] at dsa
  generalize rnormSqr (signedProd P Q R) A = x at *
  have dv := single_denotes_inv dsa
  have pv : Poly _ _ v := psa.2 ⟨v, .const 0⟩ (by simp)
  have bv : Built v := (dsa.1 ⟨v, .const 0⟩ (by simp)).1
  obtain ⟨e2, h6, h7⟩ := call2_lazy_inv la (by rw [h5]; exact within_stored poly_stored pra) hs'
  rw [h5, show (lazyObject M.floats a).expr = a from rfl, hsa] at h6
  cases h6
  -- its absolute value
  obtain ⟨e3, h8, h9⟩ := call1_lazy_inv (by rw [h7]; exact within_stored poly_stored psa) hab
  simp only [h7, scalarCoef_single, Option.bind_eq_bind, Option.bind_some, Option.bind_eq_some_iff,
    Option.some.injEq] at h8
  obtain ⟨u, hu, rfl⟩ := h8
  have gv : GE False (k + 1) (baseId [M] + 1) (baseId [M] + (storedInputs [M]).length) v :=
    ⟨poly_evaluable bv pv, bv, (fun h => by simp [hc] at h), fun τ => poly_noInt _ pv, fun h => h.elim⟩
  have gu := ge_abs gv (by omega) hu
  have du := abs_den gv.lit bv (poly_traitSafe _ pv) dv hu
  have eu : u = .fn .absolute [v] := by
    simp only [mkAbsolute, hn, hc, Option.bind_eq_bind, Option.bind_some, Option.bind_eq_some_iff,
      Bool.false_and, Bool.false_eq_true, if_false, Option.some.injEq] at hu
    obtain ⟨-, -, h⟩ := hu
    exact h.symm
  have ou : Opaque u := eu ▸ abs_opaque hc
  have diru : Direct u := eu ▸ abs_direct
  have su : hasStored u = false := by rw [eu]; simp [hasStored, hasStoredAny, poly_stored v pv]
  -- its square root
  simp only [sqrtScalar, Option.bind_eq_bind, Option.bind_eq_some_iff] at hsq
  obtain ⟨hf, hhf, hsq⟩ := hsq
  obtain rfl := half_eq hhf
  obtain ⟨y, hy, eq⟩ := powScalar_lazy h9 (Y := lazyObject ab.floats [⟨half, .const 0⟩]) rfl su rfl hsq
  obtain rfl := root_eq ou hy
  -- the inverse of that
  have ei := inverse_root hN ou su eq hi
  -- the product
  have gw := ge_power gu ou.1 diru exponent_minusHalf
  have dw : V (contextEnv outer (baseId [M]) (storedInputs [M])) (powerOf u minusHalf) (|x| ^ (-(1 / 2) : ℝ)) :=
    V.power ⟨gu.built, du⟩ v_minusHalf diru (.inl (abs_pos.2 h0))
  obtain ⟨e4, h10, h11⟩ := call2_lazy_inv la (by rw [ei]; exact scalar_stored (evaluable_context gw.ev).2.1) hr
  rw [ei, show (lazyObject M.floats a).expr = a from rfl] at h10
  have hsc := scale_right (Q := GE False (k + 1) (baseId [M] + 1) (baseId [M] + (storedInputs [M]).length))
    (orth_unit hN (mkSignedFactor_const P Q R) (signed_factor hN) (.inl rfl)).1 (ge_const 0) (by simp) a (k + 1) e4
    w1.1 (inSpaceC_of d1) (fun c hc j z hz => by
      have hcw : isConstant (powerOf u minusHalf) = false := by simp [isConstant, isConstantAll, ou.1]
      refine ge_product (w1.2 c hc) gw hcw rfl (by simp) (mul_leaf_left (w1.2 c hc) hcw rfl rfl ?_ ?_ hz)
      · intro b q hb e
        simp only [asPower, Option.some.injEq, Prod.mk.injEq] at hb
        rcases w1.2 c hc with ⟨v, h⟩ | ⟨t, i, -, -, h⟩ <;> rw [h, ← hb.1, eu] at e <;> cases e
      · intro e
        rcases w1.2 c hc with ⟨v, h⟩ | ⟨t, i, -, -, h⟩ <;> rw [h] at e <;> cases e) h10
  have hden := (graded_denotes (k := k + 1) hN .gp) _ a _ _ _ _ d1 (single_denotes dw.1 dw.2) h10
  have eA : signedProd P Q R .gp A (Finsupp.single 0 (|x| ^ (-(1 / 2) : ℝ))) = (√|x|)⁻¹ • A := by
    unfold signedProd
    rw [signedFactor_cast P Q R (by omega), Real.rpow_neg (abs_nonneg x), ← Real.sqrt_eq_rpow]
    exact gp_scalar_right _ _ A
  rw [eA] at hden
  rw [h11] at ho
  exact (context_ge (τ := τ) (k := k + 1) (Ms := [M]) hsc.1 hden).1 o ho

end

end GATL
