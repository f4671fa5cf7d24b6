import Verif.Proofs.UnitType
import Verif.Proofs.TestsTotal
import Verif.Proofs.RunMono

/-!
# Norms and units compile
-/

namespace GATL.Total

open Expr Spec

variable {N n L U : Nat} {ρ : Env} {τ : Types}

/-! ## Products of leaves -/

theorem mkMul_total {a b : Expr} (h0 : a ≠ .const 0) (h1 : a ≠ .const 1) (h2 : b ≠ .const 0) (h3 : b ≠ .const 1) :
    mkMul [a, b] = some (.fn .mul [a, b]) := by
  simp [mkMul, Ne.symm h0, Ne.symm h1, Ne.symm h2, Ne.symm h3]

section
variable {x w : Expr} (hx : Leaf L U x) (hc : isConstant w = false) (ha : asAdd w = none)
  (hm : asMul w = none) (hp : ∀ b q, asPower w = some (b, q) → b ≠ x) (hne : x ≠ w)
include hx hc ha hm hp hne

theorem mul_leaf_left_total : ∃ z, simp (n + 1) .mul x w = some z := by
  obtain ⟨l1, l2, l3, l4, -⟩ := leaf_cases hx
  have hw := ne_const hc
  change ∃ z, applyRules (mulRules (simp n)) x w = some z
  unfold mulRules
  by_cases h0 : x = .const 0
  · rw [applyRules_fire (o := some (.const 0)) (by simp [mulZero, h0, fire])]
    exact ⟨_, rfl⟩
  rw [applyRules_skip (by simp [mulZero, h0, hw])]
  by_cases h1 : x = .const 1
  · rw [applyRules_fire (o := some w) (by simp [mulOne, h1, fire])]
    exact ⟨_, rfl⟩
  rw [applyRules_skip (by simp [mulOne, h1, hw]), applyRules_skip (by simp [mulDistribute, l1, ha]),
    applyRules_skip (by simp [mulHelper, l2, hm, mulCollect1, hne])]
  have hc2 : mulCollect2 (simp n) x w = some none := by
    unfold mulCollect2
    rw [l3]
    cases hw' : asPower w with
    | none => rfl
    | some p => obtain ⟨b, q⟩ := p; simp [hp b q hw']
  rw [applyRules_skip (by simp [mulHelper, l2, hm, hc2]),
    applyRules_skip (by simp [mulHelper, l2, hm, mulCollect3, l3]),
    applyRules_skip (by simp [mulHelper, l2, hm, mulConst1, asConst_var hc, l4]),
    applyRules_skip (by simp [mulConst2, asRecip_var hc, l4])]
  have t1 := mkMul_total h0 h1 (hw 0) (hw 1)
  have t2 := mkMul_total (hw 0) (hw 1) h0 h1
  by_cases hlt : lt x w = true
  · rw [applyRules_fire (o := mkMul [x, w]) (by simp [mulMergeLt, l2, hm, hlt])]
    exact ⟨_, t1⟩
  rw [applyRules_skip (by simp [mulMergeLt, l2, hm, hlt])]
  by_cases hgt : lt w x = true
  · rw [applyRules_fire (o := mkMul [w, x]) (by simp [mulMergeGt, l2, hm, hgt])]
    exact ⟨_, t2⟩
  rw [applyRules_skip (by simp [mulMergeGt, l2, hm, hgt]),
    applyRules_fire (o := mkMul [x, w]) (by simp [mulMergeEq, l2, hm])]
  exact ⟨_, t1⟩

theorem mul_leaf_right_total : ∃ z, simp (n + 1) .mul w x = some z := by
  obtain ⟨l1, l2, l3, l4, -⟩ := leaf_cases hx
  have hw := ne_const hc
  change ∃ z, applyRules (mulRules (simp n)) w x = some z
  unfold mulRules
  by_cases h0 : x = .const 0
  · rw [applyRules_fire (o := some (.const 0)) (by simp [mulZero, h0, fire])]
    exact ⟨_, rfl⟩
  rw [applyRules_skip (by simp [mulZero, h0, hw])]
  by_cases h1 : x = .const 1
  · rw [applyRules_fire (o := some w) (by simp [mulOne, h1, fire, hw])]
    exact ⟨_, rfl⟩
  rw [applyRules_skip (by simp [mulOne, h1, hw]), applyRules_skip (by simp [mulDistribute, l1, ha]),
    applyRules_skip (by simp [mulHelper, l2, hm, mulCollect1, Ne.symm hne])]
  have hc2 : mulCollect2 (simp n) w x = some none := by
    unfold mulCollect2
    rw [l3]
    cases hw' : asPower w with
    | none => rfl
    | some p => obtain ⟨b, q⟩ := p; simp [hp b q hw']
  rw [applyRules_skip (by simp [mulHelper, l2, hm, hc2]),
    applyRules_skip (by rw [mulHelper, hm, l2]; unfold mulCollect3; rw [l3]; cases asPower w <;> rfl),
    applyRules_skip (by simp [mulHelper, l2, hm, mulConst1, asConst_var hc, l4, asRecip_var hc]),
    applyRules_skip (by simp [mulConst2, asRecip_var hc, l4])]
  have t1 := mkMul_total h0 h1 (hw 0) (hw 1)
  have t2 := mkMul_total (hw 0) (hw 1) h0 h1
  by_cases hlt : lt w x = true
  · rw [applyRules_fire (o := mkMul [w, x]) (by simp [mulMergeLt, l2, hm, hlt])]
    exact ⟨_, t2⟩
  rw [applyRules_skip (by simp [mulMergeLt, l2, hm, hlt])]
  by_cases hgt : lt x w = true
  · rw [applyRules_fire (o := mkMul [x, w]) (by simp [mulMergeGt, l2, hm, hgt])]
    exact ⟨_, t1⟩
  rw [applyRules_skip (by simp [mulMergeGt, l2, hm, hgt]),
    applyRules_fire (o := mkMul [w, x]) (by simp [mulMergeEq, l2, hm])]
  exact ⟨_, t2⟩

end

theorem ev_simp {k : Nat} {op : Op} {l r e : Expr} (h : simp k op l r = some e) : Ev (fun j => simp j op l r) e :=
  ⟨k, fun j hj => simp_mono hj op l r e h⟩

/-! ## The parts of a context -/

theorem ge_comp {e : Expr} (h : GE False n L U e) (hc : ∃ c, compile n L U e = some c) : GE True n L U e :=
  ⟨h.ev, h.built, h.lit, h.noInt, fun _ => hc⟩

theorem ge_false {e : Expr} (h : GE True n L U e) : GE False n L U e :=
  ⟨h.ev, h.built, h.lit, h.noInt, fun h => h.elim⟩

/-- A number that is not known at compile time is evaluated. -/
theorem compile_var {e : Expr} (h : GE True n L U e) (hc : isConstant e = false) :
    ∃ p, compile n L U e = some (.stored, p) := by
  obtain ⟨⟨e', p⟩, he⟩ := h.comp trivial
  rcases compile_out h.ev _ he with ⟨-, h⟩ | ⟨h, -⟩
  · cases h; exact ⟨_, he⟩
  · rw [hc] at h; cases h

theorem compile_half (hn : 10 ≤ n) : compile n L U half = some (half, []) := by
  have h := simp_mono hn .pow (.const 2) (.const (-1)) half (by decide +kernel)
  change (do
    let (l', p) ← compile n L U (.const 2)
    let (r', q) ← compile n L U (.const (-1))
    let e ← simp n .pow l' r'
    if anyIs .stored l' r' then storeValue L U half else some (e, p ++ q)) = _
  simp only [compile_const, Option.bind_eq_bind, Option.bind_some, h]
  rfl

theorem compile_minusHalf (hn : 10 ≤ n) : compile n L U minusHalf = some (minusHalf, []) := by
  have h := simp_mono hn .mul (.const (-1)) half minusHalf (by decide +kernel)
  change (do
    let (l', p) ← compile n L U (.const (-1))
    let (r', q) ← compile n L U half
    let e ← simp n .mul l' r'
    if anyIs .stored l' r' then storeValue L U minusHalf else some (e, p ++ q)) = _
  simp only [compile_const, compile_half hn, Option.bind_eq_bind, Option.bind_some, h]
  rfl

/-- Powers with exponents that are known at compile time. -/
theorem ge_power_total (hn : n ≠ 0) {u r : Expr} (hu : GE True n L U u) (hc : isConstant u = false) (hd : Direct u)
    (hr : Exponent L U r) (h0 : r ≠ .const 0) (h1 : r ≠ .const 1) (hcr : compile n L U r = some (r, [])) :
    GE True n L U (powerOf u r) := by
  have hg := ge_power (ge_false hu) hc hd hr
  refine ge_comp hg ?_
  obtain ⟨p, hp⟩ := compile_var hu hc
  obtain ⟨m, rfl⟩ := Nat.exists_eq_succ_of_ne_zero hn
  have h := pow_opaque (n := m) (l := .stored) (r := r) (by simp) rfl rfl h0 h1
  change ∃ c, (do
    let (l', p) ← compile (m + 1) L U u
    let (r', q) ← compile (m + 1) L U r
    let e ← simp (m + 1) .pow l' r'
    if anyIs .stored l' r' then storeValue L U (powerOf u r) else some (e, p ++ q)) = some c
  have hcr : compile (m + 1) L U r = some (r, []) := hcr
  have hp : compile (m + 1) L U u = some (.stored, p) := hp
  simp only [hcr, hp, Option.bind_eq_bind, Option.bind_some, h]
  split
  · exact ⟨_, by rw [storeValue, if_pos (evaluable_context hg.ev).1]⟩
  · exact ⟨_, rfl⟩

/-- Products of leaves and numbers that are not known at compile time. -/
theorem ge_product_total (hn : 2 ≤ n) {x w z : Expr} (hx : Leaf L U x) (hw : GE True n L U w) (hc : isConstant w = false)
    (hm : asMul w = none) (hq : ∀ b, w ≠ powerOf b (.const (-1))) (h : LeafProduct x w z) : GE True n L U z := by
  have hg := ge_product hx (ge_false hw) hc hm hq h
  refine ge_comp hg ?_
  obtain ⟨q, hq'⟩ := compile_var hw hc
  obtain ⟨m, rfl⟩ : ∃ m, n = m + 2 := ⟨n - 2, by omega⟩
  -- the evaluated leaf
  have hx' : ∃ x' p, compile (m + 2) L U x = some (x', p) ∧ (∃ z, simp (m + 2) .mul x' .stored = some z) ∧
      ∃ z, simp (m + 2) .mul .stored x' = some z := by
    rcases hx with ⟨v, rfl⟩ | ⟨t, i, hL, hU, rfl⟩
    · exact ⟨_, _, compile_const v,
        mul_leaf_left_total (L := 0) (U := 0) (.inl ⟨v, rfl⟩) rfl rfl rfl (by simp [asPower]) (by simp),
        mul_leaf_right_total (L := 0) (U := 0) (.inl ⟨v, rfl⟩) rfl rfl rfl (by simp [asPower]) (by simp)⟩
    · obtain ⟨p, hp⟩ := compile_var (ge_value (R := True) (n := m + 2) (i := i) hL hU) rfl
      exact ⟨_, p, hp, ⟨_, rfl⟩, ⟨_, rfl⟩⟩
  obtain ⟨x', p, hx', ⟨z1, hz1⟩, ⟨z2, hz2⟩⟩ := hx'
  rcases h with rfl | rfl | rfl | rfl
  · exact ⟨_, compile_const 0⟩
  · exact ⟨_, hq'⟩
  · change ∃ c, (do
      let (l', p) ← compile (m + 2) L U x
      let (r', q) ← compile (m + 2) L U w
      let e ← simp (m + 2) .mul l' r'
      if anyIs .stored l' r' then storeValue L U (.fn .mul [x, w]) else some (e, p ++ q)) = some c
    simp only [hx', hq', Option.bind_eq_bind, Option.bind_some, hz1]
    split
    · exact ⟨_, by rw [storeValue, if_pos (evaluable_context hg.ev).1]⟩
    · exact ⟨_, rfl⟩
  · change ∃ c, (do
      let (l', p) ← compile (m + 2) L U w
      let (r', q) ← compile (m + 2) L U x
      let e ← simp (m + 2) .mul l' r'
      if anyIs .stored l' r' then storeValue L U (.fn .mul [w, x]) else some (e, p ++ q)) = some c
    simp only [hx', hq', Option.bind_eq_bind, Option.bind_some, hz2]
    split
    · exact ⟨_, by rw [storeValue, if_pos (evaluable_context hg.ev).1]⟩
    · exact ⟨_, rfl⟩

/-! ## Products with a scalar -/

section
variable {M : CMapping} {w : Expr}

theorem scaled_add {Q : Expr → Prop} {c : Comp} {a s u : CSum} (ha : ∀ d ∈ a, BeforeC c d)
    (hs : Scaled Q [c] s) (hl : ∃ d, s = [d]) (hu : Scaled Q a u) : ∃ e, Ev (fun k => addC k s u) e := by
  obtain ⟨c', rfl⟩ := hl
  have hk := canonical_known hs.1.1 c' (by simp)
  have hcond : IsZero u ∨ c'.coef = .const 0 ∨ ∀ x ∈ u, BeforeC c' x := by
    rcases hs.2 with ⟨x, hx, h0⟩ | hb
    · cases hx; exact .inr (.inl h0)
    · rcases hu.2 with hz | hbu
      · exact .inl hz
      · refine .inr (.inr fun x hx => ?_)
        obtain ⟨y, hy, e⟩ := hbu x hx
        obtain ⟨y', hy', e'⟩ := hb c' (by simp)
        rw [List.mem_singleton] at hy'
        subst hy'
        exact beforeC_congr_left (beforeC_congr_right (ha y hy) e) e'
  obtain ⟨e, he, -⟩ := addC_front (k := 0) hk hu.1.1 hcond
  exact ⟨e, 1, fun j hj => addC_mono hj _ _ _ he⟩

theorem mul_one_ev (z : Expr) : Ev (fun j => simp j .mul z (.const 1)) z := by
  by_cases h0 : z = .const 0
  · subst h0; exact ev_simp (k := 1) rfl
  refine ev_simp (k := 1) ?_
  show applyRules (mulRules (simp 0)) z (.const 1) = some z
  unfold mulRules
  rw [applyRules_skip (by simp [mulZero, h0])]
  by_cases h1 : z = .const 1
  · subst h1; rfl
  · exact applyRules_fire (o := some z) (by simp [mulOne, h1, fire])

theorem scale_one_total (hS : SignMapping N M) (hU : UnitRight N M) (hw : w ≠ .const 0) {c : Comp} (hc : Known c)
    (hI : In N [c]) (hs : InSpaceC N [c]) (hq : ∃ z, Ev (fun j => simp j .mul c.coef w) z) :
    ∃ e, Ev (fun k => mulC M k [c] [⟨w, .const 0⟩]) e := by
  by_cases hz : c.coef = .const 0
  · exact ⟨[c], Ev.succ ⟨0, fun j _ => by
      show mulC M (j + 1) [c] [⟨w, .const 0⟩] = _
      unfold mulC; rw [if_pos ⟨hz, rfl⟩]⟩⟩
  obtain ⟨b, eb, hb⟩ := hI c (by simp)
  obtain ⟨d, hd, -, -⟩ := hS b 0 hb (by simp [InSpace])
  have ed := hd.fact (p := fun r => r = [⟨.const 1, .const b⟩]) fun k y h => hU k b y (hs c (by simp) b eb) h
  obtain ⟨y, hy⟩ := hq
  refine ⟨[mkComp y (.const b)], Ev.succ ?_⟩
  refine Ev.congr (f := fun j => simp j .mul c.coef w >>= fun y => M j c.blade (.const 0) >>= fun r => distribute j y r)
    ?_ fun j => ?_
  · refine hy.bind ?_
    rw [eb]
    refine hd.bind ?_
    rw [ed]
    refine Ev.congr (f := fun j => simp j .mul y (.const 1) >>= fun z => some [mkComp z (.const b)]) ?_ fun j => rfl
    exact (mul_one_ev y).bind (Ev.pure _)
  · unfold mulC
    rw [if_neg (by simp [hz]), if_neg (by simp [hw])]

/-- Products with a scalar compile. -/
theorem scale_right_total (hS : SignMapping N M) (hU : UnitRight N M) (hw : w ≠ .const 0) : ∀ a : CSum,
    Canonical a → In N a → InSpaceC N a → (∀ c ∈ a, ∃ z, Ev (fun j => simp j .mul c.coef w) z) →
    ∃ e, Ev (fun k => mulC M k a [⟨w, .const 0⟩]) e
  | [], ha, _, _, _ => absurd rfl ha.1
  | [c], ha, hI, hs, hq => scale_one_total hS hU hw (canonical_known ha c (by simp)) hI hs (hq c (by simp))
  | c :: d :: a, ha, hI, hs, hq => by
    obtain ⟨t1, t2, t3, t4, t5⟩ := canonical_tail ha (by simp)
    have hs1 : InSpaceC N [c] := fun x hx => hs x (by simp at hx; simp [hx])
    have hs2 : InSpaceC N (d :: a) := fun x hx => hs x (by simp at hx ⊢; tauto)
    obtain ⟨s, es⟩ := scale_one_total hS hU hw t3 (fun x hx => hI x (by simp at hx; simp [hx])) hs1 (hq c (by simp))
    obtain ⟨u, eu⟩ := scale_right_total hS hU hw (d :: a) t1 (fun x hx => hI x (by simp at hx ⊢; tauto)) hs2
      (fun x hx => hq x (by simp at hx ⊢; tauto))
    have f1 := es.fact (p := fun e => Scaled (fun _ => True) [c] e ∧ ∃ d, e = [d])
      fun k y h => scale_right_one hU trivial hw t3 hs1 (fun _ _ _ => trivial) h
    have f2 := eu.fact (p := fun e => Scaled (fun _ => True) (d :: a) e)
      fun k y h => scale_right hU trivial hw (d :: a) k y t1 hs2 (fun _ _ _ _ _ => trivial) h
    obtain ⟨e, he⟩ := scaled_add t2 f1.1 f1.2 f2
    refine ⟨e, Ev.succ ?_⟩
    refine Ev.congr (f := fun j => mulC M j [c] [⟨w, .const 0⟩] >>= fun x => mulC M j (d :: a) [⟨w, .const 0⟩] >>= fun y =>
      addC j x y) (es.bind (eu.bind he)) fun j => ?_
    conv_lhs => unfold mulC
    rw [if_neg (by simp), if_neg (by simp [hw])]

end

/-! ## The squared norm -/

/-- A constant is not larger than its weight. -/
theorem pw_const_weight {D x : Nat} {c : Int} (h : PW D (.const c) x) : c.natAbs ≤ x := by
  obtain ⟨X, hX, -, hw⟩ := h
  refine le_trans ?_ hw
  rcases X with _ | ⟨m, _ | ⟨m', X⟩⟩
  · cases hX; simp
  · obtain ⟨k, fs⟩ := m
    have hX : Expr.const c = prodL (Mon.items ⟨k, fs⟩) := hX
    unfold Mon.items at hX
    split_ifs at hX with hk
    · rcases fs with _ | ⟨f, _ | ⟨f', fs⟩⟩
      · cases hX
        simp [wt, show k = 1 from hk]
      · obtain ⟨y, n⟩ := f
        have hX : Expr.const c = if n = 1 then y.expr else powerOf y.expr (.const n) := hX
        split_ifs at hX
        have := asConst_atom y
        rw [← hX] at this
        cases this
      · cases hX
    · rcases fs with _ | ⟨f, fs⟩
      · cases hX
        simp [wt]
      · cases hX
  · cases hX

/-- The types that the library computes for the argument `M`, its reverse and its squared norm. -/
structure NormType (P Q R : Nat) (ρ : Env) (M : Object) (A : MV ℝ) (a ra : CSum) (v : Expr) : Prop where
  args : arguments (baseId [M]) [M] = some [a]
  leaf : Within (Leaf (baseId [M] + 1) (baseId [M] + (storedInputs [M]).length)) a
  denotes : SumDenotes (contextEnv ρ (baseId [M]) (storedInputs [M])) (P + Q + R) a A
  rev : Ev (fun k => gradedMinusC k 0xcccccccccccccccc a) ra
  norm : Ev (fun k => mulC (orthMapping (P + Q + R) (mkSignedFactor P Q R) .sp) k a ra) [⟨v, .const 0⟩]
  revPoly : Within (Poly (baseId [M] + 1) (baseId [M] + (storedInputs [M]).length)) ra
  revDenotes : SumDenotes (contextEnv ρ (baseId [M]) (storedInputs [M])) (P + Q + R) ra (GATL.reverse A)
  poly : Poly (baseId [M] + 1) (baseId [M] + (storedInputs [M]).length) v
  built : Built v
  value : Denotes (contextEnv ρ (baseId [M]) (storedInputs [M])) v (rnormSqr (signedProd P Q R) A)
  comp : ∃ c, Ev (fun k => compile k (baseId [M] + 1) (baseId [M] + (storedInputs [M]).length) v) c
  neg : ∃ e, Ev (fun k => simp k .mul (.const (-1)) v) e
  revNeg : ∀ c ∈ ra, ∃ e, Ev (fun k => simp k .mul c.coef (.const (-1))) e
  small : ∀ c : Int, v = .const c → c.natAbs ≤ 2 ^ 62

section
variable {P Q R : Nat}

theorem signed_sign (hN : P + Q + R ≤ 62) (g : GradedProduct) :
    SignMapping (P + Q + R) (orthMapping (P + Q + R) (mkSignedFactor P Q R) g) :=
  orth_sign hN le_rfl (by omega) (signedFactor_small P Q R) g

variable (hN : P + Q + R ≤ 62) {M : Object} {A : MV ℝ} (hM : Represents ρ (P + Q + R) M A) {w : Nat}
  (hw : weightC M.expr < w) (hw1 : 1 < w) (hB' : w * w ≤ 2 ^ 62) (hn : ∀ c ∈ M.expr, Normal c)
include hN hM hw hw1 hB' hn

theorem norm_total : ∃ a ra v, NormType P Q R ρ M A a ra v := by
  have hB : w * w < B := lt_of_le_of_lt hB' (by norm_num [B])
  have hPw : PlainWs M.expr (weightC M.expr) := plainWs_weight hM.1.2
  obtain ⟨as, h1, has⟩ := arguments_total (baseId [M]) [M] [w]
    (fun X hX => by rw [List.mem_singleton] at hX; subst hX; exact hM.1)
    (.cons (hPw.mono hw.le) .nil)
  obtain ⟨as', h1', h2', h3', -⟩ := arguments_ok (outer := ρ) (Ms := [M]) (As := [A]) (by omega) (.cons hM .nil)
  rw [h1] at h1'
  obtain rfl := Option.some.inj h1'
  obtain ⟨a, as', d1, h4', rfl⟩ := List.forall₂_cons_right_iff.1 h3'
  obtain rfl := List.forall₂_nil_right_iff.1 h4'
  have wa : Weighs 1 a w := (List.forall₂_cons.1 has).1
  have w1 := h2' a (by simp)
  have na : ∀ c ∈ a, Normal c := by
    unfold arguments at h1
    split at h1
    · simp only [arguments, Option.bind_eq_bind, Option.bind_eq_some_iff, Option.some.injEq, List.cons.injEq] at h1
      obtain ⟨b, hb, l, -, rfl, -⟩ := h1
      exact tagC_normal _ _ _ _ _ hb
    · simp only [arguments, Option.bind_eq_bind, Option.bind_some, Option.some.injEq, List.cons.injEq] at h1
      rw [← h1.1]
      exact hn
  have hwB : w < B := lt_of_le_of_lt (Nat.le_mul_of_pos_left w (by omega)) hB
  have ia := in_of w1.1 d1
  obtain ⟨ra, era, cra, wra⟩ := tot_minus (N := P + Q + R) 0xcccccccccccccccc 1 w a w1.1 ia wa (by norm_num [B]) hwB
  have pra := era.fact (p := fun e => Within (Poly (baseId [M] + 1) (baseId [M] + (storedInputs [M]).length)) e)
    fun k y h => (good_reverse (N := P + Q + R) (k := k) (by omega)).within _ (poly_const ·) poly_closed a y
      (within_mono (fun _ => leaf_poly) w1) h
  have dra := era.fact (p := fun e => SumDenotes (contextEnv ρ (baseId [M]) (storedInputs [M])) (P + Q + R) e (GATL.reverse A))
    fun k y h => (good_reverse (k := k) (by omega : P + Q + R ≤ 63)).denotes _ a y A d1 h
  have nra := era.fact (p := fun e => ∀ c ∈ e, Normal c) fun k y h => minus_normal na h
  obtain ⟨sa, esa, csa, wsa⟩ := tot_mul (signed_sign hN .sp) 1 1 w w a ra w1.1 cra ia (in_of cra dra) wa wra
    (by norm_num [B]) hB
  have ssa := esa.fact (p := fun e => ∀ c ∈ e, OnScalar c) fun k y h =>
    mulC_scalar (fun k a b r h => sp_onScalar hN h) k _ _ _ (fun c hc => ⟨canonical_known w1.1 c hc, na c hc⟩)
      (fun c hc => ⟨canonical_known pra.1 c hc, nra c hc⟩) h
  obtain ⟨v, rfl⟩ := scalar_single csa ssa
  have psa := esa.fact (p := fun e => Within (Poly (baseId [M] + 1) (baseId [M] + (storedInputs [M]).length)) e)
    fun k y h => (good_graded (k := k) hN .sp).within _ (poly_const ·) poly_closed a ra _
      (within_mono (fun _ => leaf_poly) w1) pra h
  have dsa := esa.fact (p := fun e => SumDenotes (contextEnv ρ (baseId [M]) (storedInputs [M])) (P + Q + R) e
    (signedProd P Q R .sp A (GATL.reverse A))) fun k y h => (graded_denotes (k := k) hN .sp) _ a ra _ _ _ d1 dra h
  have esp : signedProd P Q R .sp A (GATL.reverse A) = Finsupp.single 0 (rnormSqr (signedProd P Q R) A) := by
    rw [rnormSqr]
    unfold signedProd
    rw [Iso.sp_scalar]
    simp [scalar]
  rw [esp] at dsa
  have pv : Poly _ _ v := psa.2 ⟨v, .const 0⟩ (by simp)
  have bv : Built v := (dsa.1 ⟨v, .const 0⟩ (by simp)).1
  obtain ⟨x, y, px, -, hxy⟩ := wsa
  replace hxy : x + y ≤ w * w := hxy
  obtain ⟨c, hc, -⟩ := compile_total px (by omega) pv
  obtain ⟨e, he, -⟩ := PW.mul (D := 0) (by norm_num [B]) (PW.const 0 (-1)) px (by simp; omega)
  refine ⟨a, ra, v, h1, w1, d1, era, esa, pra, dra, pv, bv, single_denotes_inv dsa, ⟨c, hc⟩, ⟨e, he⟩, fun c hc => ?_,
    fun c e => (pw_const_weight (e ▸ px)).trans (by omega)⟩
  obtain ⟨e, he, -⟩ := PW.mul (D' := 0) (by norm_num [B]) (wra.mem c hc) (PW.const 0 (-1)) (by simp; omega)
  exact ⟨e, he⟩

end

section
variable {P Q R : Nat} {M : Object} {A : MV ℝ} {a ra : CSum} {v : Expr}

theorem NormType.coef (h : NormType P Q R ρ M A a ra v) : Ev (fun k => normCoef P Q R k M) v := by
  refine Ev.congr (f := fun k => gradedMinusC k 0xcccccccccccccccc a >>= fun ra =>
    mulC (orthMapping (P + Q + R) (mkSignedFactor P Q R) .sp) k a ra >>= fun s => scalarCoef s)
    (h.rev.bind (h.norm.bind (Ev.pure _))) fun k => ?_
  simp only [normCoef, h.args, Option.bind_eq_bind, Option.bind_some]

theorem lazyOnly_ev {s : CSum} (h : hasStoredC s = false) : Ev (fun _ => lazyOnly s) s := ⟨0, fun _ _ => lazyOnly_some.2 ⟨rfl, h⟩⟩

theorem NormType.expr (h : NormType P Q R ρ M A a ra v) : Ev (fun k => normExpr P Q R k a) [⟨v, .const 0⟩] := by
  refine Ev.congr (f := fun k => (gradedMinusC k 0xcccccccccccccccc a >>= fun ra => lazyOnly ra) >>= fun ra =>
    mulC (orthMapping (P + Q + R) (mkSignedFactor P Q R) .sp) k a ra >>= fun s => lazyOnly s) ?_ fun k => rfl
  exact (h.rev.bind (lazyOnly_ev (within_stored poly_stored h.revPoly))).bind
    (h.norm.bind (lazyOnly_ev (scalar_stored (poly_stored v h.poly))))

theorem scalarMap (hd : N ≤ 62) {d : Nat} (hN : N ≤ d) (h63 : d ≤ 63) {f : Expr → Expr}
    (hf : ∀ b, ∃ x : Int, f (.cbits b) = .const x ∧ x.natAbs ≤ 1) {g : GradedProduct}
    (hs : ∀ k r, orthMapping d f g k (.const 0) (.const 0) = some r → r = [⟨.const 1, .const 0⟩]) :
    Ev (fun k => orthMapping d f g k (.const 0) (.const 0)) [⟨.const 1, .const 0⟩] := by
  obtain ⟨c, hc, -, -⟩ := orth_sign hd hN h63 hf g 0 0 (by simp [InSpace]) (by simp [InSpace])
  have := hc.fact (p := fun r => r = [⟨.const 1, .const 0⟩]) hs
  rwa [this] at hc

/-- The product of two scalars. -/
theorem scalar_mul_ev {Mp : CMapping} (hM : Ev (fun k => Mp k (.const 0) (.const 0)) [⟨.const 1, .const 0⟩]) {x y z : Expr}
    (hx : x ≠ .const 0) (hy : y ≠ .const 0) (hz : Ev (fun k => simp k .mul x y) z) :
    Ev (fun k => mulC Mp k [⟨x, .const 0⟩] [⟨y, .const 0⟩]) [⟨z, .const 0⟩] := by
  refine Ev.succ (Ev.congr (f := fun j => simp j .mul x y >>= fun y => Mp j (.const 0) (.const 0) >>= fun r => distribute j y r)
    ?_ fun j => ?_)
  · refine hz.bind (hM.bind (Ev.congr (f := fun j => simp j .mul z (.const 1) >>= fun z => some [⟨z, .const 0⟩]) ?_ fun j => ?_))
    · exact (mul_one_ev z).bind (Ev.pure _)
    · simp only [distribute]
      congr 1
      funext z
      have h : (Blade.const 0).grades ≠ 0 := by decide
      unfold mkComp
      rw [if_neg h]
      split <;> rfl
  · unfold mulC
    rw [if_neg (by simp [hx]), if_neg (by simp [hy])]

theorem scalar_reverse_ev {x : Expr} (h : ∃ e, Ev (fun k => simp k .mul (.const (-1)) x) e) :
    Ev (fun k => gradedMinusC k 0xcccccccccccccccc [⟨x, .const 0⟩]) [⟨x, .const 0⟩] := by
  obtain ⟨e, k0, hk⟩ := h
  refine ⟨k0, fun j hj => ?_⟩
  simp only [gradedMinusC, gradedMinusComp, hk j hj, Option.bind_eq_bind, Option.bind_some]
  rw [if_pos (by decide)]

/-- `inv` of the square root of an opaque expression. -/
theorem inverse_root_ev (hN : P + Q + R ≤ 62) {u : Expr} (hu : Opaque u) (hst : hasStored u = false) :
    Ev (fun k => inverseExpr P Q R k [⟨powerOf u half, .const 0⟩]) [⟨powerOf u minusHalf, .const 0⟩] := by
  have hst' : hasStored (powerOf u half) = false := by simp [hasStored, hasStoredAny, hst, half, recip]
  have hcr : isConstant (powerOf u half) = false := by simp [isConstant, isConstantAll, hu.1]
  have hneg : ∃ e, Ev (fun k => simp k .mul (.const (-1)) (powerOf u half)) e := by
    obtain ⟨z, hz⟩ := mul_leaf_left_total (n := 0) (L := 0) (U := 0) (x := .const (-1)) (w := powerOf u half) (.inl ⟨_, rfl⟩) hcr
      rfl rfl (fun b q hb e => by
        simp only [asPower, Option.some.injEq, Prod.mk.injEq] at hb
        exact opaque_ne hu _ (hb.1.trans e)) (by simp)
    exact ⟨z, ev_simp hz⟩
  have e1 : Ev (fun k => reverseExpr k [⟨powerOf u half, .const 0⟩]) [⟨powerOf u half, .const 0⟩] :=
    (scalar_reverse_ev hneg).bind (lazyOnly_ev (scalar_stored hst'))
  have hsq : Ev (fun k => simp k .mul (powerOf u half) (powerOf u half)) u := by
    refine ev_simp (k := 12 + 1) ?_
    rw [mul_self (by simp) rfl rfl, pow_power (by decide) (by decide), simp_mono (by norm_num) _ _ _ _ half_two]
    exact pow_one (opaque_ne hu)
  have e2 : Ev (fun k => normExpr P Q R k [⟨powerOf u half, .const 0⟩]) [⟨u, .const 0⟩] :=
    e1.bind ((scalar_mul_ev (scalarMap hN le_rfl (by omega) (signedFactor_small P Q R) (signed_scalar (.inr rfl) hN))
      (by simp) (by simp) hsq).bind (lazyOnly_ev (scalar_stored hst)))
  have hinv : Ev (fun k => simp k .pow u (.const (-1))) (powerOf u (.const (-1))) :=
    ev_simp (pow_opaque (n := 0) (opaque_ne hu) hu.2.2.1 hu.2.2.2 (by decide) (by decide))
  have e3 : Ev (fun k => powExpr k [⟨u, .const 0⟩] (constSum (-1))) [⟨powerOf u (.const (-1)), .const 0⟩] :=
    hinv.bind (lazyOnly_ev (scalar_stored (by simp [hasStored, hasStoredAny, hst])))
  have hri : Ev (fun k => simp k .mul (powerOf u half) (powerOf u (.const (-1)))) (powerOf u minusHalf) := by
    refine ev_simp (k := 12 + 1) ?_
    rw [mul_powers (by decide), simp_mono (by norm_num) _ _ _ _ half_sub]
    exact pow_opaque (opaque_ne hu) hu.2.2.1 hu.2.2.2 (by decide) (by decide)
  exact e2.bind (e3.bind (e1.bind ((scalar_mul_ev (scalarMap (N := 0) (by omega) (by omega) le_rfl
    (f := mkRealFactor) (fun b => ⟨1, rfl, by simp⟩) real_scalar) (by simp) (by simp) hri).bind
    (lazyOnly_ev (scalar_stored (by simp [hasStored, hasStoredAny, hst]))))))

theorem NormType.ge (h : NormType P Q R ρ M A a ra v) (hc : isConstant v = false) : ∃ k0, ∀ k, k0 ≤ k →
    GE True k (baseId [M] + 1) (baseId [M] + (storedInputs [M]).length) v := by
  obtain ⟨c, k0, hk⟩ := h.comp
  exact ⟨k0, fun k hj => ⟨poly_evaluable h.built h.poly, h.built, (fun h => by simp [hc] at h),
    fun τ => poly_noInt _ h.poly, fun _ => ⟨c, hk k hj⟩⟩⟩

/-- `rnorm` compiles. -/
theorem rnorm_total (h : NormType P Q R ρ M A a ra v) (hc : isConstant v = false) (ha : ∃ args, v = .fn .add args)
    (h0 : 0 ≤ rnormSqr (signedProd P Q R) A) : ∃ k0, ∀ k, k0 ≤ k → ∃ o, normObject P Q R k τ ρ M = some o := by
  obtain ⟨args, rfl⟩ := ha
  have hst := poly_stored _ h.poly
  have e1 : Ev (fun k => sqrtExpr k [⟨.fn .add args, .const 0⟩]) [⟨powerOf (.fn .add args) half, .const 0⟩] := by
    have e1 : Ev (fun k => simp k .pow (.const 2) (.const (-1))) half := ev_simp (k := 5) (by decide +kernel)
    have e2 : Ev (fun k => simp k .pow (.fn .add args) half) (powerOf (.fn .add args) half) :=
      ev_simp (pow_opaque (n := 0) (ne_const hc) rfl rfl (by decide) (by decide))
    exact e1.bind ((lazyOnly_ev rfl).bind (e2.bind (lazyOnly_ev (scalar_stored (by
      simp only [hasStored, hasStoredAny] at hst ⊢
      simp [hst, half, recip, hasStored, hasStoredAny])))))
  obtain ⟨k1, hk1⟩ := h.expr
  obtain ⟨k2, hk2⟩ := e1
  obtain ⟨k3, hk3⟩ := h.ge hc
  refine ⟨max (max k1 k2) (max k3 10), fun k hk => ?_⟩
  rw [rnorm_pure h.args (leaf_stored h.leaf) (hk1 k (by omega)) (hk2 k (by omega))]
  have hdir : Direct (.fn .add args) := ⟨by simp, by simp⟩
  have gw := ge_power_total (by omega) (hk3 k (by omega)) hc hdir exponent_half (by decide) (by decide)
    (compile_half (by omega))
  have dw : V (contextEnv ρ (baseId [M]) (storedInputs [M])) (powerOf (.fn .add args) half)
      (rnormSqr (signedProd P Q R) A ^ (1 / 2 : ℝ)) :=
    V.power ⟨h.built, h.value⟩ v_half hdir (powDefined_root h0)
  exact (context_ge (R := True) (τ := τ) (k := k) (Ms := [M]) (N := P + Q + R)
    ⟨canonical_single ⟨0, rfl, by simp [vecs]⟩, by simpa using gw⟩ (single_denotes dw.1 dw.2)).2 trivial (by omega)

/-- `unit` compiles. -/
theorem unit_total (hN : P + Q + R ≤ 62) (h : NormType P Q R ρ M A a ra v) (hs : scalarCoef M.expr = none)
    (hc : isConstant v = false) (hn : isNonNegative v = some false) (h0 : rnormSqr (signedProd P Q R) A ≠ 0) :
    ∃ k0, ∀ k, k0 ≤ k → ∃ o, unitObject P Q R k τ ρ M = some o := by
  have hst := poly_stored _ h.poly
  have hsu : hasStored (.fn .absolute [v]) = false := by simp [hasStored, hasStoredAny, hst]
  have ou := abs_opaque hc
  have hab : Ev (fun k => mkAbsolute (simp k) v) (.fn .absolute [v]) := by
    obtain ⟨e, k0, hk⟩ := h.neg
    refine ⟨k0, fun k hj => ?_⟩
    simp only [mkAbsolute, hn, hc, hk k hj, Option.bind_eq_bind, Option.bind_some, Bool.false_and, Bool.false_eq_true,
      if_false]
  have e1 : Ev (fun k => absExpr k [⟨v, .const 0⟩]) [⟨.fn .absolute [v], .const 0⟩] :=
    hab.bind (lazyOnly_ev (scalar_stored hsu))
  have e2 : Ev (fun k => sqrtExpr k [⟨.fn .absolute [v], .const 0⟩]) [⟨powerOf (.fn .absolute [v]) half, .const 0⟩] := by
    have e1 : Ev (fun k => simp k .pow (.const 2) (.const (-1))) half := ev_simp (k := 5) (by decide +kernel)
    have e2 : Ev (fun k => simp k .pow (.fn .absolute [v]) half) (powerOf (.fn .absolute [v]) half) :=
      ev_simp (pow_opaque (n := 0) (ne_const ou.1) rfl rfl (by decide) (by decide))
    exact e1.bind ((lazyOnly_ev rfl).bind (e2.bind (lazyOnly_ev (scalar_stored (by
      simp [hst, half, recip, hasStored, hasStoredAny])))))
  have e3 := inverse_root_ev hN ou hsu
  have hcw : isConstant (powerOf (.fn .absolute [v]) minusHalf) = false := by simp [isConstant, isConstantAll, hc]
  have hbase : ∀ c ∈ a, ∀ b q, asPower (powerOf (.fn .absolute [v]) minusHalf) = some (b, q) → b ≠ c.coef := by
    intro c hc b q hb e
    simp only [asPower, Option.some.injEq, Prod.mk.injEq] at hb
    rcases h.leaf.2 c hc with ⟨v, h⟩ | ⟨t, i, -, -, h⟩ <;> rw [h, ← hb.1] at e <;> cases e
  have hne : ∀ c ∈ a, c.coef ≠ powerOf (.fn .absolute [v]) minusHalf := by
    intro c hc e
    rcases h.leaf.2 c hc with ⟨v, h⟩ | ⟨t, i, -, -, h⟩ <;> rw [h] at e <;> cases e
  have hU := (orth_unit hN (mkSignedFactor_const P Q R) (signed_factor hN) (.inl rfl)).1
  obtain ⟨e, e4⟩ := scale_right_total (signed_sign hN .gp) hU (w := powerOf (.fn .absolute [v]) minusHalf) (by simp) a
    h.leaf.1 (in_of h.leaf.1 h.denotes) (inSpaceC_of h.denotes) fun c hc => by
      obtain ⟨z, hz⟩ := mul_leaf_left_total (n := 0) (h.leaf.2 c hc) hcw rfl rfl (hbase c hc) (hne c hc)
      exact ⟨z, ev_simp hz⟩
  obtain ⟨k1, hk1⟩ : Ev (fun k => unitExpr P Q R k a) e := h.expr.bind (e1.bind (e2.bind (e3.bind e4)))
  obtain ⟨k2, hk2⟩ := h.ge hc
  obtain ⟨k3, hk3⟩ := hab
  obtain ⟨k4, hk4⟩ := e4
  refine ⟨max (max k1 k2) (max (max k3 k4) 10), fun k hk => ?_⟩
  rw [unit_pure hs h.args (leaf_stored h.leaf) (hk1 k (by omega))]
  have gv := hk2 k (by omega)
  have gu := ge_abs gv (by omega) (hk3 k (by omega))
  have du := abs_den gv.lit h.built (poly_traitSafe _ h.poly) h.value (hk3 k (by omega))
  have gw := ge_power_total (by omega) gu ou.1 abs_direct exponent_minusHalf (by decide) (by decide)
    (compile_minusHalf (by omega))
  have dw : V (contextEnv ρ (baseId [M]) (storedInputs [M])) (powerOf (.fn .absolute [v]) minusHalf)
      (|rnormSqr (signedProd P Q R) A| ^ (-(1 / 2) : ℝ)) :=
    V.power ⟨gu.built, du⟩ v_minusHalf abs_direct (.inl (abs_pos.2 h0))
  have h10 := hk4 k (by omega)
  have hsc := scale_right (Q := GE True k (baseId [M] + 1) (baseId [M] + (storedInputs [M]).length))
    hU (ge_const 0) (by simp) a k e h.leaf.1 (inSpaceC_of h.denotes) (fun c hc j z hz =>
      ge_product_total (by omega) (h.leaf.2 c hc) gw hcw rfl (by simp)
        (mul_leaf_left (h.leaf.2 c hc) hcw rfl rfl (hbase c hc) (hne c hc) hz)) h10
  have hden := (graded_denotes (k := k) hN .gp) _ a _ _ _ _ h.denotes (single_denotes dw.1 dw.2) h10
  exact (context_ge (R := True) (τ := τ) (k := k) (Ms := [M]) hsc.1 hden).2 trivial (by omega)

end

end GATL.Total
