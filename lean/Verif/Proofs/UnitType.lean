import Verif.Proofs.Square
import Verif.Spec.Unit

/-!
The squared norm of a multivector as a function of its stored coefficients, and `unit` as a function of types.
-/

namespace GATL

open Expr Spec

variable {τ : Types} {outer : Env} {P Q R k : Nat}

theorem scalarCoef_none {M : Object} (h : ¬ ScalarType M) : scalarCoef M.expr = none := by
  cases hs : scalarCoef M.expr with
  | none => rfl
  | some c => exact absurd ⟨c, scalarCoef_inv hs⟩ h

/-- The type of the squared norm denotes the squared norm, whatever the stored coefficients are. -/
theorem normCoef_values (hN : P + Q + R ≤ 62) {M : Object} (hp : Plain M.expr) {v : Expr}
    (hv : normCoef P Q R k M = some v) {vs : List ℝ} {A : MV ℝ} (hA : Reads outer (P + Q + R) M.expr vs M.bitsets A) :
    Denotes (contextEnv outer (baseId [M]) (storedInputs [{ M with values := vs }])) v
      (rnormSqr (signedProd P Q R) A) := by
  set M' : Object := { M with values := vs } with hM'
  have hM : Represents outer (P + Q + R) M' A := ⟨hp, hA⟩
  have hv' : normCoef P Q R k M' = some v := hv
  obtain ⟨as, h1, h2, h3, -⟩ := arguments_ok (outer := outer) (Ms := [M']) (As := [A]) (by omega) (.cons hM .nil)
  obtain ⟨a, as', d1, h3', rfl⟩ := List.forall₂_cons_right_iff.1 h3
  obtain rfl := List.forall₂_nil_right_iff.1 h3'
  simp only [normCoef, h1, Option.bind_eq_bind, Option.bind_some, Option.bind_eq_some_iff] at hv'
  obtain ⟨ra, hra, sa, hsa, hv'⟩ := hv'
  obtain rfl := scalarCoef_inv hv'
  have dra := (good_reverse (by omega : P + Q + R ≤ 63)).denotes _ a ra A d1 hra
  have dsa := (graded_denotes hN .sp) _ a ra _ _ _ d1 dra hsa
  have esp : signedProd P Q R .sp A (reverse A) = Finsupp.single 0 (rnormSqr (signedProd P Q R) A) := by
    rw [rnormSqr]
    unfold signedProd
    rw [Iso.sp_scalar]
    simp [scalar]
  rw [esp] at dsa
  exact single_denotes_inv dsa

theorem value_context {M : Object} {base t i : Nat} :
    (∀ vs, (contextEnv outer base (storedInputs [{ M with values := vs }])).val t i = vs.getD i 0) ∨
      ∃ c, ∀ vs, (contextEnv outer base (storedInputs [{ M with values := vs }])).val t i = c := by
  by_cases hb : base < t
  · by_cases hs : hasStoredC M.expr = true
    · by_cases ht : t - (base + 1) = 0
      · left
        intro vs
        simp [contextEnv, storedInputs, hb, hs, ht]
      · right
        refine ⟨0, fun vs => ?_⟩
        obtain ⟨j, hj⟩ := Nat.exists_eq_succ_of_ne_zero ht
        simp [contextEnv, storedInputs, hb, hs, hj]
    · right
      refine ⟨0, fun vs => ?_⟩
      simp [contextEnv, storedInputs, hb, hs]
  · right
    refine ⟨outer.val t i, fun vs => ?_⟩
    simp [contextEnv, hb]

/-- The type of a squared norm that is neither constant nor a square is not known to be non-negative. -/
theorem normCoef_unflagged (hN : P + Q + R ≤ 62) {M : Object} {A : MV ℝ} (hM : Represents outer (P + Q + R) M A)
    {v : Expr} (hv : normCoef P Q R k M = some v) (h1 : ¬ ConstantNorm outer P Q R M)
    (h2 : ¬ SquareNorm outer P Q R M) : isConstant v = false ∧ isNonNegative v = some false := by
  have hden := fun vs A => normCoef_values (outer := outer) hN hM.1 hv (vs := vs) (A := A)
  have key : ∀ (c : ℝ) (t i : Nat), 0 ≤ c → (∀ ρ : Env, Denotes ρ v (c * ρ.val t i ^ 2)) → False := by
    intro c t i hc hd
    have huniq : ∀ vs A, Reads outer (P + Q + R) M.expr vs M.bitsets A → rnormSqr (signedProd P Q R) A =
        c * (contextEnv outer (baseId [M]) (storedInputs [{ M with values := vs }])).val t i ^ 2 := by
      intro vs A hA
      have := (hden vs A hA).symm.trans (hd _)
      simpa using this
    rcases value_context (outer := outer) (M := M) (base := baseId [M]) (t := t) (i := i) with h | ⟨r, h⟩
    · exact h2 ⟨c, i, hc, fun vs A hA => by rw [huniq vs A hA, h]⟩
    · exact h1 ⟨c * r ^ 2, fun vs A hA => by rw [huniq vs A hA, h]⟩
  have hpd : ∀ (ρ : Env) t i, PowDefined (ρ.val t i) ((2 : Int) : ℝ) := by
    intro ρ t i
    rcases lt_trichotomy (ρ.val t i) 0 with h | h | h
    · exact .inr (.inr ⟨h, 2, rfl⟩)
    · exact .inr (.inl ⟨h, by norm_num⟩)
    · exact .inl h
  have hsq : ∀ ρ : Env, ∀ t i, Denotes ρ (powerOf (.value t i) (.const 2)) (ρ.val t i ^ 2) := by
    intro ρ t i
    have := (V.power (ρ := ρ) (l := .value t i) (x := ρ.val t i) ⟨.value _ _, rfl⟩ (V.const (ρ := ρ) 2)
      ⟨by simp, by simp⟩ (hpd ρ t i)).2
    simpa using this
  rcases normCoef_lin hN hM hv with (⟨c, rfl⟩ | ⟨b, rfl, hb, t, i, rfl⟩ | ⟨c, a, rfl, ⟨b, rfl, hb, t, i, rfl⟩, hkc⟩) |
    ⟨h, t, rfl, ht, -, hn⟩
  · refine absurd ⟨(c : ℝ), fun vs A hA => ?_⟩ h1
    have := hden vs A hA
    simpa [Denotes, den] using this.symm
  · exact (key 1 t i zero_le_one fun ρ => by simpa using hsq ρ t i).elim
  · refine ⟨by simp [isConstant, isConstantAll], ?_⟩
    by_cases hc : 0 ≤ c
    · refine (key c t i (by exact_mod_cast hc) fun ρ => ?_).elim
      have := hpd ρ t i
      have h2 : ((2 : Int) : ℝ) = 2 := by norm_num
      rw [h2] at this
      simp [Denotes, den, denList, interp, this, prodVals]
    · simp [isNonNegative, isNonNegativeAll, hc, isEven]
  · obtain ⟨x, t', rfl⟩ := List.exists_cons_of_ne_nil ht
    exact ⟨by simp [isConstant, isConstantAll, (hn x (by simp)).not_constant], rfl⟩

theorem square_single {M : Object} (h : SquareNorm outer P Q R M) : SingleSquareNorm outer P Q R M := by
  obtain ⟨c, i, -, h⟩ := h
  exact ⟨c, i, h⟩

/-- If the squared norm is no multiple of a single square at all then its type is a sum. -/
theorem normCoef_add (hN : P + Q + R ≤ 62) {M : Object} {A : MV ℝ} (hM : Represents outer (P + Q + R) M A)
    {v : Expr} (hv : normCoef P Q R k M = some v) (h1 : ¬ ConstantNorm outer P Q R M)
    (h2 : ¬ SingleSquareNorm outer P Q R M) : ∃ args, v = .fn .add args := by
  obtain ⟨hc, hn⟩ := normCoef_unflagged hN hM hv h1 (fun h => h2 (square_single h))
  have hden := fun vs A => normCoef_values (outer := outer) hN hM.1 hv (vs := vs) (A := A)
  rcases normCoef_lin hN hM hv with (⟨c, rfl⟩ | ⟨b, rfl, hb, t, i, rfl⟩ | ⟨c, a, rfl, ⟨b, rfl, hb, t, i, rfl⟩, hkc⟩) |
    ⟨h, t, rfl, ht, -, hn⟩
  · simp [isConstant] at hc
  · simp [isNonNegative, isEven] at hn
  · exfalso
    have huniq : ∀ vs A, Reads outer (P + Q + R) M.expr vs M.bitsets A → rnormSqr (signedProd P Q R) A =
        c * (contextEnv outer (baseId [M]) (storedInputs [{ M with values := vs }])).val t i ^ 2 := by
      intro vs A hA
      have hd := hden vs A hA
      simp only [Denotes, den, denList, interp] at hd
      split_ifs at hd with hp
      · simp only [prodVals, mul_one] at hd
        simp only [Option.some.injEq, Val.num.injEq] at hd
        rw [← hd]
        have h2' : ((2 : Int) : ℝ) = (2 : ℕ) := by norm_num
        rw [h2', Real.rpow_natCast]
      · simp [prodVals] at hd
    rcases value_context (outer := outer) (M := M) (base := baseId [M]) (t := t) (i := i) with h | ⟨r, h⟩
    · exact h2 ⟨c, i, fun vs A hA => by rw [huniq vs A hA, h]⟩
    · exact h1 ⟨c * r ^ 2, fun vs A hA => by rw [huniq vs A hA, h]⟩
  · exact ⟨_, rfl⟩

theorem powDefined_root {x : ℝ} (h : 0 ≤ x) : PowDefined x (1 / 2) := by
  rcases h.lt_or_eq with h | h
  · exact .inl h
  · exact .inr (.inl ⟨h.symm, by norm_num⟩)

theorem norm_call (hN : P + Q + R ≤ 62) {M o : Object} {A : MV ℝ} (hM : Represents outer (P + Q + R) M A)
    {v : Expr} (hv : normCoef P Q R k M = some v) (hc : isConstant v = false) (ha : ∃ args, v = .fn .add args)
    (h0 : 0 ≤ rnormSqr (signedProd P Q R) A) (h : normObject P Q R k τ outer M = some o) :
    Represents outer (P + Q + R) o (Finsupp.single 0 (√(rnormSqr (signedProd P Q R) A))) := by
  have dv := normCoef_values (outer := outer) hN hM.1 hv hM.2
  obtain ⟨as, h1, h2, h3, -⟩ := arguments_ok (outer := outer) (Ms := [M]) (As := [A]) (by omega) (.cons hM .nil)
  obtain ⟨a, as', d1, h3', rfl⟩ := List.forall₂_cons_right_iff.1 h3
  obtain rfl := List.forall₂_nil_right_iff.1 h3'
  have w1 := h2 a (by simp)
  simp only [normCoef, h1, Option.bind_eq_bind, Option.bind_some, Option.bind_eq_some_iff] at hv
  obtain ⟨ra, hra, sa, hsa, hv⟩ := hv
  obtain rfl := scalarCoef_inv hv
  simp only [normObject, h1, Option.bind_eq_bind, Option.bind_some, Option.bind_eq_some_iff] at h
  obtain ⟨rv, hrv, s, hs', sq, hsq, ho⟩ := h
  have la : hasStoredC (lazyObject M.floats a).expr = false := leaf_stored w1
  obtain ⟨e1, h4, h5⟩ := call1_lazy_inv la hrv
  rw [show (lazyObject M.floats a).expr = a from rfl, hra] at h4
  cases h4
  have pra := (good_reverse (k := k) (by omega : P + Q + R ≤ 63)).within _ (poly_const ·) poly_closed a ra
    (within_mono (fun _ => leaf_poly) w1) hra
  have dra := (good_reverse (k := k) (by omega : P + Q + R ≤ 63)).denotes _ a ra A d1 hra
  have psa := (good_graded (k := k) hN .sp).within _ (poly_const ·) poly_closed a ra _
    (within_mono (fun _ => leaf_poly) w1) pra hsa
  have dsa := (graded_denotes (k := k) hN .sp) _ a ra _ _ _ d1 dra hsa
  have pv : Poly _ _ v := psa.2 ⟨v, .const 0⟩ (by simp)
  have bv : Built v := (dsa.1 ⟨v, .const 0⟩ (by simp)).1
  obtain ⟨e2, h6, h7⟩ := call2_lazy_inv la (by rw [h5]; exact within_stored poly_stored pra) hs'
  rw [h5, show (lazyObject M.floats a).expr = a from rfl, hsa] at h6
  cases h6
  have gv : GE False k (baseId [M] + 1) (baseId [M] + (storedInputs [M]).length) v :=
    ⟨poly_evaluable bv pv, bv, (fun h => by simp [hc] at h), fun τ => poly_noInt _ pv, fun h => h.elim⟩
  obtain ⟨args, rfl⟩ := ha
  simp only [sqrtScalar, Option.bind_eq_bind, Option.bind_eq_some_iff] at hsq
  obtain ⟨hf, hhf, hsq⟩ := hsq
  obtain rfl := half_eq hhf
  obtain ⟨y, hy, eq⟩ := powScalar_lazy h7 (Y := lazyObject s.floats [⟨half, .const 0⟩]) rfl
    (poly_stored _ pv) rfl hsq
  obtain rfl := simp_eq hy (pow_opaque (n := 0) (ne_const hc) rfl rfl (by decide) (by decide))
  have hdir : Direct (.fn .add args) := ⟨by simp, by simp⟩
  have gw := ge_power gv hc hdir exponent_half
  have dw : V (contextEnv outer (baseId [M]) (storedInputs [M])) (powerOf (.fn .add args) half)
      (rnormSqr (signedProd P Q R) A ^ (1 / 2 : ℝ)) :=
    V.power ⟨bv, dv⟩ v_half hdir (powDefined_root h0)
  rw [← Real.sqrt_eq_rpow] at dw
  rw [eq] at ho
  refine (context_ge (R := False) (τ := τ) (k := k) (Ms := [M]) ?_ (single_denotes dw.1 dw.2)).1 o ho
  exact ⟨canonical_single ⟨0, rfl, by simp [vecs]⟩, by simpa using gw⟩

/-- If the squared norm of the lazy argument has a type of the right form then it is `normCoef`. -/
theorem normCoef_of (hN : P + Q + R ≤ 63) {M rv s : Object} {A : MV ℝ} (hM : Represents outer (P + Q + R) M A)
    {as : List CSum} {a : CSum} (h1 : arguments (baseId [M]) [M] = some as) (ha : as = [a]) {c : Expr}
    (h2 : reverseObject k τ outer (lazyObject M.floats a) = some rv)
    (h3 : gradedObject P Q R k .sp τ outer (lazyObject M.floats a) rv = some s) (h4 : scalarCoef s.expr = some c) :
    normCoef P Q R k M = some c := by
  subst ha
  obtain ⟨as, h1', h2', h3', -⟩ := arguments_ok (outer := outer) (Ms := [M]) (As := [A]) hN (.cons hM .nil)
  rw [h1] at h1'
  obtain rfl := Option.some.inj h1'
  have w1 := h2' a (by simp)
  have la : hasStoredC (lazyObject M.floats a).expr = false := leaf_stored w1
  obtain ⟨e1, h5, h6⟩ := call1_lazy_inv la h2
  rw [show (lazyObject M.floats a).expr = a from rfl] at h5
  have pra := (good_reverse (k := k) hN).within _ (poly_const ·) poly_closed a e1
    (within_mono (fun _ => leaf_poly) w1) h5
  obtain ⟨e2, h7, h8⟩ := call2_lazy_inv la (by rw [h6]; exact within_stored poly_stored pra) h3
  rw [h6, show (lazyObject M.floats a).expr = a from rfl] at h7
  simp only [normCoef, h1, Option.bind_eq_bind, Option.bind_some, h5, h7]
  rw [← h8, h4]

theorem normCoef_unit (hN : P + Q + R ≤ 63) {M o : Object} {A : MV ℝ} (hM : Represents outer (P + Q + R) M A)
    (hs : scalarCoef M.expr = none) (h : unitObject P Q R k τ outer M = some o) :
    ∃ v, normCoef P Q R k M = some v := by
  simp only [unitObject, Option.bind_eq_bind, Option.bind_eq_some_iff, hs, Option.isSome_none, Bool.false_eq_true,
    if_false] at h
  obtain ⟨as, h1, h⟩ := h
  split at h
  · simp only [Option.bind_eq_some_iff] at h
    obtain ⟨rv, hrv, s, hs', ab, hab, -⟩ := h
    unfold absScalar at hab
    obtain ⟨as, h1', h2', h3', -⟩ := arguments_ok (outer := outer) (Ms := [M]) (As := [A]) hN (.cons hM .nil)
    have hst : hasStoredC s.expr = false := by
      rw [h1] at h1'
      obtain rfl := Option.some.inj h1'
      have w1 := h2' _ (List.mem_singleton_self _)
      have la : hasStoredC (lazyObject M.floats _).expr = false := leaf_stored w1
      obtain ⟨e1, h5, h6⟩ := call1_lazy_inv la hrv
      have pra := (good_reverse (k := k) hN).within _ (poly_const ·) poly_closed _ e1
        (within_mono (fun _ => leaf_poly) w1) h5
      obtain ⟨e2, h7, h8⟩ := call2_lazy_inv la (by rw [h6]; exact within_stored poly_stored pra) hs'
      rw [h8]
      rw [h6] at h7
      exact within_stored poly_stored (within_mul (poly_const ·) poly_closed
        (orthMapping_const hN (mkSignedFactor_const P Q R) .sp) k _ _ e2
        (within_mono (fun _ => leaf_poly) w1) pra h7)
    obtain ⟨e, he, -⟩ := call1_lazy_inv hst hab
    simp only [Option.bind_eq_bind, Option.bind_eq_some_iff] at he
    obtain ⟨c, hc, -⟩ := he
    exact ⟨c, normCoef_of hN hM h1 rfl hrv hs' hc⟩
  · simp at h

theorem normCoef_norm (hN : P + Q + R ≤ 63) {M o : Object} {A : MV ℝ} (hM : Represents outer (P + Q + R) M A)
    (h : normObject P Q R k τ outer M = some o) : ∃ v, normCoef P Q R k M = some v := by
  simp only [normObject, Option.bind_eq_bind, Option.bind_eq_some_iff] at h
  obtain ⟨as, h1, h⟩ := h
  split at h
  · simp only [Option.bind_eq_some_iff] at h
    obtain ⟨rv, hrv, s, hs', ab, hab, -⟩ := h
    simp only [sqrtScalar, powScalar, Option.bind_eq_bind, Option.bind_eq_some_iff] at hab
    obtain ⟨hf, hhf, hab⟩ := hab
    obtain rfl := half_eq hhf
    obtain ⟨as, h1', h2', h3', -⟩ := arguments_ok (outer := outer) (Ms := [M]) (As := [A]) hN (.cons hM .nil)
    have hst : hasStoredC s.expr = false := by
      rw [h1] at h1'
      obtain rfl := Option.some.inj h1'
      have w1 := h2' _ (List.mem_singleton_self _)
      have la : hasStoredC (lazyObject M.floats _).expr = false := leaf_stored w1
      obtain ⟨e1, h5, h6⟩ := call1_lazy_inv la hrv
      have pra := (good_reverse (k := k) hN).within _ (poly_const ·) poly_closed _ e1
        (within_mono (fun _ => leaf_poly) w1) h5
      obtain ⟨e2, h7, h8⟩ := call2_lazy_inv la (by rw [h6]; exact within_stored poly_stored pra) hs'
      rw [h8]
      rw [h6] at h7
      exact within_stored poly_stored (within_mul (poly_const ·) poly_closed
        (orthMapping_const hN (mkSignedFactor_const P Q R) .sp) k _ _ e2
        (within_mono (fun _ => leaf_poly) w1) pra h7)
    obtain ⟨e, he, -⟩ := call2_lazy_inv hst (Y := lazyObject s.floats [⟨half, .const 0⟩]) rfl hab
    simp only [Option.bind_eq_some_iff] at he
    obtain ⟨c, hc, -⟩ := he
    exact ⟨c, normCoef_of hN hM h1 rfl hrv hs' hc⟩
  · simp at h

/-! ### `unit` as a function of types -/

/-- A sum of components without stored entries. -/
def lazyOnly (s : CSum) : Option CSum := if hasStoredC s = false then some s else none

theorem lazyOnly_some {s t : CSum} : lazyOnly s = some t ↔ s = t ∧ hasStoredC t = false := by
  unfold lazyOnly
  split_ifs with h
  · simp only [Option.some.injEq]
    exact ⟨fun e => ⟨e, e ▸ h⟩, fun e => e.1⟩
  · simp only [reduceCtorEq, false_iff, not_and]
    rintro rfl; exact h

/-- `reverse`. -/
def reverseExpr (k : Nat) (a : CSum) : Option CSum := do lazyOnly (← gradedMinusC k 0xcccccccccccccccc a)
/-- `pow`. -/
def powExpr (k : Nat) (a e : CSum) : Option CSum := do
  lazyOnly [⟨← simp k .pow (← scalarCoef a) (← scalarCoef e), .const 0⟩]
/-- `abs`. -/
def absExpr (k : Nat) (a : CSum) : Option CSum := do
  lazyOnly [⟨← mkAbsolute (simp k) (← scalarCoef a), .const 0⟩]
/-- `sp(a, reverse(a))`. -/
def normExpr (P Q R k : Nat) (a : CSum) : Option CSum := do
  lazyOnly (← mulC (orthMapping (P + Q + R) (mkSignedFactor P Q R) .sp) k a (← reverseExpr k a))
/-- `sqrt`. -/
def sqrtExpr (k : Nat) (a : CSum) : Option CSum := do
  powExpr k a (← lazyOnly [⟨← simp k .pow (.const 2) (.const (-1)), .const 0⟩])
/-- `inv`. -/
def inverseExpr (P Q R k : Nat) (a : CSum) : Option CSum := do
  let i ← powExpr k (← normExpr P Q R k a) (constSum (-1))
  lazyOnly (← mulC (orthMapping 63 mkRealFactor .gp) k (← reverseExpr k a) i)
/-- `unit`. -/
def unitExpr (P Q R k : Nat) (a : CSum) : Option CSum := do
  let i ← inverseExpr P Q R k (← sqrtExpr k (← absExpr k (← normExpr P Q R k a)))
  mulC (orthMapping (P + Q + R) (mkSignedFactor P Q R) .gp) k a i

theorem call1_lazy {f : CSum → Option CSum} {X : Object} (hX : hasStoredC X.expr = false) {e : CSum}
    (he : f X.expr = some e) : ∃ fl, call1 k τ outer f X = some ⟨fl, e, [], []⟩ := by
  have hs : ∀ M ∈ [X], hasStoredC M.expr = false := by simp [hX]
  simp only [call1, arguments_lazy [X] hs, List.map_cons, List.map_nil, Option.bind_eq_bind,
    Option.bind_some, he, contextObject, contextEval_lazy hs]
  exact ⟨_, rfl⟩

section
variable {X : Object} (hX : hasStoredC X.expr = false)
include hX

theorem reverse_pure {e : CSum} (h : reverseExpr k X.expr = some e) :
    (∃ fl, reverseObject k τ outer X = some ⟨fl, e, [], []⟩) ∧ hasStoredC e = false := by
  simp only [reverseExpr, Option.bind_eq_bind, Option.bind_eq_some_iff, lazyOnly_some] at h
  obtain ⟨s, hs, rfl, he⟩ := h
  exact ⟨call1_lazy hX hs, he⟩

theorem abs_pure {e : CSum} (h : absExpr k X.expr = some e) :
    (∃ fl, absScalar k τ outer X = some ⟨fl, e, [], []⟩) ∧ hasStoredC e = false := by
  simp only [absExpr, Option.bind_eq_bind, Option.bind_eq_some_iff, lazyOnly_some] at h
  obtain ⟨c, hc, u, hu, rfl, he⟩ := h
  exact ⟨call1_lazy hX (by simp [hc, hu]), he⟩

theorem pow_pure {Y : Object} (hY : hasStoredC Y.expr = false) {e : CSum} (h : powExpr k X.expr Y.expr = some e) :
    (∃ fl, powScalar k τ outer X Y = some ⟨fl, e, [], []⟩) ∧ hasStoredC e = false := by
  simp only [powExpr, Option.bind_eq_bind, Option.bind_eq_some_iff, lazyOnly_some] at h
  obtain ⟨c, hc, d, hd, u, hu, rfl, he⟩ := h
  exact ⟨call2_lazy hX hY (by simp [hc, hd, hu]), he⟩

theorem sqrt_pure {e : CSum} (h : sqrtExpr k X.expr = some e) :
    (∃ fl, sqrtScalar k τ outer X = some ⟨fl, e, [], []⟩) ∧ hasStoredC e = false := by
  simp only [sqrtExpr, Option.bind_eq_bind, Option.bind_eq_some_iff, lazyOnly_some] at h
  obtain ⟨c, hc, d, ⟨rfl, hd⟩, h⟩ := h
  simp only [sqrtScalar, hc, Option.bind_eq_bind, Option.bind_some]
  exact pow_pure hX (Y := lazyObject _ _) hd h

theorem norm_pure {e : CSum} (h : normExpr P Q R k X.expr = some e) :
    (∃ r fl, reverseObject k τ outer X = some r ∧
      gradedObject P Q R k .sp τ outer X r = some ⟨fl, e, [], []⟩) ∧ hasStoredC e = false := by
  simp only [normExpr, Option.bind_eq_bind, Option.bind_eq_some_iff, lazyOnly_some] at h
  obtain ⟨r, hr, u, hu, rfl, he⟩ := h
  obtain ⟨⟨fl, hf⟩, hs⟩ := reverse_pure (τ := τ) (outer := outer) hX hr
  obtain ⟨fl', hf'⟩ := call2_lazy (k := k) (τ := τ) (outer := outer) hX (Y := ⟨fl, r, [], []⟩) hs hu
  exact ⟨⟨_, fl', hf, hf'⟩, he⟩

theorem inverse_pure {e : CSum} (h : inverseExpr P Q R k X.expr = some e) :
    (∃ fl, inverse P Q R k τ outer X = some ⟨fl, e, [], []⟩) ∧ hasStoredC e = false := by
  simp only [inverseExpr, Option.bind_eq_bind, Option.bind_eq_some_iff, lazyOnly_some] at h
  obtain ⟨s, hs, i, hi, r, hr, u, hu, rfl, he⟩ := h
  refine ⟨?_, he⟩
  have hl : ∀ Y ∈ [X], hasStoredC Y.expr = false := by simpa using hX
  have hX' : hasStoredC (lazyObject X.floats X.expr).expr = false := hX
  obtain ⟨⟨rv, fl1, e1, e2⟩, hs'⟩ := norm_pure (P := P) (Q := Q) (R := R) (τ := τ) (outer := outer)
    (X := lazyObject X.floats X.expr) hX' hs
  obtain ⟨⟨fl2, e3⟩, hi'⟩ := pow_pure (τ := τ) (outer := outer) (X := ⟨fl1, s, [], []⟩) hs' (Y := constObject (-1))
    rfl hi
  obtain ⟨⟨fl3, e4⟩, hr'⟩ := reverse_pure (τ := τ) (outer := outer) (X := lazyObject X.floats X.expr) hX' hr
  obtain ⟨fl4, e5⟩ := call2_lazy (k := k) (τ := τ) (outer := outer) (X := ⟨fl3, r, [], []⟩) (Y := ⟨fl2, i, [], []⟩)
    hr' hi' hu
  have en : ∃ fl, normSqrObject P Q R k τ outer (lazyObject X.floats X.expr) = some ⟨fl, s, [], []⟩ := by
    have hl' : ∀ Y ∈ [lazyObject X.floats X.expr], hasStoredC Y.expr = false := by simpa using hX'
    unfold normSqrObject Program.runLazy
    rw [arguments_lazy _ hl']
    simp only [List.map_cons, List.map_nil, Option.bind_eq_bind, Option.bind_some, List.zipWith_cons_cons,
      List.zipWith_nil_right, Program.run, List.getElem?_cons_zero]
    have e1' : call1 k τ outer (gradedMinusC k 0xcccccccccccccccc)
      (lazyObject (lazyObject X.floats X.expr).floats (lazyObject X.floats X.expr).expr) = some rv := e1
    have e2' : call2 k τ outer (mulC (orthMapping (P + Q + R) (mkSignedFactor P Q R) .sp) k)
      (lazyObject (lazyObject X.floats X.expr).floats (lazyObject X.floats X.expr).expr) rv
        = some ⟨fl1, s, [], []⟩ := e2
    rw [e1', Option.bind_some, e2', Option.bind_some]
    simp only [contextObject, contextEval_lazy hl', Option.bind_eq_bind, Option.bind_some]
    exact ⟨_, rfl⟩
  obtain ⟨fl5, en⟩ := en
  obtain ⟨⟨fl6, e6⟩, -⟩ := pow_pure (τ := τ) (outer := outer) (X := ⟨fl5, s, [], []⟩) hs' (Y := constObject (-1))
    rfl hi
  obtain ⟨fl7, e7⟩ := call2_lazy (k := k) (τ := τ) (outer := outer) (X := ⟨fl3, r, [], []⟩) (Y := ⟨fl6, i, [], []⟩)
    hr' hi' hu
  unfold inverse
  rw [arguments_lazy _ hl]
  simp only [List.map_cons, List.map_nil, Option.bind_eq_bind, Option.bind_some, en, e6, e4, e7, contextObject,
    contextEval_lazy hl]
  exact ⟨_, rfl⟩

end

/-- `unit` of a multivector with stored coefficients evaluates the type that `unitExpr` computes. -/
theorem unit_pure {M : Object} {a e : CSum} (hs : scalarCoef M.expr = none)
    (ha : arguments (baseId [M]) [M] = some [a]) (hl : hasStoredC a = false) (he : unitExpr P Q R k a = some e) :
    unitObject P Q R k τ outer M = contextObject k τ outer [M] e := by
  simp only [unitExpr, Option.bind_eq_bind, Option.bind_eq_some_iff] at he
  obtain ⟨s, h1, b, h2, q, h3, i, h4, h5⟩ := he
  have hX : hasStoredC (lazyObject M.floats a).expr = false := hl
  obtain ⟨⟨rv, f1, e1, e2⟩, s1⟩ := norm_pure (τ := τ) (outer := outer) hX h1
  obtain ⟨⟨f2, e3⟩, s2⟩ := abs_pure (τ := τ) (outer := outer) (X := ⟨f1, s, [], []⟩) s1 h2
  obtain ⟨⟨f3, e4⟩, s3⟩ := sqrt_pure (τ := τ) (outer := outer) (X := ⟨f2, b, [], []⟩) s2 h3
  obtain ⟨⟨f4, e5⟩, s4⟩ := inverse_pure (τ := τ) (outer := outer) (X := ⟨f3, q, [], []⟩) s3 h4
  obtain ⟨f5, e6⟩ := call2_lazy (k := k) (τ := τ) (outer := outer) hX (Y := ⟨f4, i, [], []⟩) s4 h5
  have e6' : gradedObject P Q R k .gp τ outer (lazyObject M.floats a) ⟨f4, i, [], []⟩ = some ⟨f5, e, [], []⟩ := e6
  simp only [unitObject, ha, Option.bind_eq_bind, Option.bind_some, hs, Option.isSome_none, Bool.false_eq_true,
    if_false, e1, e2, e3, e4, e5, e6']

/-- `rnorm` of a multivector with stored coefficients, likewise. -/
theorem rnorm_pure {M : Object} {a e s : CSum} (ha : arguments (baseId [M]) [M] = some [a])
    (hl : hasStoredC a = false) (hs : normExpr P Q R k a = some s) (he : sqrtExpr k s = some e) :
    normObject P Q R k τ outer M = contextObject k τ outer [M] e := by
  have hX : hasStoredC (lazyObject M.floats a).expr = false := hl
  obtain ⟨⟨rv, f1, e1, e2⟩, s1⟩ := norm_pure (τ := τ) (outer := outer) hX hs
  obtain ⟨⟨f3, e4⟩, -⟩ := sqrt_pure (τ := τ) (outer := outer) (X := ⟨f1, s, [], []⟩) s1 he
  simp only [normObject, ha, Option.bind_eq_bind, Option.bind_some, e1, e2, e4]

end GATL
