import Verif.Proofs.UnitTotal

/-!
# The delta product compiles
-/

namespace GATL.Total

open Expr Spec

variable {τ : Types} {ρ : Env} {P Q R : Nat}

theorem item_nonNegative (x : Item) : ∃ b, isNonNegative x.expr = some b := by
  rcases x with c | ⟨x, k⟩
  · exact ⟨_, rfl⟩
  · have hx : isNonNegative x.expr = some false := by cases x <;> rfl
    simp only [Item.expr]
    split_ifs
    · exact ⟨_, hx⟩
    · exact ⟨_, by rw [isNonNegative, hx, isEven]⟩

theorem items_nonNegative : ∀ X : List Item, ∃ b, isNonNegativeAll (X.map Item.expr) = some b
  | [] => ⟨true, rfl⟩
  | x :: X => by
    obtain ⟨a, ha⟩ := item_nonNegative x
    obtain ⟨b, hb⟩ := items_nonNegative X
    exact ⟨a && b, by rw [List.map_cons, isNonNegativeAll, ha, hb]⟩

theorem prod_nonNegative : ∀ X : List Item, ∃ b, isNonNegative (prodL X) = some b
  | [] => ⟨_, rfl⟩
  | [x] => item_nonNegative x
  | x :: y :: X => by
    obtain ⟨b, hb⟩ := items_nonNegative (x :: y :: X)
    exact ⟨b, hb⟩

/-- The sign test is defined for polynomials. -/
theorem poly_nonNegative {D w : Nat} {e : Expr} (h : PW D e w) : ∃ b, isNonNegative e = some b := by
  obtain ⟨X, rfl, -, -⟩ := h
  rcases X with _ | ⟨m, _ | ⟨m', X⟩⟩
  · exact ⟨_, rfl⟩
  · exact prod_nonNegative m.items
  · exact ⟨_, rfl⟩

/-- Absolute values of polynomials compile. -/
theorem poly_abs {D w : Nat} {e : Expr} (h : PW D e w) (hD : D < B) (hw : w < B) :
    ∃ k0, ∀ k, k0 ≤ k → ∃ a, mkAbsolute (simp k) e = some a := by
  obtain ⟨b, hb⟩ := poly_nonNegative h
  obtain ⟨z, k0, hz⟩ : ∃ z, Ev (fun k => simp k .mul (.const (-1)) e) z := by
    obtain ⟨z, hz, -⟩ := PW.mul (D := 0) (by omega) (PW.const 0 (-1)) h (by simp; omega)
    exact ⟨z, hz⟩
  refine ⟨k0, fun k hk => ?_⟩
  have : simp k .mul (.const (-1)) e = some z := hz k hk
  simp only [mkAbsolute, hb, this, Option.bind_eq_bind, Option.bind_some]
  split_ifs <;> exact ⟨_, rfl⟩

/-- From some depth on, for all of finitely many things. -/
theorem eventually_all {α : Type} {p : Nat → α → Prop} : ∀ l : List α, (∀ x ∈ l, ∃ k0, ∀ k, k0 ≤ k → p k x) →
    ∃ k0, ∀ k, k0 ≤ k → ∀ x ∈ l, p k x
  | [], _ => ⟨0, fun _ _ _ hx => by simp at hx⟩
  | x :: l, h => by
    obtain ⟨a, ha⟩ := h x (by simp)
    obtain ⟨b, hb⟩ := eventually_all l fun y hy => h y (by simp [hy])
    refine ⟨max a b, fun k hk y hy => ?_⟩
    rcases List.mem_cons.1 hy with rfl | hy
    · exact ha k (by omega)
    · exact hb k (by omega) y hy

/-- `dp` compiles. -/
theorem dp_total (hN : P + Q + R ≤ 62) {M M' T : Object} {A A' : MV ℝ} {tol : ℝ}
    (hM : Represents ρ (P + Q + R) M A) (hM' : Represents ρ (P + Q + R) M' A')
    (hT : ScalarValue ρ (P + Q + R) T tol) (hB : weightC M.expr * weightC M'.expr < B) :
    ∃ k0, ∀ k, k0 ≤ k → ∃ o, deltaProduct P Q R k τ ρ M M' T = some o := by
  obtain ⟨a, b, t, h1, w1, w2, w3, d1, d2, d3⟩ := args3 (by omega) hM hM' hT
  obtain ⟨as, h1', has⟩ := arguments_total (baseId [M, M', T]) [M, M', T]
    [weightC M.expr, weightC M'.expr, weightC T.expr]
    (fun X hX => by
      simp only [List.mem_cons, List.not_mem_nil, or_false] at hX
      rcases hX with rfl | rfl | rfl
      · exact hM.1
      · exact hM'.1
      · exact hT.2.1)
    (.cons (plainWs_weight hM.1.2) (.cons (plainWs_weight hM'.1.2) (.cons (plainWs_weight hT.2.1.2) .nil)))
  rw [h1] at h1'
  obtain rfl := Option.some.inj h1'
  obtain ⟨wa, has⟩ := List.forall₂_cons.1 has
  obtain ⟨wb, -⟩ := List.forall₂_cons.1 has
  obtain ⟨e, ee, ce, we⟩ := tot_mul (signed_sign hN .gp) 1 1 _ _ a b w1.1 w2.1 (in_of w1.1 d1) (in_of w2.1 d2) wa wb
    (by norm_num [B]) hB
  have hpoly := ee.fact (p := fun e => Within (Poly (baseId [M, M', T] + 1)
      (baseId [M, M', T] + (storedInputs [M, M', T]).length)) e)
    fun k y h => (good_graded (k := k) hN .gp).within _ (poly_const · ) poly_closed a b y
      (within_mono (fun _ => leaf_poly) w1) (within_mono (fun _ => leaf_poly) w2) h
  have hden := ee.fact (p := fun e => SumDenotes (contextEnv ρ (baseId [M, M', T]) (storedInputs [M, M', T])) (P + Q + R) e
      (signedProd P Q R .gp A A'))
    fun k y h => (graded_denotes (k := k) hN .gp) _ a b y A A' d1 d2 h
  have hstrict := ee.fact (p := fun e => Within _ e)
    fun k y h => (good_graded (k := k) hN .gp).within _ .const strict_closed a b y
      (within_mono (fun _ => leaf_strict) w1) (within_mono (fun _ => leaf_strict) w2) h
  have hlit : ∀ c ∈ e, Lit c.coef := fun c hc => strict_lit (fun _ => var_opaque) (hstrict.2 c hc)
  obtain ⟨k1, hk1⟩ := eventually_all (p := fun k (c : Comp) => ∃ d, compile k (baseId [M, M', T] + 1)
      (baseId [M, M', T] + (storedInputs [M, M', T]).length) c.coef = some d) e fun c hc => by
    obtain ⟨d, ⟨k0, hk⟩, -⟩ := compile_total (we.mem c hc) hB (hpoly.2 c hc)
    exact ⟨k0, fun k h => ⟨d, hk k h⟩⟩
  obtain ⟨k2, hk2⟩ := eventually_all (p := fun k (c : Comp) => ∃ z, mkAbsolute (simp k) c.coef = some z) e fun c hc =>
    poly_abs (we.mem c hc) (by norm_num [B]) hB
  obtain ⟨k3, hk3⟩ := ee
  refine ⟨max (max k1 k2) (max k3 2), fun k hk => ?_⟩
  have hge : ∀ c ∈ e, GE True k (baseId [M, M', T] + 1)
      (baseId [M, M', T] + (storedInputs [M, M', T]).length) c.coef := fun c hc =>
    ⟨poly_evaluable (hden.1 c hc).1 (hpoly.2 c hc), (hden.1 c hc).1, hlit c hc,
      fun τ => poly_noInt _ (hpoly.2 c hc), fun _ => hk1 k (by omega) c hc⟩
  have gt := (leaf_ge (R := True) (n := k) w3).1
  have hgr : Gradable e := gradable (fun c hc => ⟨hlit c hc, poly_traitSafe _ (hpoly.2 c hc)⟩) hden
  obtain ⟨hne, hkn, hpw, -⟩ := canonical_iff.1 hpoly.1
  obtain ⟨g1, g2⟩ := deduceLargest_ge gt (by omega) e hne (fun c hc => known_grade (hkn c hc)) hge
  obtain ⟨g, hg⟩ := g2 (hk2 k (by omega))
  obtain ⟨W, hV, hwV, hsum⟩ := id hden.2
  obtain ⟨l1, l2⟩ := deduceLargest_ok gt.lit d3 e W g hgr hV hg
  obtain ⟨q, hq, hw, -, -, hd⟩ := keepGrade_ok (by omega) (n := k) (by omega) (g1 g hg) l2 e _ hne hkn hpw hge hden
  obtain ⟨o, ho⟩ := (context_ge (τ := τ) (k := k) (Ms := [M, M', T]) hw hd).2 trivial (by omega)
  have se : hasStoredC e = false := within_stored poly_stored hpoly
  have st : hasStoredC [(⟨t, .const 0⟩ : Comp)] = false := by
    simp [hasStoredC, (evaluable_context gt.ev).2.1, Blade.hasStored]
  have sg : hasStoredC [(⟨g, .const 0⟩ : Comp)] = false := by
    simp [hasStoredC, (evaluable_context (g1 g hg).ev).2.1, Blade.hasStored]
  obtain ⟨f1, e1⟩ := call2_lazy (k := k) (τ := τ) (outer := ρ)
    (f := mulC (orthMapping (P + Q + R) (mkSignedFactor P Q R) .gp) k) (X := lazyObject M.floats a)
    (Y := lazyObject M'.floats b) (leaf_stored w1) (leaf_stored w2) (hk3 k (by omega))
  obtain ⟨f2, e2⟩ := call2_lazy (k := k) (τ := τ) (outer := ρ)
    (f := fun a t => do some [⟨← deduceLargestGrade k (← scalarCoef t) a, .const 0⟩]) (X := lazyObject f1 e)
    (Y := lazyObject T.floats [⟨t, .const 0⟩]) se st (e := [⟨g, .const 0⟩]) (by
      simp only [lazyObject, scalarCoef_single, Option.bind_eq_bind, Option.bind_some, hg])
  obtain ⟨f3, e3⟩ := call2_lazy (k := k) (τ := τ) (outer := ρ)
    (f := fun a g => do keepGrade k (← scalarCoef g) a) (X := lazyObject f1 e) (Y := ⟨f2, [⟨g, .const 0⟩], [], []⟩) se sg
    (e := q) (by simp only [lazyObject, scalarCoef_single, Option.bind_eq_bind, Option.bind_some, hq])
  have e2' : largestGrade k τ ρ (lazyObject f1 e) (lazyObject T.floats [⟨t, .const 0⟩]) = _ := e2
  have e3' : takeGrade k τ ρ (lazyObject f1 e) ⟨f2, [⟨g, .const 0⟩], [], []⟩ = _ := e3
  have hs2 : ∀ X ∈ [(⟨f1, e, [], []⟩ : Object), lazyObject T.floats [⟨t, .const 0⟩]], hasStoredC X.expr = false := by
    simp only [List.mem_cons, List.not_mem_nil, or_false]
    rintro X (rfl | rfl) <;> assumption
  obtain ⟨m, hm, hmq⟩ : ∃ m, contextObject k τ ρ [⟨f1, e, [], []⟩, lazyObject T.floats [⟨t, .const 0⟩]] q = some m ∧
      m.expr = q :=
    ⟨_, by simp only [contextObject, contextEval_lazy hs2, Option.bind_eq_bind, Option.bind_some]; rfl, rfl⟩
  have e4 : takeLargestGrade k τ ρ ⟨f1, e, [], []⟩ (lazyObject T.floats [⟨t, .const 0⟩]) = some m := by
    simp only [takeLargestGrade, arguments_lazy _ hs2, List.map_cons, List.map_nil, Option.bind_eq_bind, Option.bind_some,
      show (lazyObject T.floats [⟨t, .const 0⟩]).expr = [⟨t, .const 0⟩] from rfl,
      show (lazyObject T.floats [⟨t, .const 0⟩]).floats = T.floats from rfl, e2', e3', hm]
  refine ⟨o, ?_⟩
  simp only [deltaProduct, h1, Option.bind_eq_bind, Option.bind_some, e1, e4, hmq, ho]

end GATL.Total
