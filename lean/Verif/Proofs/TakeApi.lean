import Verif.Proofs.Strict
import Verif.Proofs.TakeCall

/-!
# Grades: the functions of the library, helper lemmas
-/

namespace GATL

open Expr Spec

variable {ρ outer : Env} {τ : Types} {N n k L U : Nat} {R : Prop}

/-! ## Sums with distinct blades -/

theorem sum_apply_of_nodup {V : List (ℝ × TBlade)} (h : (V.map fun p => p.2.bits).Nodup) :
    (∀ p ∈ V, (V.map fun a => (Finsupp.single a.2.bits a.1 : MV ℝ)).sum p.2.bits = p.1) ∧
      ∀ b, (∀ p ∈ V, p.2.bits ≠ b) → (V.map fun a => (Finsupp.single a.2.bits a.1 : MV ℝ)).sum b = 0 := by
  induction V with
  | nil => simp
  | cons q V ih =>
    simp only [List.map_cons, List.nodup_cons, List.mem_map, not_exists, not_and] at h
    obtain ⟨i1, i2⟩ := ih h.2
    constructor
    · intro p hp
      simp only [List.map_cons, List.sum_cons, Finsupp.add_apply]
      rcases List.mem_cons.1 hp with rfl | hp
      · rw [i2 _ h.1]; simp
      · rw [i1 p hp, Finsupp.single_eq_of_ne (h.1 p hp)]; simp
    · intro b hb
      simp only [List.map_cons, List.sum_cons, Finsupp.add_apply]
      rw [i2 b fun p hp => hb p (by simp [hp]), Finsupp.single_eq_of_ne (hb q (by simp)).symm]; simp

theorem forall2_blades {s : CSum} {V : List (ℝ × TBlade)} (hV : List.Forall₂ (CompDenotes ρ) s V)
    (hk : ∀ c ∈ s, Known c) (hp : s.Pairwise BeforeC) : (V.map fun p => p.2.bits).Nodup := by
  have key : ∀ {s : CSum} {V : List (ℝ × TBlade)}, List.Forall₂ (CompDenotes ρ) s V → (∀ c ∈ s, Known c) →
      ∀ p ∈ V, ∃ c ∈ s, c.blade = .const p.2.bits := by
    intro s V hV hk
    induction hV with
    | nil => simp
    | @cons c q s V h hs ih =>
      intro p hp
      rcases List.mem_cons.1 hp with rfl | hp
      · obtain ⟨b, eb, -⟩ := hk c (by simp)
        have := h.2
        rw [eb] at this
        have : p.2 = .const b := this
        exact ⟨c, by simp, by rw [eb, this]; rfl⟩
      · obtain ⟨c', h1, h2⟩ := ih (fun x hx => hk x (by simp [hx])) p hp
        exact ⟨c', by simp [h1], h2⟩
  induction hV with
  | nil => simp
  | @cons c q s V h hs ih =>
    obtain ⟨hp1, hp2⟩ := List.pairwise_cons.1 hp
    simp only [List.map_cons, List.nodup_cons, List.mem_map, not_exists, not_and]
    refine ⟨fun p hpV e => ?_, ih (fun x hx => hk x (by simp [hx])) hp2⟩
    obtain ⟨c', h1, h2⟩ := key hs (fun x hx => hk x (by simp [hx])) p hpV
    obtain ⟨c'', h3, h4⟩ := key (.cons h .nil) (fun x hx => hk x (by simp at hx; simp [hx])) q (by simp)
    rw [List.mem_singleton] at h3
    subst h3
    rw [e, ← h4] at h2
    exact beforeC_ne (hk c'' (by simp)) (hp1 c' h1) h2.symm

theorem above_iff {s : CSum} {V : List (ℝ × TBlade)} {tol : ℝ} (h0 : 0 ≤ tol)
    (hV : List.Forall₂ (CompDenotes ρ) s V) (hc : Canonical s) (b : Word) :
    Above tol (V.map fun a => (Finsupp.single a.2.bits a.1 : MV ℝ)).sum b ↔ AboveIn tol V b := by
  obtain ⟨-, hk, hp, -⟩ := canonical_iff.1 hc
  obtain ⟨h1, h2⟩ := sum_apply_of_nodup (forall2_blades hV hk hp)
  unfold Above AboveIn
  constructor
  · intro h
    by_contra hno
    by_cases he : ∃ p ∈ V, p.2.bits = b
    · obtain ⟨p, hp, rfl⟩ := he
      rw [h1 p hp] at h
      exact hno ⟨p, hp, rfl, h⟩
    · rw [h2 b fun p hp e => he ⟨p, hp, e⟩, abs_zero] at h
      linarith
  · rintro ⟨p, hp, rfl, h⟩
    rwa [h1 p hp]

/-! ## Arguments -/

theorem neg_small {v : Int} (h : -(2 ^ 63) < v ∧ v < 2 ^ 63) :
    ∃ e, simp (n + 2) .mul (.const (-1)) (.const v) = some e := by
  change ∃ e, applyRules (mulRules (simp (n + 1))) _ _ = some e
  unfold mulRules
  by_cases h0 : v = 0
  · subst h0; exact ⟨_, rfl⟩
  by_cases h1 : v = 1
  · subst h1; exact ⟨_, rfl⟩
  by_cases h2 : v = -1
  · subst h2; exact ⟨_, rfl⟩
  rw [applyRules_skip (by simp [mulZero, h0]), applyRules_skip (by simp [mulOne, h1]),
    applyRules_skip (by simp [mulDistribute, Expr.asAdd]),
    applyRules_skip (by simp [mulHelper, Expr.asMul, mulCollect1, Ne.symm h2]),
    applyRules_skip (by simp [mulHelper, Expr.asMul, mulCollect2, asPower]),
    applyRules_skip (by simp [mulHelper, Expr.asMul, mulCollect3, asPower])]
  refine ⟨.const (-1 * v), ?_⟩
  have : mkConst (-1 * v) = some (.const (-1 * v)) := by
    simp only [mkConst, i64]
    rw [if_pos (by omega)]; rfl
  simp only [applyRules, mulHelper, Expr.asMul, mulConst1, asConst, this, fire]
  rfl

theorem abs_value {t i : Nat} : ∃ e, mkAbsolute (simp (n + 2)) (.value t i) = some e := ⟨_, rfl⟩

theorem abs_const {v : Int} (h : -(2 ^ 63) < v ∧ v < 2 ^ 63) :
    ∃ e, mkAbsolute (simp (n + 2)) (.const v) = some e := by
  obtain ⟨e, he⟩ := neg_small (n := n) h
  unfold mkAbsolute
  simp only [isNonNegative, he, Option.bind_eq_bind, Option.bind_some]
  split
  · exact ⟨_, rfl⟩
  · split <;> exact ⟨_, rfl⟩

theorem leaf_ge {e : Expr} (h : Leaf L U e) : GE R n L U e ∧ TraitSafe e := by
  rcases h with ⟨v, rfl⟩ | ⟨t, i, hL, hU, rfl⟩
  · exact ⟨ge_const v, by simp [TraitSafe]⟩
  · exact ⟨ge_value hL hU, by simp [TraitSafe]⟩

theorem leaf_abs {s : CSum} (h : ∀ c ∈ s, Leaf L U c.coef) (hs : Negatable s) : AbsC (n + 2) s := by
  intro c hc
  rcases h c hc with ⟨v, e⟩ | ⟨t, i, -, -, e⟩
  · rw [e]; exact abs_const (hs c hc v e)
  · rw [e]; exact abs_value

theorem tagC_small {T : Nat} (s : CSum) : ∀ (v b : Nat) (a : CSum), Negatable s → (∀ c ∈ s, PlainCoef c.coef) →
    tagC T v b s = some a → Negatable a := by
  induction s with
  | nil =>
    intro v b a _ _ h
    simp only [tagC, Option.some.injEq] at h
    subst h
    intro c hc; simp at hc
  | cons c cs ih =>
    intro v b a hs hp h
    simp only [tagC, Option.bind_eq_bind, Option.bind_eq_some_iff, Option.some.injEq] at h
    obtain ⟨bl, h1, rest, h2, rfl⟩ := h
    intro d hd w hw
    rcases List.mem_cons.1 hd with rfl | hd
    · simp only [mkComp] at hw
      split at hw
      · cases hw; decide
      · rcases hp c (by simp) with e | ⟨u, e⟩
        · rw [e] at hw; cases hw
        · rw [e] at hw
          simp only [tag] at hw
          cases hw
          exact hs c (by simp) _ e
    · exact ih _ _ _ (fun c hc => hs c (by simp [hc])) (fun c hc => hp c (by simp [hc])) h2 d hd w hw

theorem tagC_total {T : Nat} (s : CSum) : ∀ (v b : Nat), (∀ c ∈ s, Known c) → ∃ a, tagC T v b s = some a := by
  induction s with
  | nil => intro v b _; exact ⟨_, rfl⟩
  | cons c cs ih =>
    intro v b hk
    obtain ⟨w, ew, -⟩ := hk c (by simp)
    obtain ⟨r, hr⟩ := ih (v + c.countValues) (b + c.countBits) fun x hx => hk x (by simp [hx])
    exact ⟨_, by simp [tagC, ew, Blade.tag, hr]; rfl⟩

theorem arguments_shape : ∀ (Ms : List Object) (base : Nat), (∀ M ∈ Ms, PlainC M.expr) →
    ∃ as, arguments base Ms = some as ∧ List.Forall₂ (fun (M : Object) (a : CSum) =>
      (Negatable M.expr → Negatable a) ∧ ((∃ c, M.expr = [⟨c, .const 0⟩]) → ∃ c, a = [⟨c, .const 0⟩])) Ms as
  | [], _, _ => ⟨[], rfl, .nil⟩
  | M :: Ms, base, hp => by
    have hM := hp M (by simp)
    unfold arguments
    by_cases hst : hasStoredC M.expr = true
    · obtain ⟨a, ha⟩ := tagC_total (T := base + 1) M.expr 0 0 (canonical_known hM.1)
      obtain ⟨as, h1, h2⟩ := arguments_shape Ms (base + 1) fun M' h => hp M' (by simp [h])
      rw [if_pos hst]
      refine ⟨a :: as, by simp [ha, h1], .cons ⟨fun h => tagC_small _ _ _ _ h hM.2 ha, ?_⟩ h2⟩
      rintro ⟨c, e⟩
      rw [e] at ha
      simp only [tagC, Blade.tag, Option.bind_eq_bind, Option.bind_some, Option.some.injEq] at ha
      refine ⟨(mkComp (c.tag (base + 1) 0 0) (.const 0)).coef, ?_⟩
      rw [← ha]
      simp [mkComp]
    · obtain ⟨as, h1, h2⟩ := arguments_shape Ms base fun M' h => hp M' (by simp [h])
      rw [if_neg hst]
      exact ⟨M.expr :: as, by simp [h1], .cons ⟨id, id⟩ h2⟩

/-- All that is needed about the arguments of a context. -/
theorem arguments_ok (hN : N ≤ 63) {Ms : List Object} {As : List (MV ℝ)}
    (h : List.Forall₂ (Represents outer N) Ms As) :
    ∃ as, arguments (baseId Ms) Ms = some as ∧
      (∀ a ∈ as, Within (Leaf (baseId Ms + 1) (baseId Ms + (storedInputs Ms).length)) a) ∧
      List.Forall₂ (SumDenotes (contextEnv outer (baseId Ms) (storedInputs Ms)) N) as As ∧
      List.Forall₂ (fun M a => (Negatable M.expr → Negatable a) ∧
        ((∃ c, M.expr = [⟨c, .const 0⟩]) → ∃ c, a = [⟨c, .const 0⟩])) Ms as := by
  have hp : ∀ M ∈ Ms, PlainC M.expr := by
    intro M hM
    clear hN
    induction h with
    | nil => simp at hM
    | cons h _ ih =>
      rcases List.mem_cons.1 hM with rfl | hM
      · exact h.1
      · exact ih hM
  have hr : List.Forall₂ (fun M A => Reads outer N M.expr M.values M.bitsets A) Ms As := h.imp fun _ _ h => h.2
  obtain ⟨as, h1, h2⟩ := arguments_shape Ms (baseId Ms) hp
  have hd := arguments_reads hN (base := baseId Ms) Ms [] as As h1 (le_baseId (Ms := Ms)) hr
  rw [List.nil_append] at hd
  refine ⟨as, h1, ?_, hd, h2⟩
  exact arguments_within (Q := Leaf _ _) (base := baseId Ms) (fun v => .inl ⟨v, rfl⟩) Ms [] as hp
    (fun t i ht hU => .inr ⟨t, i, ht, hU, rfl⟩) h1

/-! ## Calls -/

theorem scalar_shape {Ms : List Object} {g : Expr} {o : Object}
    (h : contextObject k τ outer Ms [⟨g, .const 0⟩] = some o) : ∃ c, o.expr = [⟨c, .const 0⟩] := by
  have := contextObject_eval h
  unfold contextEval at this
  simp only at this
  split at this
  · simp only [Option.some.injEq, Prod.mk.injEq] at this
    exact ⟨g, this.1.symm⟩
  · simp only [compileC, compileComp, compileBlade, Option.bind_eq_bind, Option.bind_eq_some_iff,
      Prod.exists, Option.some.injEq, Prod.mk.injEq] at this
    obtain ⟨s', code, ⟨c', p', ⟨x, p, h1, b, q, ⟨rfl, rfl⟩, rfl, rfl⟩, rfl, rfl⟩, -, -, -, e1, -, -⟩ := this
    exact ⟨(mkComp x (.const 0)).coef, by rw [← e1]; simp [mkComp]⟩

theorem single_denotes {e : Expr} {x : ℝ} (hb : Built e) (hx : Denotes ρ e x) :
    SumDenotes ρ N [⟨e, .const 0⟩] (Finsupp.single 0 x) :=
  SumDenotes.single_iff.2 ⟨⟨hb, fun G e h => by cases h⟩, (x, .const 0), ⟨hx, rfl⟩, by simp [WellTyped, vecs], rfl⟩

theorem single_denotes_inv {e : Expr} {x : ℝ} (h : SumDenotes ρ N [⟨e, .const 0⟩] (Finsupp.single 0 x)) :
    Denotes ρ e x := by
  obtain ⟨-, ⟨y, t⟩, ⟨h1, h2⟩, -, h3⟩ := SumDenotes.single_iff.1 h
  have h2' : t = .const 0 := h2
  subst h2'
  have := congrArg (fun A : MV ℝ => A 0) h3
  simp only [TBlade.bits, Finsupp.single_eq_same] at this
  rw [← this]
  exact h1

theorem gradable {s : CSum} {A : MV ℝ} (hw : ∀ c ∈ s, Lit c.coef ∧ TraitSafe c.coef) (hA : SumDenotes ρ N s A) :
    Gradable s := fun c hc => ⟨hA.1 c hc, hw c hc⟩

section Api

theorem scalarCoef_single (t : Expr) : scalarCoef [⟨t, .const 0⟩] = some t := rfl

variable {M T : Object} {A : MV ℝ} {tol : ℝ}

theorem args2 (hN : N ≤ 63) (hM : Represents outer N M A) (hT : ScalarValue outer N T tol) :
    ∃ a t, arguments (baseId [M, T]) [M, T] = some [a, [⟨t, .const 0⟩]] ∧
      Within (Leaf (baseId [M, T] + 1) (baseId [M, T] + (storedInputs [M, T]).length)) a ∧
      Leaf (baseId [M, T] + 1) (baseId [M, T] + (storedInputs [M, T]).length) t ∧
      SumDenotes (contextEnv outer (baseId [M, T]) (storedInputs [M, T])) N a A ∧
      Denotes (contextEnv outer (baseId [M, T]) (storedInputs [M, T])) t tol ∧
      (Negatable M.expr → Negatable a) := by
  obtain ⟨as, h1, h2, h3, h4⟩ := arguments_ok (outer := outer) (As := [A, Finsupp.single 0 tol]) hN
    (.cons hM (.cons hT.2 .nil))
  obtain ⟨a, as', ⟨n1, -⟩, h5, rfl⟩ := List.forall₂_cons_left_iff.1 h4
  obtain ⟨t, as'', ⟨-, n2⟩, h6, rfl⟩ := List.forall₂_cons_left_iff.1 h5
  obtain rfl := List.forall₂_nil_left_iff.1 h6
  obtain ⟨d1, h3⟩ := List.forall₂_cons.1 h3
  obtain ⟨d2, -⟩ := List.forall₂_cons.1 h3
  obtain ⟨t', rfl⟩ := n2 hT.1
  exact ⟨a, t', h1, h2 a (by simp), (h2 [⟨t', .const 0⟩] (by simp)).2 ⟨t', .const 0⟩ (by simp), d1,
    single_denotes_inv d2, n1⟩

theorem leaf_gradable {a : CSum} (w : Within (Leaf L U) a) (d : SumDenotes ρ N a A) : Gradable a :=
  gradable (fun c hc => ⟨(leaf_ge (R := True) (n := 0) (w.2 c hc)).1.lit,
    (leaf_ge (R := True) (n := 0) (w.2 c hc)).2⟩) d

theorem grade_call (hN : N ≤ 63) (hM : Represents outer N M A) (hT : ScalarValue outer N T tol) (h0 : 0 ≤ tol)
    (hs : Negatable M.expr) :
    ∃ o, ∃ g : ℤ, grade (k + 2) τ outer M T = some o ∧ ScalarValue outer N o g ∧ IsGrade (Above tol A) g := by
  obtain ⟨a, t, h1, w1, w2, d1, d2, n1⟩ := args2 hN hM hT
  have gt := (leaf_ge (R := True) (n := k + 2) w2).1
  obtain ⟨g1, g2⟩ := deduceGrade_ge gt (by omega) a w1.1.1 (fun c hc => known_grade (canonical_known w1.1 c hc))
    fun c hc => (leaf_ge (w1.2 c hc)).1
  obtain ⟨e, he⟩ := g2 (leaf_abs w1.2 (n1 hs))
  obtain ⟨V, hV, hwV, hsum⟩ := id d1.2
  obtain ⟨l1, l2⟩ := deduceGrade_ok gt.lit d2 a V e (leaf_gradable w1 d1) hV he
  have hcon := context_ge (τ := τ) (k := k + 2) (Ms := [M, T]) (e := [⟨e, .const 0⟩]) (R := True) (N := N)
    ⟨canonical_single ⟨0, rfl, by simp [vecs]⟩, by simpa using g1 e he⟩ (single_denotes (g1 e he).built l2)
  obtain ⟨o, ho⟩ := hcon.2 trivial (by omega)
  refine ⟨o, listGr tol V, ?_, ⟨scalar_shape ho, hcon.1 o ho⟩, ?_⟩
  · simp only [grade, call2, h1, scalarCoef_single, Option.bind_eq_bind, Option.bind_some, he]
    exact ho
  · rw [← hsum, isGrade_congr (above_iff h0 hV w1.1)]
    exact isGrade_list tol V

theorem largestGrade_call (hN : N ≤ 63) (hM : Represents outer N M A) (hT : ScalarValue outer N T tol)
    (h0 : 0 ≤ tol) (hs : Negatable M.expr) :
    ∃ o, ∃ g : ℤ, largestGrade (k + 2) τ outer M T = some o ∧ ScalarValue outer N o g ∧
      IsLargestGrade (Above tol A) g := by
  obtain ⟨a, t, h1, w1, w2, d1, d2, n1⟩ := args2 hN hM hT
  have gt := (leaf_ge (R := True) (n := k + 2) w2).1
  obtain ⟨g1, g2⟩ := deduceLargest_ge gt (by omega) a w1.1.1 (fun c hc => known_grade (canonical_known w1.1 c hc))
    fun c hc => (leaf_ge (w1.2 c hc)).1
  obtain ⟨e, he⟩ := g2 (leaf_abs w1.2 (n1 hs))
  obtain ⟨V, hV, hwV, hsum⟩ := id d1.2
  obtain ⟨l1, l2⟩ := deduceLargest_ok gt.lit d2 a V e (leaf_gradable w1 d1) hV he
  have hcon := context_ge (τ := τ) (k := k + 2) (Ms := [M, T]) (e := [⟨e, .const 0⟩]) (R := True) (N := N)
    ⟨canonical_single ⟨0, rfl, by simp [vecs]⟩, by simpa using g1 e he⟩ (single_denotes (g1 e he).built l2)
  obtain ⟨o, ho⟩ := hcon.2 trivial (by omega)
  refine ⟨o, listMax tol V, ?_, ⟨scalar_shape ho, hcon.1 o ho⟩, ?_⟩
  · simp only [largestGrade, call2, h1, scalarCoef_single, Option.bind_eq_bind, Option.bind_some, he]
    exact ho
  · rw [← hsum, isLargest_congr (above_iff h0 hV w1.1)]
    exact isLargest_list tol V

theorem takeGrade_call (hN : N ≤ 63) (hM : Represents outer N M A) {K : Object} {g : ℤ}
    (hK : ScalarValue outer N K g) :
    ∃ o, takeGrade (k + 1) τ outer M K = some o ∧ Represents outer N o (gradePart g A) := by
  obtain ⟨a, t, h1, w1, w2, d1, d2, n1⟩ := args2 hN hM hK
  obtain ⟨hne, hkn, hp, -⟩ := canonical_iff.1 w1.1
  obtain ⟨e, he, hw, -, -, hd⟩ := keepGrade_ok hN (n := k + 1) (R := True) (by omega) (leaf_ge w2).1 d2 a A hne hkn hp
    (fun c hc => (leaf_ge (w1.2 c hc)).1) d1
  have hcon := context_ge (τ := τ) (k := k + 1) (Ms := [M, K]) hw hd
  obtain ⟨o, ho⟩ := hcon.2 trivial (by omega)
  refine ⟨o, ?_, hcon.1 o ho⟩
  simp only [takeGrade, call2, h1, scalarCoef_single, Option.bind_eq_bind, Option.bind_some, he]
  exact ho

/-- The calls on lazy objects. -/
theorem call2_lazy {f : CSum → CSum → Option CSum} {X Y : Object} (hX : hasStoredC X.expr = false)
    (hY : hasStoredC Y.expr = false) {e : CSum} (he : f X.expr Y.expr = some e) :
    ∃ fl, call2 k τ outer f X Y = some ⟨fl, e, [], []⟩ := by
  have hs : ∀ M ∈ [X, Y], hasStoredC M.expr = false := by simp [hX, hY]
  simp only [call2, arguments_lazy [X, Y] hs, List.map_cons, List.map_nil, Option.bind_eq_bind,
    Option.bind_some, he, contextObject, contextEval_lazy hs]
  exact ⟨_, rfl⟩

theorem leaf_stored {s : CSum} (h : Within (Leaf L U) s) : hasStoredC s = false := by
  refine within_stored (Q := Leaf L U) ?_ h
  rintro e (⟨v, rfl⟩ | ⟨t, i, -, -, rfl⟩) <;> rfl

theorem takeLargest_call (hN : N ≤ 63) (hM : Represents outer N M A) (hT : ScalarValue outer N T tol)
    (h0 : 0 ≤ tol) (hs : Negatable M.expr) :
    ∃ o, ∃ g : ℤ, takeLargestGrade (k + 2) τ outer M T = some o ∧ IsLargestGrade (Above tol A) g ∧
      Represents outer N o (gradePart g A) := by
  obtain ⟨a, t, h1, w1, w2, d1, d2, n1⟩ := args2 hN hM hT
  have gt := (leaf_ge (R := True) (n := k + 2) w2).1
  obtain ⟨hne, hkn, hp, -⟩ := canonical_iff.1 w1.1
  have ga := fun c hc => (leaf_ge (R := True) (n := k + 2) (w1.2 c hc)).1
  obtain ⟨g1, g2⟩ := deduceLargest_ge gt (by omega) a hne (fun c hc => known_grade (hkn c hc)) ga
  obtain ⟨e, he⟩ := g2 (leaf_abs w1.2 (n1 hs))
  obtain ⟨V, hV, hwV, hsum⟩ := id d1.2
  obtain ⟨l1, l2⟩ := deduceLargest_ok gt.lit d2 a V e (leaf_gradable w1 d1) hV he
  obtain ⟨r, hr, hw, -, -, hd⟩ := keepGrade_ok hN (n := k + 2) (by omega) (g1 e he) l2 a A hne hkn hp ga d1
  have hcon := context_ge (τ := τ) (k := k + 2) (Ms := [M, T]) hw hd
  obtain ⟨o, ho⟩ := hcon.2 trivial (by omega)
  have sa : hasStoredC (lazyObject M.floats a).expr = false := leaf_stored w1
  have st : hasStoredC (lazyObject T.floats [⟨t, .const 0⟩]).expr = false := by
    simp [lazyObject, hasStoredC, (evaluable_context gt.ev).2.1, Blade.hasStored]
  have se : hasStoredC [(⟨e, .const 0⟩ : Comp)] = false := by
    simp [hasStoredC, (evaluable_context (g1 e he).ev).2.1, Blade.hasStored]
  obtain ⟨f1, e1⟩ := call2_lazy (k := k + 2) (τ := τ) (outer := outer)
    (f := fun a t => do some [⟨← deduceLargestGrade (k + 2) (← scalarCoef t) a, .const 0⟩]) sa st
    (e := [⟨e, .const 0⟩]) (by
      simp only [lazyObject, scalarCoef_single, Option.bind_eq_bind, Option.bind_some, he])
  obtain ⟨f2, e2⟩ := call2_lazy (k := k + 2) (τ := τ) (outer := outer)
    (f := fun a g => do keepGrade (k + 2) (← scalarCoef g) a) sa (Y := ⟨f1, [⟨e, .const 0⟩], [], []⟩) se
    (e := r) (by
      simp only [lazyObject, scalarCoef_single, Option.bind_eq_bind, Option.bind_some, hr])
  have e1' : largestGrade (k + 2) τ outer (lazyObject M.floats a) (lazyObject T.floats [⟨t, .const 0⟩]) = _ := e1
  have e2' : takeGrade (k + 2) τ outer (lazyObject M.floats a) ⟨f1, [⟨e, .const 0⟩], [], []⟩ = _ := e2
  refine ⟨o, listMax tol V, ?_, ?_, hcon.1 o ho⟩
  · simp only [takeLargestGrade, h1, Option.bind_eq_bind, Option.bind_some, e1', e2']
    exact ho
  · rw [← hsum, isLargest_congr (above_iff h0 hV w1.1)]
    exact isLargest_list tol V

mutual
theorem poly_traitSafe : ∀ e : Expr, Poly L U e → TraitSafe e
  | .fn name args, h => by
    obtain ⟨hn, ha, hE⟩ := over_fn.1 h
    have hall := poly_traitSafeAll args ha
    rcases hn with rfl | rfl | rfl
    · simpa [TraitSafe] using hall
    · simpa [TraitSafe] using hall
    · simp only [TraitSafe]
      refine ⟨hall, fun l r e _ => ?_⟩
      obtain ⟨v, -, h⟩ := hE rfl l r e
      exact ⟨v, h⟩
  | .const _, _ => by simp [TraitSafe]
  | .cbits _, _ => by simp [TraitSafe]
  | .cbool _, _ => by simp [TraitSafe]
  | .value _ _, _ => by simp [TraitSafe]
  | .bitset _ _, _ => by simp [TraitSafe]
  | .mapValues _ _, _ => by simp [TraitSafe]
  | .mapBitsets _ _, _ => by simp [TraitSafe]
  | .stored, _ => by simp [TraitSafe]
  | .storedBits, _ => by simp [TraitSafe]
  | .storedMap, _ => by simp [TraitSafe]
  | .storedMapBits, _ => by simp [TraitSafe]
theorem poly_traitSafeAll : ∀ args : List Expr, (∀ a ∈ args, Poly L U a) → TraitSafeAll args
  | [], _ => by simp [TraitSafeAll]
  | a :: as, h => by
    rw [TraitSafeAll]
    exact ⟨poly_traitSafe a (h a (by simp)), poly_traitSafeAll as fun b hb => h b (by simp [hb])⟩
end

theorem leaf_poly {e : Expr} (h : Leaf L U e) : Poly L U e := by
  rcases id h with ⟨v, rfl⟩ | ⟨t, i, -, -, rfl⟩ <;> exact h

theorem args3 {M' : Object} {B : MV ℝ} (hN : N ≤ 63) (hM : Represents outer N M A) (hM' : Represents outer N M' B)
    (hT : ScalarValue outer N T tol) :
    ∃ a b t, arguments (baseId [M, M', T]) [M, M', T] = some [a, b, [⟨t, .const 0⟩]] ∧
      Within (Leaf (baseId [M, M', T] + 1) (baseId [M, M', T] + (storedInputs [M, M', T]).length)) a ∧
      Within (Leaf (baseId [M, M', T] + 1) (baseId [M, M', T] + (storedInputs [M, M', T]).length)) b ∧
      Leaf (baseId [M, M', T] + 1) (baseId [M, M', T] + (storedInputs [M, M', T]).length) t ∧
      SumDenotes (contextEnv outer (baseId [M, M', T]) (storedInputs [M, M', T])) N a A ∧
      SumDenotes (contextEnv outer (baseId [M, M', T]) (storedInputs [M, M', T])) N b B ∧
      Denotes (contextEnv outer (baseId [M, M', T]) (storedInputs [M, M', T])) t tol := by
  obtain ⟨as, h1, h2, h3, h4⟩ := arguments_ok (outer := outer) (As := [A, B, Finsupp.single 0 tol]) hN
    (.cons hM (.cons hM' (.cons hT.2 .nil)))
  obtain ⟨a, as', -, h5, rfl⟩ := List.forall₂_cons_left_iff.1 h4
  obtain ⟨b, as'', -, h6, rfl⟩ := List.forall₂_cons_left_iff.1 h5
  obtain ⟨t, as3, ⟨-, n2⟩, h7, rfl⟩ := List.forall₂_cons_left_iff.1 h6
  obtain rfl := List.forall₂_nil_left_iff.1 h7
  obtain ⟨d1, h3⟩ := List.forall₂_cons.1 h3
  obtain ⟨d2, h3⟩ := List.forall₂_cons.1 h3
  obtain ⟨d3, -⟩ := List.forall₂_cons.1 h3
  obtain ⟨t', rfl⟩ := n2 hT.1
  exact ⟨a, b, t', h1, h2 a (by simp), h2 b (by simp),
    (h2 [⟨t', .const 0⟩] (by simp)).2 ⟨t', .const 0⟩ (by simp), d1, d2, single_denotes_inv d3⟩

theorem within_mono {Q Q' : Expr → Prop} (h : ∀ e, Q e → Q' e) {s : CSum} (hs : Within Q s) : Within Q' s :=
  ⟨hs.1, fun c hc => h _ (hs.2 c hc)⟩

theorem call2_lazy_inv {f : CSum → CSum → Option CSum} {X Y p : Object} (hX : hasStoredC X.expr = false)
    (hY : hasStoredC Y.expr = false) (h : call2 k τ outer f X Y = some p) :
    ∃ e, f X.expr Y.expr = some e ∧ p.expr = e := by
  have hs : ∀ M ∈ [X, Y], hasStoredC M.expr = false := by simp [hX, hY]
  simp only [call2, arguments_lazy [X, Y] hs, List.map_cons, List.map_nil, Option.bind_eq_bind,
    Option.bind_some] at h
  cases he : f X.expr Y.expr with
  | none => simp [he] at h
  | some e =>
    simp only [he, Option.bind_some, contextObject, contextEval_lazy hs] at h
    exact ⟨e, rfl, by cases h; rfl⟩

theorem dp_call {P Q R : Nat} (hN : P + Q + R ≤ 62) {M' : Object} {B : MV ℝ} (hM : Represents outer (P + Q + R) M A)
    (hM' : Represents outer (P + Q + R) M' B) (hT : ScalarValue outer (P + Q + R) T tol) (h0 : 0 ≤ tol)
    (o : Object) (ho : deltaProduct P Q R (k + 1) τ outer M M' T = some o) :
    ∃ g : ℤ, IsLargestGrade (Above tol (signedProd P Q R .gp A B)) g ∧
      Represents outer (P + Q + R) o (gradePart g (signedProd P Q R .gp A B)) := by
  obtain ⟨a, b, t, h1, w1, w2, w3, d1, d2, d3⟩ := args3 (by omega) hM hM' hT
  simp only [deltaProduct, h1, Option.bind_eq_bind, Option.bind_some, Option.bind_eq_some_iff] at ho
  obtain ⟨p, hp, r, hr, ho⟩ := ho
  obtain ⟨e, he, ep⟩ := call2_lazy_inv (X := lazyObject M.floats a) (Y := lazyObject M'.floats b)
    (leaf_stored w1) (leaf_stored w2) hp
  have gt := (leaf_ge (R := False) (n := k + 1) w3).1
  have hpoly := (good_graded (k := k + 1) hN .gp).within _ (poly_const · ) poly_closed a b e
    (within_mono (fun _ => leaf_poly) w1) (within_mono (fun _ => leaf_poly) w2) he
  have hden := (graded_denotes (k := k + 1) hN .gp) _ a b e A B d1 d2 he
  have hstrict := (good_graded (k := k + 1) hN .gp).within _ .const strict_closed a b e
    (within_mono (fun _ => leaf_strict) w1) (within_mono (fun _ => leaf_strict) w2) he
  have hlit : ∀ c ∈ e, Lit c.coef := fun c hc => strict_lit (fun _ => var_opaque) (hstrict.2 c hc)
  have hge : ∀ c ∈ e, GE False (k + 1) (baseId [M, M', T] + 1)
      (baseId [M, M', T] + (storedInputs [M, M', T]).length) c.coef := fun c hc =>
    ⟨poly_evaluable (hden.1 c hc).1 (hpoly.2 c hc), (hden.1 c hc).1, hlit c hc,
      fun τ => poly_noInt _ (hpoly.2 c hc), fun h => h.elim⟩
  have hgr : Gradable e := gradable (fun c hc => ⟨hlit c hc, poly_traitSafe _ (hpoly.2 c hc)⟩) hden
  obtain ⟨hne, hkn, hpw, -⟩ := canonical_iff.1 hpoly.1
  have se : hasStoredC p.expr = false := by rw [ep]; exact within_stored poly_stored hpoly
  have st : hasStoredC (lazyObject T.floats [⟨t, .const 0⟩]).expr = false := by
    simp [lazyObject, hasStoredC, (evaluable_context gt.ev).2.1, Blade.hasStored]
  have hs2 : ∀ X ∈ [p, lazyObject T.floats [⟨t, .const 0⟩]], hasStoredC X.expr = false := by
    simp only [List.mem_cons, List.not_mem_nil, or_false]
    rintro X (rfl | rfl) <;> assumption
  simp only [takeLargestGrade, arguments_lazy _ hs2, List.map_cons, List.map_nil, Option.bind_eq_bind,
    Option.bind_some, Option.bind_eq_some_iff] at hr
  obtain ⟨gO, hgO, rO, hrO, hr⟩ := hr
  simp only [contextObject, contextEval_lazy hs2, Option.bind_eq_bind, Option.bind_some, Option.some.injEq] at hr
  obtain ⟨e1, he1, eg⟩ := call2_lazy_inv (X := lazyObject p.floats p.expr)
    (Y := lazyObject (lazyObject T.floats [⟨t, .const 0⟩]).floats (lazyObject T.floats [⟨t, .const 0⟩]).expr)
    se st hgO
  simp only [lazyObject, scalarCoef_single, Option.bind_eq_bind, Option.bind_some, ep,
    Option.bind_eq_some_iff, Option.some.injEq] at he1
  obtain ⟨eg', he1, rfl⟩ := he1
  have gg := (deduceLargest_ge gt (by omega) e hne (fun c hc => known_grade (hkn c hc)) hge).1 _ he1
  have sg : hasStoredC gO.expr = false := by
    rw [eg]
    simp [hasStoredC, (evaluable_context gg.ev).2.1, Blade.hasStored]
  obtain ⟨e2, he2, er⟩ := call2_lazy_inv (X := lazyObject p.floats p.expr) se sg hrO
  simp only [lazyObject, eg, scalarCoef_single, Option.bind_eq_bind, Option.bind_some, ep] at he2
  obtain ⟨V, hV, hwV, hsum⟩ := id hden.2
  obtain ⟨l1, l2⟩ := deduceLargest_ok gt.lit d3 e V eg' hgr hV he1
  obtain ⟨q, hq, hw, -, -, hd⟩ := keepGrade_ok (by omega) (n := k + 1) (by omega) gg l2 e _ hne hkn hpw hge hden
  rw [he2] at hq
  cases hq
  have : r.expr = e2 := by rw [← hr]; exact er
  rw [this] at ho
  refine ⟨listMax tol V, ?_, (context_ge (τ := τ) (k := k + 1) (Ms := [M, M', T]) hw hd).1 o ho⟩
  rw [← hsum, isLargest_congr (above_iff h0 hV hpoly.1)]
  exact isLargest_list tol V

end Api

end GATL
