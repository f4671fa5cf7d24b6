import Verif.Proofs.ExpConst

/-!
The square of a blade as a function of its stored coefficients, and the exponential series.
-/

namespace GATL

open Expr Spec

variable {ρ outer : Env} {τ : Types} {N n k L U P Q R : Nat}

/-! ### The types of the arguments -/

theorem tagC_blades {T : Nat} (s : CSum) : ∀ (v b : Nat) (a : CSum),
    (∀ c ∈ s, (c.coef = .stored ∨ ∃ v, c.coef = .const v) ∧ c.coef ≠ .const 0 ∧ Known c ∧ c.blade ≠ .const 0) →
    tagC T v b s = some a → ∀ d ∈ a, d.blade ≠ .const 0 := by
  induction s with
  | nil =>
    intro v b a _ h
    simp only [tagC, Option.some.injEq] at h
    subst h
    intro d hd; simp at hd
  | cons c cs ih =>
    intro v b a hs h d hd
    simp only [tagC, Option.bind_eq_bind, Option.bind_eq_some_iff, Option.some.injEq] at h
    obtain ⟨bl, h1, rest, h2, rfl⟩ := h
    rcases List.mem_cons.1 hd with rfl | hd
    · obtain ⟨hp, h0, hk, hb⟩ := hs c (by simp)
      obtain ⟨w, ew, hw⟩ := id hk
      rw [ew] at h1
      simp only [Blade.tag, Option.some.injEq] at h1
      subst h1
      have := (mkComp_known (c := c.coef.tag T v b) hk).2.2 ?_
      · rw [← ew, this]; exact hb
      · rcases hp with h | ⟨v', h⟩
        · rw [h]; simp [Expr.tag]
        · rw [h] at h0 ⊢; simpa [Expr.tag] using h0
    · exact ih _ _ rest (fun c hc => hs c (by simp [hc])) h2 d hd

theorem arguments_blades {base : Nat} {M : Object} {Ms : List Object} (hp : Plain M.expr)
    (hb : ∀ c ∈ M.expr, c.blade ≠ .const 0) {a : CSum} {as : List CSum} (h : arguments base (M :: Ms) = some (a :: as)) :
    ∀ c ∈ a, c.blade ≠ .const 0 := by
  unfold arguments at h
  by_cases hst : hasStoredC M.expr = true
  · rw [if_pos hst] at h
    simp only [Option.bind_eq_bind, Option.bind_eq_some_iff, Option.some.injEq, List.cons.injEq] at h
    obtain ⟨a', ha, as', -, rfl, -⟩ := h
    refine tagC_blades M.expr 0 0 a' (fun c hc => ⟨hp.2 c hc, ?_, canonical_known hp.1 c hc, hb c hc⟩) ha
    rcases (canonical_iff.1 hp.1).2.2.2 with ⟨d, e, h0⟩ | h
    · rw [e] at hst
      exfalso
      have hk := canonical_known hp.1 d (by rw [e]; simp)
      obtain ⟨w, ew, -⟩ := hk
      simp [hasStoredC, h0, ew, hasStored, Blade.hasStored] at hst
    · exact h c hc
  · rw [if_neg hst] at h
    simp only [Option.bind_eq_bind, Option.bind_eq_some_iff, Option.some.injEq, List.cons.injEq] at h
    obtain ⟨as', -, rfl, -⟩ := h
    exact hb

/-! ### The square -/

/-- The type of `sp(arg, arg)` inside the context of `exp(arg, tol)`. -/
def squareCoef (P Q R n : Nat) (M T : Object) : Option Expr := do
  match ← arguments (baseId [M, T]) [M, T] with
  | [a, _] => scalarCoef (← mulC (orthMapping (P + Q + R) (mkSignedFactor P Q R) .sp) n a a)
  | _ => none

theorem sp_square (B : MV ℝ) : signedProd P Q R .sp B B = Finsupp.single 0 (signedProd P Q R .gp B B 0) := by
  unfold signedProd
  rw [Iso.sp_scalar]
  simp [scalar]

theorem squareCoef_values (hN : P + Q + R ≤ 62) {M T : Object} {tol : ℝ} (hp : Plain M.expr)
    (hT : ScalarValue outer (P + Q + R) T tol) {v : Expr} (hv : squareCoef P Q R k M T = some v)
    {vs : List ℝ} {A : MV ℝ} (hA : Reads outer (P + Q + R) M.expr vs M.bitsets A) :
    Denotes (contextEnv outer (baseId [M, T]) (storedInputs [{ M with values := vs }, T])) v
      (signedProd P Q R .gp A A 0) := by
  set M' : Object := { M with values := vs } with hM'
  have hM : Represents outer (P + Q + R) M' A := ⟨hp, hA⟩
  have hv' : squareCoef P Q R k M' T = some v := by
    unfold squareCoef at hv ⊢
    have : arguments (baseId [M', T]) [M', T] = arguments (baseId [M, T]) [M, T] := rfl
    rw [this]; exact hv
  obtain ⟨a, t, h1, w1, lt, d1, -⟩ := args2 (by omega) hM hT
  simp only [squareCoef, h1, Option.bind_eq_bind, Option.bind_some, Option.bind_eq_some_iff] at hv'
  obtain ⟨sa, hsa, hv'⟩ := hv'
  obtain rfl := scalarCoef_inv hv'
  have dsa := (graded_denotes hN .sp) _ a a _ _ _ d1 d1 hsa
  rw [sp_square] at dsa
  exact single_denotes_inv dsa

/-! ### Variation of a variable -/

/-- The environment with another value for one variable. -/
def setVal (ρ : Env) (t i : Nat) (r : ℝ) : Env where
  val t' i' := if t' = t ∧ i' = i then r else ρ.val t' i'
  bits := ρ.bits

/-- The variables of a sum are pairwise distinct. -/
def DistinctVars (a : CSum) : Prop := a.Pairwise fun c d => ∀ t i, c.coef = .value t i → d.coef ≠ .value t i

theorem tagC_distinct {T : Nat} (s : CSum) : ∀ (v b : Nat) (a : CSum),
    (∀ c ∈ s, (c.coef = .stored ∨ ∃ v, c.coef = .const v) ∧ Known c) →
    tagC T v b s = some a → DistinctVars a ∧ ∀ d ∈ a, ∀ t i, d.coef = .value t i → v ≤ i := by
  induction s with
  | nil =>
    intro v b a _ h
    simp only [tagC, Option.some.injEq] at h
    subst h
    exact ⟨.nil, by simp⟩
  | cons c cs ih =>
    intro v b a hs h
    simp only [tagC, Option.bind_eq_bind, Option.bind_eq_some_iff, Option.some.injEq] at h
    obtain ⟨bl, h1, rest, h2, rfl⟩ := h
    obtain ⟨hp, hk⟩ := hs c (by simp)
    obtain ⟨w, ew, hw⟩ := id hk
    rw [ew] at h1
    simp only [Blade.tag, Option.some.injEq] at h1
    subst h1
    obtain ⟨i1, i2⟩ := ih _ _ rest (fun c hc => hs c (by simp [hc])) h2
    have e := (mkComp_known (c := c.coef.tag T v b) hk).2.1
    rw [ew] at e
    have hcount : ∀ t i, c.coef.tag T v b = .value t i → i = v ∧ c.countValues = 1 := by
      intro t i h
      rcases hp with h' | ⟨u, h'⟩
      · rw [h'] at h
        simp only [Expr.tag, Expr.value.injEq] at h
        exact ⟨h.2.symm, by simp [Comp.countValues, h', ew, Expr.countValues, Blade.countValues]⟩
      · rw [h'] at h; simp [Expr.tag] at h
    refine ⟨List.pairwise_cons.2 ⟨?_, i1⟩, ?_⟩
    · intro d hd t i h h'
      rw [e] at h
      obtain ⟨rfl, hc⟩ := hcount t i h
      have := i2 d hd t i h'
      omega
    · intro d hd t i h
      rcases List.mem_cons.1 hd with rfl | hd
      · rw [e] at h
        exact (hcount t i h).1.ge
      · have := i2 d hd t i h
        omega

theorem arguments_distinct {base : Nat} {M : Object} {Ms : List Object} (hp : Plain M.expr)
    {a : CSum} {as : List CSum} (h : arguments base (M :: Ms) = some (a :: as)) : DistinctVars a := by
  unfold arguments at h
  by_cases hst : hasStoredC M.expr = true
  · rw [if_pos hst] at h
    simp only [Option.bind_eq_bind, Option.bind_eq_some_iff, Option.some.injEq, List.cons.injEq] at h
    obtain ⟨a', ha, as', -, rfl, -⟩ := h
    exact (tagC_distinct M.expr 0 0 a' (fun c hc => ⟨hp.2 c hc, canonical_known hp.1 c hc⟩) ha).1
  · rw [if_neg hst] at h
    simp only [Option.bind_eq_bind, Option.bind_eq_some_iff, Option.some.injEq, List.cons.injEq] at h
    obtain ⟨as', -, rfl, -⟩ := h
    refine List.Pairwise.imp_of_mem (R := fun _ _ => True) ?_ (List.pairwise_of_forall (by simp))
    intro c d hc _ _ t i h
    rcases hp.2 c hc with h' | ⟨u, h'⟩ <;> rw [h'] at h <;> simp at h

theorem compDenotes_set {c : Comp} {x : ℝ × TBlade} {t i : Nat} {r : ℝ} (hl : Leaf L U c.coef) (hk : Known c)
    (hne : c.coef ≠ .value t i) (h : CompDenotes ρ c x) : CompDenotes (setVal ρ t i r) c x := by
  obtain ⟨b, eb, -⟩ := hk
  obtain ⟨h1, h2⟩ := h
  rw [eb] at h2
  refine ⟨?_, by rw [eb]; exact h2⟩
  rcases hl with ⟨v, e⟩ | ⟨t', i', -, -, e⟩
  · rw [e] at h1 ⊢
    simpa [Denotes, den] using h1
  · rw [e] at h1 hne ⊢
    have : ¬ (t' = t ∧ i' = i) := by rintro ⟨rfl, rfl⟩; exact hne rfl
    simpa [Denotes, den, setVal, this] using h1

theorem vary_same {a : CSum} {As : List (ℝ × TBlade)} {t i : Nat} {r : ℝ} (h : List.Forall₂ (CompDenotes ρ) a As)
    (hl : ∀ c ∈ a, Leaf L U c.coef) (hk : ∀ c ∈ a, Known c) (hne : ∀ c ∈ a, c.coef ≠ .value t i) :
    List.Forall₂ (CompDenotes (setVal ρ t i r)) a As := by
  induction h with
  | nil => exact .nil
  | @cons d y ds ys g1 g2 ih =>
    exact .cons (compDenotes_set (hl d (by simp)) (hk d (by simp)) (hne d (by simp)) g1)
      (ih (fun e he => hl e (by simp [he])) (fun e he => hk e (by simp [he])) fun e he => hne e (by simp [he]))

theorem sum_other {a : CSum} {As : List (ℝ × TBlade)} {b : Word} (h : List.Forall₂ (CompDenotes ρ) a As)
    (hk : ∀ c ∈ a, Known c) (hne : ∀ d ∈ a, d.blade ≠ .const b) :
    (As.map fun a => (Finsupp.single a.2.bits a.1 : MV ℝ)).sum b = 0 := by
  induction h with
  | nil => simp
  | @cons d y ds ys g1 g2 jh =>
    obtain ⟨b', eb', -⟩ := hk d (by simp)
    have ey : y.2 = .const b' := by
      have := g1.2
      rw [eb'] at this
      exact this
    have : b' ≠ b := by rintro rfl; exact hne d (by simp) eb'
    rw [List.map_cons, List.sum_cons, Finsupp.add_apply, jh (fun e he => hk e (by simp [he]))
      (fun e he => hne e (by simp [he])), ey, add_zero]
    exact Finsupp.single_eq_of_ne (by simpa [TBlade.bits] using this.symm)

theorem vary {a : CSum} {As : List (ℝ × TBlade)} {t i : Nat} (h : List.Forall₂ (CompDenotes ρ) a As)
    (hl : ∀ c ∈ a, Leaf L U c.coef) (hk : ∀ c ∈ a, Known c) (hd : a.Pairwise fun c d => c.blade ≠ d.blade)
    (hv : DistinctVars a) (hw : ∀ x ∈ As, WellTyped N x) :
    (∀ r, List.Forall₂ (CompDenotes (setVal ρ t i r)) a As) ∨
      ∃ c ∈ a, ∃ b, c.blade = .const b ∧ ∀ r, ∃ As', List.Forall₂ (CompDenotes (setVal ρ t i r)) a As' ∧
        (∀ x ∈ As', WellTyped N x) ∧ (As'.map fun a => (Finsupp.single a.2.bits a.1 : MV ℝ)).sum =
          (As.map fun a => (Finsupp.single a.2.bits a.1 : MV ℝ)).sum +
            Finsupp.single b (r - (As.map fun a => (Finsupp.single a.2.bits a.1 : MV ℝ)).sum b) := by
  induction h with
  | nil => exact .inl fun r => .nil
  | @cons c x cs xs h1 h2 ih =>
    unfold DistinctVars at hv
    rw [List.pairwise_cons] at hd hv
    have ih := ih (fun c hc => hl c (by simp [hc])) (fun c hc => hk c (by simp [hc])) hd.2 hv.2
      (fun x hx => hw x (by simp [hx]))
    obtain ⟨b, eb, -⟩ := id (hk c (by simp))
    have ex : x.2 = .const b := by
      have := h1.2
      rw [eb] at this
      exact this
    by_cases hc : c.coef = .value t i
    · right
      refine ⟨c, by simp, b, eb, fun r => ⟨(r, .const b) :: xs, ?_, ?_, ?_⟩⟩
      · refine .cons ⟨?_, by rw [eb]; rfl⟩ ?_
        · rw [hc]; simp [Denotes, den, setVal]
        · exact vary_same h2 (fun c hc => hl c (by simp [hc])) (fun c hc => hk c (by simp [hc]))
            fun d hd => hv.1 d hd t i hc
      · intro y hy
        rcases List.mem_cons.1 hy with rfl | hy
        · have := hw x (by simp)
          obtain ⟨x1, x2⟩ := x
          simp only at ex
          subst ex
          exact this
        · exact hw y (by simp [hy])
      · have h0 : (xs.map fun a => (Finsupp.single a.2.bits a.1 : MV ℝ)).sum b = 0 := by
          exact sum_other h2 (fun c hc => hk c (by simp [hc])) fun d hd' => eb ▸ (hd.1 d hd').symm
        rw [List.map_cons, List.sum_cons, List.map_cons, List.sum_cons, Finsupp.add_apply, h0, ex]
        have e1 : (TBlade.const b).bits = b := rfl
        simp only [e1, Finsupp.single_eq_same, add_zero, Finsupp.single_sub]
        abel
    · rcases ih with ih | ⟨d, hd', b', eb', ih⟩
      · exact .inl fun r => .cons (compDenotes_set (hl c (by simp)) (hk c (by simp)) hc h1) (ih r)
      · right
        refine ⟨d, by simp [hd'], b', eb', fun r => ?_⟩
        obtain ⟨As', a1, a2, a3⟩ := ih r
        refine ⟨x :: As', .cons (compDenotes_set (hl c (by simp)) (hk c (by simp)) hc h1) a1, ?_, ?_⟩
        · intro y hy
          rcases List.mem_cons.1 hy with rfl | hy
          · exact hw _ (by simp)
          · exact a2 y hy
        · have hbb : b ≠ b' := by
            rintro rfl
            exact hd.1 d hd' (eb.trans eb'.symm)
          have : (Finsupp.single x.2.bits x.1 : MV ℝ) b' = 0 := by
            rw [ex]
            exact Finsupp.single_eq_of_ne (by simpa [TBlade.bits] using hbb.symm)
          simp only [List.map_cons, List.sum_cons, Finsupp.add_apply, a3, this, zero_add]
          abel

theorem blade_distinct {a : CSum} (h : Canonical a) : a.Pairwise fun c d => c.blade ≠ d.blade := by
  obtain ⟨-, hk, hp, -⟩ := canonical_iff.1 h
  refine List.Pairwise.imp_of_mem ?_ hp
  intro c d hc hd hb e
  obtain ⟨b, eb, -⟩ := hk c hc
  have := hb b b eb (e ▸ eb)
  rcases this with h | ⟨-, h⟩ <;> omega

/-- No square has the type of a multiple of the square of one variable with a factor other than 1, -1. -/
theorem square_multiple (hN : P + Q + R ≤ 62) {a : CSum} {A : MV ℝ} (w1 : Within (Leaf L U) a)
    (d1 : SumDenotes ρ (P + Q + R) a A) (hv : DistinctVars a) {v : Expr}
    (h : mulC (orthMapping (P + Q + R) (mkSignedFactor P Q R) .sp) k a a = some [⟨v, .const 0⟩]) {c : ℝ} {t i : Nat}
    (hd : ∀ ρ : Env, Denotes ρ v (c * ρ.val t i ^ 2)) : c = 0 ∨ c = 1 ∨ c = -1 := by
  have hval : ∀ (ρ : Env) (A : MV ℝ), SumDenotes ρ (P + Q + R) a A → signedProd P Q R .sp A A 0 = c * ρ.val t i ^ 2 := by
    intro ρ A d1
    have dsa := (graded_denotes hN .sp) _ a a _ _ _ d1 d1 h
    rw [sp_square] at dsa
    have := (single_denotes_inv dsa).symm.trans (hd ρ)
    rw [sp_square]
    simpa using this
  obtain ⟨hb, As, hf, hw, rfl⟩ := d1
  rcases vary (t := t) (i := i) hf w1.2 (canonical_known w1.1) (blade_distinct w1.1) hv hw with h | ⟨-, -, b, -, h⟩
  · left
    have h0 := hval _ _ ⟨hb, As, h 0, hw, rfl⟩
    have h1 := hval _ _ ⟨hb, As, h 1, hw, rfl⟩
    rw [h0] at h1
    simpa [setVal] using h1.symm
  · set A₀ := (As.map fun a => (Finsupp.single a.2.bits a.1 : MV ℝ)).sum
    have key : ∀ r, signedProd P Q R .sp A₀ A₀ 0 + (sg ℝ (par b b) * ((signedFactor P Q R b : Int) : ℝ)) *
        (r ^ 2 - A₀ b ^ 2) = c * (setVal ρ t i r).val t i ^ 2 := fun r => by
      obtain ⟨As', a1, a2, a3⟩ := h r
      have := hval _ _ ⟨hb, As', a1, a2, rfl⟩
      rw [a3] at this
      exact (sp_shift (fun w => ((signedFactor P Q R w : Int) : ℝ)) A₀ b r).symm.trans this
    have hc : c = sg ℝ (par b b) * ((signedFactor P Q R b : Int) : ℝ) := by
      have a0 := key 0
      have a1 := key 1
      simp only [setVal, and_self, if_true] at a0 a1
      linear_combination a0 - a1
    have h1 : ((signedFactor P Q R b : Int) : ℝ) = 1 ∨ ((signedFactor P Q R b : Int) : ℝ) = -1 ∨
        ((signedFactor P Q R b : Int) : ℝ) = 0 := by
      unfold signedFactor
      split_ifs <;> simp
    have h2 : sg ℝ (par b b) = 1 ∨ sg ℝ (par b b) = -1 := by
      unfold sg
      exact neg_one_pow_eq_or ℝ _
    rw [hc]
    rcases h1 with h1 | h1 | h1 <;> rcases h2 with h2 | h2 <;> rw [h1, h2] <;> simp

/-- The type of the square of a blade is a sum of squares. -/
theorem squareCoef_lin (hN : P + Q + R ≤ 62) {L U : Nat} {a : CSum} {A : MV ℝ} (w1 : Within (Leaf L U) a)
    (d1 : SumDenotes ρ (P + Q + R) a A) {v : Expr}
    (h : mulC (orthMapping (P + Q + R) (mkSignedFactor P Q R) .sp) k a a = some [⟨v, .const 0⟩]) : Quad.Lin v := by
  obtain ⟨c, ec, hc⟩ := scalarQuad_mul (mkSignedFactor_const P Q R) (signed_factor hN) hN k
    (canonical_known w1.1) (canonical_known w1.1) (inSpaceC_of d1) (inSpaceC_of d1)
    (fun c hc d hd e j z hz => by
      obtain rfl := canonical_inj w1.1 hc hd e
      exact leaf_square (w1.2 c hc) (.inl rfl) hz) h
  cases ec
  rcases hc with h0 | ⟨-, h⟩
  · exact .inl (.inl ⟨0, h0⟩)
  · exact h

theorem arguments_stored {base : Nat} {M T : Object} {a : CSum} {t : Expr} (hT : T.expr = [⟨.stored, .const 0⟩])
    (h : arguments base [M, T] = some [a, [⟨t, .const 0⟩]]) : ∃ v i, t = .value v i := by
  have hst : hasStoredC T.expr = true := by rw [hT]; rfl
  have key : ∀ b, arguments b [T] = some [[⟨.value (b + 1) 0, .const 0⟩]] := by
    intro b
    simp only [arguments, hst, if_true, hT]
    rfl
  unfold arguments at h
  split_ifs at h
  · simp only [key, Option.bind_eq_bind, Option.bind_eq_some_iff, Option.some.injEq, List.cons.injEq] at h
    obtain ⟨_, -, _, rfl, -, h⟩ := h
    simp only [List.cons.injEq, Comp.mk.injEq] at h
    exact ⟨_, _, h.1.1.1.symm⟩
  · simp only [key, Option.bind_eq_bind, Option.bind_eq_some_iff, Option.some.injEq, List.cons.injEq] at h
    obtain ⟨_, rfl, -, h⟩ := h
    simp only [List.cons.injEq, Comp.mk.injEq] at h
    exact ⟨_, _, h.1.1.1.symm⟩

theorem exp_call (hN : P + Q + R ≤ 62) {M T o : Object} {B : MV ℝ} {tol : ℝ} (hM : Represents outer (P + Q + R) M B)
    (hT : ScalarValue outer (P + Q + R) T tol) (h0 : 0 ≤ tol) (hsc : scalarCoef M.expr = none)
    (h : expObject P Q R k τ outer M T = some o) :
    ∃ y E, y ^ 2 = |signedProd P Q R .gp B B 0| ∧ E = Finsupp.single 0 (cosCoef (signedProd P Q R .gp B B 0) y tol) +
        sinCoef (signedProd P Q R .gp B B 0) y tol • B ∧ Reads outer (P + Q + R) o.expr o.values o.bitsets E ∧
      ((T.expr = [⟨.stored, .const 0⟩] ∨ ∀ c, ConstantSquare outer P Q R M c → |c| ≤ tol) →
        Represents outer (P + Q + R) o E) := by
  obtain ⟨a, t, h1, w1, lt, d1, dt, -⟩ := args2 (by omega) hM hT
  simp only [expObject, hsc, Option.isSome_none, Bool.false_eq_true, if_false, h1, Option.bind_eq_bind,
    Option.bind_some, scalarCoef_single, Option.bind_eq_some_iff] at h
  obtain ⟨e, he, ho⟩ := h
  have he' := he
  simp only [expExpr, Option.bind_eq_bind, Option.bind_eq_some_iff] at he'
  obtain ⟨sa, hsa, s, hs, sq, hsq, hf, hhf, α, hα, i, hi, -⟩ := he'
  obtain rfl := scalarCoef_inv hs
  obtain rfl := half_eq hhf
  have hv : squareCoef P Q R k M T = some s := by
    simp only [squareCoef, h1, Option.bind_eq_bind, Option.bind_some, hsa, scalarCoef_single]
  have hden := fun vs A => squareCoef_values (outer := outer) hN hM.1 hT hv (vs := vs) (A := A)
  have psa := (good_graded (k := k) hN .sp).within _ (poly_const ·) poly_closed a a _
    (within_mono (fun _ => leaf_poly) w1) (within_mono (fun _ => leaf_poly) w1) hsa
  have dsa := (graded_denotes (k := k) hN .sp) _ a a _ _ _ d1 d1 hsa
  have pv : Poly _ _ s := psa.2 ⟨s, .const 0⟩ (by simp)
  have bv : Built s := (dsa.1 ⟨s, .const 0⟩ (by simp)).1
  rw [sp_square] at dsa
  have dv := single_denotes_inv dsa
  have gv : isConstant s = false →
      GE False k (baseId [M, T] + 1) (baseId [M, T] + (storedInputs [M, T]).length) s := fun hc =>
    ⟨poly_evaluable bv pv, bv, (fun h => by simp [hc] at h), fun τ => poly_noInt _ pv, fun h => h.elim⟩
  have fin : ∀ y, RootData (contextEnv outer (baseId [M, T]) (storedInputs [M, T])) k (baseId [M, T] + 1)
      (baseId [M, T] + (storedInputs [M, T]).length) s sq t α i (signedProd P Q R .gp B B 0) y →
      ∃ y E, y ^ 2 = |signedProd P Q R .gp B B 0| ∧ E = Finsupp.single 0 (cosCoef (signedProd P Q R .gp B B 0) y tol) +
          sinCoef (signedProd P Q R .gp B B 0) y tol • B ∧ Reads outer (P + Q + R) o.expr o.values o.bitsets E ∧
        ((T.expr = [⟨.stored, .const 0⟩] ∨ ∀ c, ConstantSquare outer P Q R M c → |c| ≤ tol) →
          Represents outer (P + Q + R) o E) := by
    intro y hR
    obtain ⟨r1, r2⟩ := exp_core hN w1 d1 lt dt h0 hR hsa hsq hα hi he
    have ho := (context_ge (R := False) (τ := τ) (k := k) (Ms := [M, T]) r1 r2).1 o ho
    exact ⟨y, _, hR.sqrt, rfl, ho.2, fun _ => ho⟩
  have hpd : ∀ (ρ : Env) t i, PowDefined (ρ.val t i) ((2 : Int) : ℝ) := by
    intro ρ t i
    rcases lt_trichotomy (ρ.val t i) 0 with h | h | h
    · exact .inr (.inr ⟨h, 2, rfl⟩)
    · exact .inr (.inl ⟨h, by norm_num⟩)
    · exact .inl h
  have hsq' : ∀ ρ : Env, ∀ t i, Denotes ρ (powerOf (.value t i) (.const 2)) (ρ.val t i ^ 2) := by
    intro ρ t i
    have := (V.power (ρ := ρ) (l := .value t i) (x := ρ.val t i) ⟨.value _ _, rfl⟩ (V.const (ρ := ρ) 2)
      ⟨by simp, by simp⟩ (hpd ρ t i)).2
    simpa using this
  have abs := fun (hcs : isConstant s = false) (hn : isNonNegative s = some false) =>
    fin _ (root_abs ⟨bv, dv⟩ (gv hcs) (poly_traitSafe _ pv) hcs hn hsq hα hi)
  rcases squareCoef_lin hN w1 d1 hsa with (⟨c, rfl⟩ | ⟨b, rfl, hb, t', i', rfl⟩ |
    ⟨c, a', rfl, ⟨b, rfl, hb, t', i', rfl⟩, hkc⟩) | ⟨h, t', rfl, ht, -, hn⟩
  · have hc0 : ∀ vs A, Reads outer (P + Q + R) M.expr vs M.bitsets A → signedProd P Q R .gp A A 0 = (c : ℝ) := by
      intro vs A hA
      have := hden vs A hA
      simpa [Denotes, den] using this.symm
    have ex : signedProd P Q R .gp B B 0 = c := hc0 _ _ hM.2
    by_cases e0 : c = 0
    · subst e0
      refine fin 0 ?_
      rw [ex, Int.cast_zero]
      exact root_zero dt h0 hsq hα hi
    by_cases hle : mkLessOrEqual sq t = .cbool false
    · obtain ⟨r1, r2⟩ := exp_const_core hN w1 d1 e0 dt hle hsa hsq hα hi he
      refine ⟨√|(c : ℝ)|, _, by rw [ex]; exact Real.sq_sqrt (abs_nonneg _), rfl, ?_, fun hc => ?_⟩
      · rw [ex]
        exact context_reads r1 r2 ho
      · exfalso
        obtain ⟨v, rfl⟩ := abs_const_shape hsq
        rcases hc with hc | hc
        · obtain ⟨_, _, rfl⟩ := arguments_stored hc h1
          simp [mkLessOrEqual] at hle
        · have hlt := hc c hc0
          have vq : Denotes outer (.const v) |(c : ℝ)| :=
            abs_den (fun _ => ⟨c, rfl⟩) (.const c) (by simp [TraitSafe]) (V.const (ρ := outer) c).2 hsq
          have hv : |(c : ℝ)| = v := V.const_eq ⟨.const v, vq⟩
          have vq' : Denotes (contextEnv outer (baseId [M, T]) (storedInputs [M, T])) (.const v) |(c : ℝ)| := by
            rw [hv]; exact (V.const v).2
          have := le_den vq' dt
          rw [hle] at this
          simp [den] at this
          linarith
    refine fin √|(c : ℝ)| ?_
    rw [ex]
    exact root_const e0 hsq hα hi hle
  · have ex : signedProd P Q R .gp B B 0 =
        (contextEnv outer (baseId [M, T]) (storedInputs [M, T])).val t' i' ^ 2 := by
      have := dv.symm.trans (hsq' _ t' i')
      simpa using this
    obtain ⟨hL, hU⟩ : baseId [M, T] + 1 ≤ t' ∧ t' ≤ baseId [M, T] + (storedInputs [M, T]).length := by
      have := (evaluable_context (gv (by simp [isConstant, isConstantAll])).ev).1
      simpa [inRange, inRangeAll] using this
    refine fin ((contextEnv outer (baseId [M, T]) (storedInputs [M, T])).val t' i') ?_
    rw [ex]
    exact root_atom hL hU hsq hα hi
  · by_cases hcc : 0 ≤ c
    · exfalso
      have hd : ∀ ρ : Env, Denotes ρ (.fn .mul [.const c, powerOf (.value t' i') (.const 2)]) (c * ρ.val t' i' ^ 2) := by
        intro ρ
        have := hpd ρ t' i'
        have h2 : ((2 : Int) : ℝ) = 2 := by norm_num
        rw [h2] at this
        simp [Denotes, den, denList, interp, this, prodVals]
      rcases square_multiple hN w1 d1 (arguments_distinct hM.1 h1) hsa hd with h | h | h
      · exact hkc.1 (by exact_mod_cast h)
      · exact hkc.2 (by exact_mod_cast h)
      · have : c = -1 := by exact_mod_cast h
        omega
    · exact abs (by simp [isConstant, isConstantAll]) (by simp [isNonNegative, isNonNegativeAll, hcc, isEven])
  · obtain ⟨x, t'', rfl⟩ := List.exists_cons_of_ne_nil ht
    exact abs (by simp [isConstant, isConstantAll, (hn x (by simp)).not_constant]) rfl

end GATL
