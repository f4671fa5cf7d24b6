import Verif.Proofs.UnitType

/-!
# The squared norm as a function of one stored coefficient
-/

namespace GATL

open Expr Spec

variable {ρ : Env} {P Q R n : Nat}

/-! ## The squared norm is a quadratic form -/

theorem norm_form_left (b : Word) (d : ℝ) (X : MV ℝ) :
    signedProd P Q R .sp X (reverse (Finsupp.single b d)) 0 = signedFactor P Q R b * (X b * d) := by
  unfold signedProd
  induction X using Finsupp.induction_linear with
  | zero => simp [prod_zero_left]
  | add X Y hX hY => rw [prod_add_left, Finsupp.add_apply, hX, hY, Finsupp.add_apply]; ring
  | single a x =>
    rw [reverse_single, sp_single, Finsupp.single_eq_same]
    by_cases h : a = b
    · subst h
      have := sg_mul_self (K := ℝ) (par a a)
      rw [if_pos rfl, Finsupp.single_eq_same]
      linear_combination (x * d * (signedFactor P Q R a : ℝ)) * this
    · rw [if_neg h, Finsupp.single_eq_of_ne (Ne.symm h)]; ring

theorem norm_form_right (b : Word) (d : ℝ) (X : MV ℝ) :
    signedProd P Q R .sp (Finsupp.single b d) (reverse X) 0 = signedFactor P Q R b * (X b * d) := by
  unfold signedProd
  induction X using Finsupp.induction_linear with
  | zero => simp [reverse_zero, prod_zero_right]
  | add X Y hX hY => rw [reverse_add, prod_add_right, Finsupp.add_apply, hX, hY, Finsupp.add_apply]; ring
  | single a x =>
    rw [reverse_single, sp_single, Finsupp.single_eq_same]
    by_cases h : b = a
    · subst h
      have := sg_mul_self (K := ℝ) (par b b)
      rw [if_pos rfl, Finsupp.single_eq_same]
      linear_combination (x * d * (signedFactor P Q R b : ℝ)) * this
    · rw [if_neg h, Finsupp.single_eq_of_ne h]; ring

/-- The squared norm after a change of one coefficient. -/
theorem norm_add_single (b : Word) (d : ℝ) (X : MV ℝ) : rnormSqr (signedProd P Q R) (X + Finsupp.single b d) =
    rnormSqr (signedProd P Q R) X + signedFactor P Q R b * (2 * (X b * d) + d ^ 2) := by
  have h1 := norm_form_left (P := P) (Q := Q) (R := R) b d X
  have h2 := norm_form_right (P := P) (Q := Q) (R := R) b d X
  have h3 := norm_form_left (P := P) (Q := Q) (R := R) b d (Finsupp.single b d)
  rw [Finsupp.single_eq_same] at h3
  unfold rnormSqr signedProd at *
  rw [reverse_add, prod_add_left, prod_add_right, prod_add_right, Finsupp.add_apply, Finsupp.add_apply, Finsupp.add_apply, h1, h2, h3]
  ring

/-! ## Changing one stored coefficient -/

theorem reads_length {s : CSum} {vs vs' : List ℝ} {ws ws' : List Word} {A A' : MV ℝ} (h : Reads ρ n s vs ws A)
    (h' : Reads ρ n s vs' ws' A') : vs.length = vs'.length := by
  induction h generalizing vs' ws' A' with
  | nil => cases h'; rfl
  | cons hc hb hw hs ih =>
    cases h' with
    | cons hc' hb' hw' hs' =>
      rw [List.length_append, List.length_append, ih hs']
      congr 1
      cases hc with
      | stored x => cases hc' with
        | stored y => rfl
        | symbolic _ _ h => simp [hasStored] at h
      | symbolic _ _ h => cases hc' with
        | stored y => simp [hasStored] at h
        | symbolic => rfl

theorem reads_absent {s : CSum} {vs : List ℝ} {ws : List Word} {A : MV ℝ} (h : Reads ρ n s vs ws A)
    (hk : ∀ c ∈ s, Known c) {w : Word} (hw : ∀ c ∈ s, c.blade ≠ .const w) : A w = 0 := by
  induction h with
  | nil => rfl
  | @cons c b s vs ws vs' ws' x t m hc hb hwt hs ih =>
    obtain ⟨a, rfl, -⟩ := hk ⟨c, b⟩ (by simp)
    cases hb
    have h1 : a ≠ w := fun e => hw ⟨c, .const a⟩ (by simp) (by rw [e])
    rw [Finsupp.add_apply, ih (fun c hc => hk c (by simp [hc])) (fun c hc => hw c (by simp [hc]))]
    simp [TBlade.bits, Finsupp.single_eq_of_ne (Ne.symm h1)]

/-- Changing one stored coefficient changes one coefficient of the multivector. -/
theorem reads_set {s : CSum} {vs : List ℝ} {ws : List Word} {A : MV ℝ} (h : Reads ρ n s vs ws A)
    (hk : ∀ c ∈ s, Known c) (hp : s.Pairwise BeforeC) : ∀ i < vs.length, ∃ b, A b = vs.getD i 0 ∧ (∃ c ∈ s, c.blade = .const b) ∧
      ∀ x, Reads ρ n s (vs.set i x) ws (A + Finsupp.single b (x - vs.getD i 0)) := by
  induction h with
  | nil => intro i hi; simp at hi
  | @cons c b s vs ws vs' ws' x t m hc hb hwt hs ih =>
    obtain ⟨hp1, hp2⟩ := List.pairwise_cons.1 hp
    have hk' : ∀ c ∈ s, Known c := fun c hc => hk c (by simp [hc])
    obtain ⟨a, rfl, -⟩ := hk ⟨c, b⟩ (by simp)
    cases hb
    have hlater : ∀ i < vs'.length, ∃ b', m b' = vs'.getD i 0 ∧ (∃ c ∈ s, c.blade = .const b') ∧ b' ≠ a ∧
        ∀ x, Reads ρ n s (vs'.set i x) ws' (m + Finsupp.single b' (x - vs'.getD i 0)) := by
      intro i hi
      obtain ⟨b', h1, ⟨c', hc', hb'⟩, h2⟩ := ih hk' hp2 i hi
      refine ⟨b', h1, ⟨c', hc', hb'⟩, ?_, h2⟩
      rintro rfl
      exact before_irrefl _ (hp1 c' hc' _ _ rfl hb')
    have hma : m a = 0 := reads_absent hs hk' fun c' hc' e => before_irrefl _ (hp1 c' hc' _ _ rfl e)
    cases hc with
    | stored =>
      intro i hi
      cases i with
      | zero =>
        refine ⟨a, by simp [TBlade.bits, hma], ⟨_, List.mem_cons_self .., rfl⟩, fun y => ?_⟩
        have := Reads.cons (.stored y) (.const a) (by simpa [WellTyped] using hwt) hs
        have e : (Finsupp.single a x + m + (Finsupp.single a y - Finsupp.single a x) : MV ℝ) = Finsupp.single a y + m := by
          abel
        simpa [TBlade.bits, e] using this
      | succ i =>
        obtain ⟨b', h1, ⟨c', hc', hb'⟩, hne, h2⟩ := hlater i (by simpa using hi)
        refine ⟨b', by simp [TBlade.bits, h1, Finsupp.single_eq_of_ne hne], ⟨c', by simp [hc'], hb'⟩, fun y => ?_⟩
        have := Reads.cons (.stored x) (.const a) hwt (h2 y)
        simpa [TBlade.bits, add_assoc] using this
    | symbolic _ _ h1 h2 h3 =>
      intro i hi
      obtain ⟨b', h1', ⟨c', hc', hb'⟩, hne, h2'⟩ := hlater i (by simpa using hi)
      refine ⟨b', by simp [TBlade.bits, h1', Finsupp.single_eq_of_ne hne], ⟨c', by simp [hc'], hb'⟩, fun y => ?_⟩
      have := Reads.cons (.symbolic _ _ h1 h2 h3) (.const a) hwt (h2' y)
      simpa [TBlade.bits, add_assoc] using this

/-- A squared norm that is a multiple of the square of one stored coefficient is its square, or the negative of it. -/
theorem monomial_unit {M : Object} {A : MV ℝ} (hM : Represents ρ (P + Q + R) M A) {c : ℝ} {i : Nat}
    (h : ∀ vs A, Reads ρ (P + Q + R) M.expr vs M.bitsets A → rnormSqr (signedProd P Q R) A = c * vs.getD i 0 ^ 2)
    (hc : ¬ ConstantNorm ρ P Q R M) : c = 1 ∨ c = -1 := by
  by_cases hi : i < M.values.length
  · obtain ⟨b, h1, -, h2⟩ := reads_set hM.2 (canonical_iff.1 hM.1.1).2.1 (canonical_iff.1 hM.1.1).2.2.1 i hi
    have e0 := h _ _ (h2 0)
    have e1 := h _ _ (h2 1)
    rw [norm_add_single] at e0 e1
    rw [h1] at e0 e1
    have g0 : (M.values.set i 0).getD i 0 = 0 := by simp [hi]
    have g1 : (M.values.set i 1).getD i 0 = 1 := by simp [hi]
    rw [g0] at e0
    rw [g1] at e1
    have e : c = signedFactor P Q R b := by linear_combination e0 - e1
    unfold signedFactor at e
    split at e
    · split at e
      · exact .inl (by simpa using e)
      · exact .inr (by simpa using e)
    · refine absurd ⟨0, fun vs A hA => ?_⟩ hc
      rw [h vs A hA, e]; simp
  · refine absurd ⟨0, fun vs A hA => ?_⟩ hc
    have := reads_length hA hM.2
    rw [h vs A hA, List.getD_eq_default _ _ (by omega)]
    simp

end GATL
