import Verif.Proofs.GeometricAlgebra

/-! Programs and outermorphisms: a linear map of the space that maps one metric to another maps values to values. -/

namespace GATL

open Expr Spec

/-- No regressive product occurs in the program. -/
def Program.NoRegressive : Program → Prop
  | .input _ => True
  | .lit _ => True
  | .add s t => s.NoRegressive ∧ t.NoRegressive
  | .sub s t => s.NoRegressive ∧ t.NoRegressive
  | .neg t => t.NoRegressive
  | .scale _ t => t.NoRegressive
  | .op s t => s.NoRegressive ∧ t.NoRegressive
  | .rp _ _ => False
  | .graded _ s t => s.NoRegressive ∧ t.NoRegressive
  | .reverse t => t.NoRegressive
  | .involute t => t.NoRegressive
  | .conjugate t => t.NoRegressive

/-- No regressive product occurs in the program with inverses. -/
def Rational.NoRegressive : Rational → Prop
  | .ret t => t.NoRegressive
  | .bind t rest => t.NoRegressive ∧ rest.NoRegressive
  | .inv t rest => t.NoRegressive ∧ rest.NoRegressive

/-- `T` maps the multivectors of the space and the products `m` to the products `m'`. -/
structure Transport (n : Nat) (m m' : Metric ℝ) (T : MV ℝ →ₗ[ℝ] MV ℝ) : Prop where
  mem : ∀ g A B, A ∈ space ℝ n → B ∈ space ℝ n → m g A B ∈ space ℝ n
  prod : ∀ g A B, A ∈ space ℝ n → B ∈ space ℝ n → T (m g A B) = m' g (T A) (T B)
  op : ∀ A B, A ∈ space ℝ n → B ∈ space ℝ n → T (op A B) = GATL.op (T A) (T B)
  scalar : ∀ a, T (scalar a) = Spec.scalar a
  grade : ∀ k A, A ∈ space ℝ n → T (gradePart k A) = gradePart k (T A)
  minus : ∀ p A, A ∈ space ℝ n → T (gradedUnaryMinus p A) = gradedUnaryMinus p (T A)
  inj : ∀ A B, A ∈ space ℝ n → B ∈ space ℝ n → T A = T B → A = B

/-- The sign that a sign change by grade gives to grade `k`. -/
def signAt (p : Word) (k : Nat) : ℝ := if p &&& ((1 : Word) <<< k) = 0 then 1 else -1

theorem minus_homog (p : Word) {k : Nat} {A : MV ℝ} (hA : Homogeneous k A) :
    gradedUnaryMinus p A = signAt p k • A := by
  unfold gradedUnaryMinus
  rw [Finsupp.linearCombination_apply, Finsupp.sum]
  conv_rhs => rw [← Finsupp.sum_single A, Finsupp.sum, Finset.smul_sum]
  refine Finset.sum_congr rfl fun b hb => ?_
  have hk : ones b = k := by
    rw [← gradeOf_eq]; exact hA b (Finsupp.mem_support_iff.1 hb)
  rw [hk, Finsupp.smul_single, Finsupp.smul_single]
  unfold signAt
  split_ifs <;> simp

theorem outerMap_minus {n : Nat} (hn : n ≤ 64) (P : (Fin n → ℝ) →ₗ[ℝ] (Fin n → ℝ)) (p : Word) {A : MV ℝ}
    (hA : A ∈ space ℝ n) : outerMap hn P (gradedUnaryMinus p A) = gradedUnaryMinus p (outerMap hn P A) :=
  outerMap_grades hn P (F := gradedUnaryMinus p) (s := signAt p)
    (by unfold gradedUnaryMinus; rw [map_zero]) (fun A B => by unfold gradedUnaryMinus; rw [map_add])
    (fun k A h => minus_homog p h) hA

namespace Transport

variable {n : Nat} {m m' : Metric ℝ} {T : MV ℝ →ₗ[ℝ] MV ℝ} (h : Transport n m m' T)
include h

theorem at_zero {A : MV ℝ} (hA : A ∈ space ℝ n) : T A 0 = A 0 := by
  have e : ∀ B : MV ℝ, gradePart 0 B = Spec.scalar (B 0) := by
    intro B
    ext b
    unfold gradePart Spec.scalar
    rw [Finsupp.filter_apply, Finsupp.single_apply]
    by_cases hb : b = 0
    · subst hb
      rw [if_pos rfl, if_pos (by rw [gradeOf_eq]; decide)]
    · rw [if_neg (Ne.symm hb), if_neg]
      intro hg
      exact hb (ones_eq_zero.1 (by rw [← gradeOf_eq]; exact_mod_cast hg))
  have := h.grade 0 A hA
  rw [e, e, h.scalar] at this
  have := congrArg (· 0) this
  simpa [Spec.scalar] using this.symm

theorem norm {A : MV ℝ} (hA : A ∈ space ℝ n) : rnormSqr m' (T A) = rnormSqr m A := by
  unfold rnormSqr
  have hr : GATL.reverse A ∈ space ℝ n := minus_space _ hA
  have h2 : GATL.reverse (T A) = T (GATL.reverse A) := (h.minus _ _ hA).symm
  rw [h2, ← h.prod _ _ _ hA hr, h.at_zero (h.mem _ _ _ hA hr)]

theorem value (hn : n ≤ 63) {As : List (MV ℝ)} (hA : ∀ A ∈ As, A ∈ space ℝ n) (t : Program) (ht : t.NoRegressive) :
    T (t.valueIn n m As) = t.valueIn n m' (As.map T) ∧ t.valueIn n m As ∈ space ℝ n := by
  have hs : ∀ t : Program, t.valueIn n m As ∈ space ℝ n := fun t =>
    (value_agree hn ⟨fun _ _ _ _ _ => rfl, h.mem⟩ hA t).2
  refine ⟨?_, hs t⟩
  induction t with
  | input i =>
    simp only [Program.valueIn, List.getD_eq_getElem?_getD, List.getElem?_map]
    cases As[i]? with
    | none => simp
    | some A => simp
  | lit v => exact h.scalar _
  | add s t ihs iht => simp only [Program.valueIn, map_add, ihs ht.1, iht ht.2]
  | sub s t ihs iht => simp only [Program.valueIn, map_sub, ihs ht.1, iht ht.2]
  | neg t ih => simp only [Program.valueIn, map_neg, ih ht]
  | scale v t ih => simp only [Program.valueIn, map_smul, ih ht]
  | op s t ihs iht => simp only [Program.valueIn, h.op _ _ (hs s) (hs t), ihs ht.1, iht ht.2]
  | rp s t => exact ht.elim
  | graded g s t ihs iht => simp only [Program.valueIn, h.prod _ _ _ (hs s) (hs t), ihs ht.1, iht ht.2]
  | reverse t ih => simp only [Program.valueIn, GATL.reverse, h.minus _ _ (hs t), ih ht]
  | involute t ih => simp only [Program.valueIn, GATL.involute, h.minus _ _ (hs t), ih ht]
  | conjugate t ih => simp only [Program.valueIn, GATL.conjugate, h.minus _ _ (hs t), ih ht]

theorem rational (hn : n ≤ 63) (t : Rational) : t.NoRegressive → ∀ {As : List (MV ℝ)}, (∀ A ∈ As, A ∈ space ℝ n) →
    (t.valueIn n m As).map T = t.valueIn n m' (As.map T) ∧ ∀ B, t.valueIn n m As = some B → B ∈ space ℝ n := by
  have snoc : ∀ {As : List (MV ℝ)} {A : MV ℝ}, (∀ A ∈ As, A ∈ space ℝ n) → A ∈ space ℝ n →
      ∀ B ∈ As ++ [A], B ∈ space ℝ n := by
    intro As A h1 h2 B hB
    rcases List.mem_append.1 hB with hB | hB
    · exact h1 B hB
    · rw [List.mem_singleton.1 hB]; exact h2
  induction t with
  | ret t =>
    intro ht As hA
    obtain ⟨h1, h2⟩ := h.value hn hA t ht
    refine ⟨by simp only [Rational.valueIn, Option.map_some, h1], fun B hB => ?_⟩
    simp only [Rational.valueIn, Option.some.injEq] at hB
    rwa [← hB]
  | bind t rest ih =>
    intro ht As hA
    obtain ⟨h1, h2⟩ := h.value hn hA t ht.1
    have := ih ht.2 (snoc hA h2)
    simpa only [Rational.valueIn, List.map_append, List.map_cons, List.map_nil, h1] using this
  | inv t rest ih =>
    intro ht As hA
    obtain ⟨h1, h2⟩ := h.value hn hA t ht.1
    have hr : GATL.reverse (t.valueIn n m As) ∈ space ℝ n := minus_space _ h2
    have e : rnormSqr m' (t.valueIn n m' (As.map T)) = rnormSqr m (t.valueIn n m As) := by rw [← h1, h.norm h2]
    have er : GATL.reverse (t.valueIn n m' (As.map T)) = T (GATL.reverse (t.valueIn n m As)) := by
      rw [← h1]; exact (h.minus _ _ h2).symm
    simp only [Rational.valueIn, e, er]
    split_ifs with h0
    · simp
    · have := ih ht.2 (snoc hA (Submodule.smul_mem _ (rnormSqr m (t.valueIn n m As))⁻¹ hr))
      simpa only [List.map_append, List.map_cons, List.map_nil, map_smul] using this

/-- A value follows from the value of the image. -/
theorem rational_eq (hn : n ≤ 63) (t : Rational) (ht : t.NoRegressive) {As : List (MV ℝ)} (hA : ∀ A ∈ As, A ∈ space ℝ n)
    {B : MV ℝ} (hB : B ∈ space ℝ n) (hv : t.valueIn n m' (As.map T) = some (T B)) : t.valueIn n m As = some B := by
  obtain ⟨h1, h2⟩ := h.rational hn t ht hA
  rw [hv] at h1
  cases hC : t.valueIn n m As with
  | none => rw [hC] at h1; simp at h1
  | some C =>
    rw [hC, Option.map_some, Option.some.injEq] at h1
    rw [h.inj _ _ (h2 C hC) hB h1]

/-- Duals. -/
theorem dual {I A : MV ℝ} (hI : I ∈ space ℝ n) (hA : A ∈ space ℝ n) :
    (GATL.dual m I A).map T = GATL.dual m' (T I) (T A) ∧ ∀ B, GATL.dual m I A = some B → B ∈ space ℝ n := by
  have hr : GATL.reverse I ∈ space ℝ n := minus_space _ hI
  have er : GATL.reverse (T I) = T (GATL.reverse I) := (h.minus _ _ hI).symm
  unfold GATL.dual GATL.inv
  rw [h.norm hI, er]
  unfold invScalar
  split_ifs with h0
  · simp
  · simp only [Option.map_some, realProd_scalar, Option.some.injEq, forall_eq']
    have hs := Submodule.smul_mem _ (rnormSqr m I)⁻¹ hr
    exact ⟨by rw [h.prod _ _ _ hA hs, map_smul], h.mem _ _ _ hA hs⟩

end Transport

end GATL
