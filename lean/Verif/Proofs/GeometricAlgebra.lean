import Verif.Props.General
import Verif.Proofs.Outermorphism
import Verif.Proofs.Metric

/-! The geometric algebra of a metric: there is only one. -/

namespace GATL

open Spec

variable {n : Nat} {M : Matrix (Fin n) (Fin n) ℝ} {m m' : Metric ℝ}

theorem gradePart_space (k : Int) {A : MV ℝ} (hA : A ∈ space ℝ n) : gradePart k A ∈ space ℝ n := by
  rw [mem_space] at hA ⊢
  intro b hb
  refine hA b fun h => hb ?_
  unfold gradePart
  rw [Finsupp.filter_apply, h, ite_self]

namespace Spec.GeometricAlgebra

theorem zero_left (h : GeometricAlgebra n M m) (g : GradedProduct) {B : MV ℝ} (hB : B ∈ space ℝ n) : m g 0 B = 0 := by
  have := h.add_left g 0 0 B (Submodule.zero_mem _) (Submodule.zero_mem _) hB
  simpa using this

theorem zero_right (h : GeometricAlgebra n M m) (g : GradedProduct) {B : MV ℝ} (hB : B ∈ space ℝ n) : m g B 0 = 0 := by
  have := h.add_right g B 0 0 hB (Submodule.zero_mem _) (Submodule.zero_mem _)
  simpa using this

theorem gp_space (h : GeometricAlgebra n M m) {A B : MV ℝ} (hA : A ∈ space ℝ n) (hB : B ∈ space ℝ n) :
    m .gp A B ∈ space ℝ n := by
  obtain ⟨Φ, -, -, h3⟩ := h.clifford
  obtain ⟨x, hx⟩ := Φ.surjective ⟨A, hA⟩
  obtain ⟨y, hy⟩ := Φ.surjective ⟨B, hB⟩
  have := h3 x y
  rw [hx, hy] at this
  rw [← this]
  exact Subtype.property _

theorem assoc (h : GeometricAlgebra n M m) {A B C : MV ℝ} (hA : A ∈ space ℝ n) (hB : B ∈ space ℝ n)
    (hC : C ∈ space ℝ n) : m .gp (m .gp A B) C = m .gp A (m .gp B C) := by
  obtain ⟨Φ, -, -, h3⟩ := h.clifford
  obtain ⟨x, hx⟩ := Φ.surjective ⟨A, hA⟩
  obtain ⟨y, hy⟩ := Φ.surjective ⟨B, hB⟩
  obtain ⟨z, hz⟩ := Φ.surjective ⟨C, hC⟩
  have hx : (Φ x : MV ℝ) = A := congrArg Subtype.val hx
  have hy : (Φ y : MV ℝ) = B := congrArg Subtype.val hy
  have hz : (Φ z : MV ℝ) = C := congrArg Subtype.val hz
  rw [← hx, ← hy, ← hz, ← h3, ← h3, ← h3, ← h3, mul_assoc]

theorem contract_eq (hn : n ≤ 64) (h : GeometricAlgebra n M m) (h' : GeometricAlgebra n M m') (v : Fin n → ℝ) {B : MV ℝ}
    (hB : B ∈ space ℝ n) : m .lcont (vectorOf v) B = m' .lcont (vectorOf v) B := by
  refine outer_induction hn (p := fun B => m .lcont (vectorOf v) B = m' .lcont (vectorOf v) B) hB ?_ ?_ ?_
  · intro a; rw [h.contract_scalar, h'.contract_scalar]
  · intro A B hA hB h1 h2
    rw [h.add_right _ _ _ _ (vectorOf_space v hn) hA hB, h'.add_right _ _ _ _ (vectorOf_space v hn) hA hB, h1, h2]
  · intro w A hA h1
    rw [h.contract_op _ _ _ hA, h'.contract_op _ _ _ hA, h1]

theorem gp_scalar (h : GeometricAlgebra n M m) (a : ℝ) {B : MV ℝ} (hB : B ∈ space ℝ n) : m .gp (scalar a) B = a • B := by
  obtain ⟨Φ, h1, -, h3⟩ := h.clifford
  obtain ⟨y, hy⟩ := Φ.surjective ⟨B, hB⟩
  have hy : (Φ y : MV ℝ) = B := congrArg Subtype.val hy
  have hs : (Φ (a • 1) : MV ℝ) = scalar a := by
    rw [map_smul, Submodule.coe_smul, h1]
    unfold scalar
    rw [Finsupp.smul_single, smul_eq_mul, mul_one]
  rw [← hs, ← hy, ← h3, smul_mul_assoc, one_mul, map_smul, Submodule.coe_smul]

theorem gp_eq (hn : n ≤ 64) (h : GeometricAlgebra n M m) (h' : GeometricAlgebra n M m') {A B : MV ℝ}
    (hA : A ∈ space ℝ n) (hB : B ∈ space ℝ n) : m .gp A B = m' .gp A B := by
  obtain ⟨Φ, h1, h2, h3⟩ := h.clifford
  obtain ⟨x, hx⟩ := Φ.surjective ⟨A, hA⟩
  have hx : (Φ x : MV ℝ) = A := congrArg Subtype.val hx
  rw [← hx]
  clear * - h h' hB h1 h2 h3 hn
  induction x using CliffordAlgebra.left_induction generalizing B with
  | algebraMap a =>
    have hs : (Φ (algebraMap ℝ _ a) : MV ℝ) = scalar a := by
      rw [Algebra.algebraMap_eq_smul_one, map_smul, Submodule.coe_smul, h1]
      unfold scalar
      rw [Finsupp.smul_single, smul_eq_mul, mul_one]
    rw [hs, h.gp_scalar a hB, h'.gp_scalar a hB]
  | add x y hx hy =>
    rw [map_add, Submodule.coe_add, h.add_left _ _ _ _ (Subtype.property _) (Subtype.property _) hB,
      h'.add_left _ _ _ _ (Subtype.property _) (Subtype.property _) hB, hx hB, hy hB]
  | ι_mul x v hx =>
    have hv : ∀ {C : MV ℝ}, C ∈ space ℝ n → m .gp (vectorOf v) C = m' .gp (vectorOf v) C := fun hC => by
      rw [h.vector _ _ hC, h'.vector _ _ hC, contract_eq hn h h' v hC]
    have hvs : vectorOf v ∈ space ℝ n := vectorOf_space v hn
    rw [h3, h2, h.assoc hvs (Subtype.property _) hB, hx hB, hv (h'.gp_space (Subtype.property _) hB),
      hv (Subtype.property _), h'.assoc hvs (Subtype.property _) hB]

theorem induction₂ (h : GeometricAlgebra n M m) (g : GradedProduct) {p : MV ℝ → MV ℝ → MV ℝ → Prop}
    (h0 : ∀ A B, A ∈ space ℝ n → B ∈ space ℝ n → p A 0 0 ∧ p 0 B 0)
    (h1 : ∀ A B C X Y, p A C X → p B C Y → p (A + B) C (X + Y)) (h2 : ∀ A B C X Y, p A B X → p A C Y → p A (B + C) (X + Y))
    (hs : ∀ a b x y, InSpace n a → InSpace n b → p (Finsupp.single a x) (Finsupp.single b y)
      (m g (Finsupp.single a x) (Finsupp.single b y))) {A B : MV ℝ} (hA : A ∈ space ℝ n) (hB : B ∈ space ℝ n) :
    p A B (m g A B) := by
  have key : ∀ A, A ∈ space ℝ n → A ∈ space ℝ n ∧ p A B (m g A B) := by
    intro A hA
    refine space_eq_sum (p := fun A => A ∈ space ℝ n ∧ p A B (m g A B)) hA
      ⟨Submodule.zero_mem _, by rw [h.zero_left g hB]; exact (h0 _ _ hB hB).2⟩ ?_ ?_
    · rintro A A' ⟨s1, p1⟩ ⟨s2, p2⟩
      exact ⟨Submodule.add_mem _ s1 s2, by rw [h.add_left _ _ _ _ s1 s2 hB]; exact h1 _ _ _ _ _ p1 p2⟩
    intro a x ha
    refine ⟨single_mem_space x ha, ?_⟩
    have hsa : (Finsupp.single a x : MV ℝ) ∈ space ℝ n := single_mem_space x ha
    have key' : B ∈ space ℝ n ∧ p (Finsupp.single a x) B (m g (Finsupp.single a x) B) := by
      refine space_eq_sum (p := fun B => B ∈ space ℝ n ∧ p (Finsupp.single a x) B (m g (Finsupp.single a x) B)) hB
        ⟨Submodule.zero_mem _, by rw [h.zero_right g hsa]; exact (h0 _ _ hsa hsa).1⟩ ?_ ?_
      · rintro A A' ⟨s1, p1⟩ ⟨s2, p2⟩
        exact ⟨Submodule.add_mem _ s1 s2, by rw [h.add_right _ _ _ _ hsa s1 s2]; exact h2 _ _ _ _ _ p1 p2⟩
      · intro b y hb
        exact ⟨single_mem_space y hb, hs a b x y ha hb⟩
    exact key'.2
  exact (key A hA).2

/-- The squared norm of a vector. -/
theorem norm_vector (hn : n ≤ 64) (h : GeometricAlgebra n M m) (v : Fin n → ℝ) :
    rnormSqr m (vectorOf v) = ∑ i, ∑ j, v i * M i j * v j := by
  have hv := vectorOf_homog v hn
  have sv := vectorOf_space v hn
  have s1 : (scalar 1 : MV ℝ) ∈ space ℝ n := single_mem_space _ (by simp)
  unfold rnormSqr
  rw [Iso.reverse_vec hv, (h.parts 1 1 _ _ sv sv hv hv).2.2.2.2]
  have h0 : gradePart 0 (m .gp (vectorOf v) (vectorOf v)) 0 = m .gp (vectorOf v) (vectorOf v) 0 := by
    unfold gradePart
    rw [Finsupp.filter_apply, if_pos (by decide)]
  have h1 : op (vectorOf v) (vectorOf v) (0 : Word) = 0 := by
    by_contra hc
    have := Iso.op_homog hv hv 0 hc
    revert this; decide
  have h2 : op (vectorOf v) (scalar 1) = vectorOf v := by
    rw [op_scalar_right, one_smul]
  have h3 := h.contract_op v v _ s1
  rw [h.contract_scalar, h2] at h3
  rw [h0, h.vector v _ sv, Finsupp.add_apply, h1, zero_add, h3]
  have h4 : op (vectorOf v) 0 = 0 := by unfold op; exact map_zero _
  rw [h4, sub_zero, Finsupp.smul_apply]
  simp [scalar]

theorem prod_space (h : GeometricAlgebra n M m) (g : GradedProduct) {A B : MV ℝ} (hA : A ∈ space ℝ n)
    (hB : B ∈ space ℝ n) : m g A B ∈ space ℝ n := by
  refine h.induction₂ g (p := fun _ _ X => X ∈ space ℝ n) (fun _ _ _ _ => ⟨Submodule.zero_mem _, Submodule.zero_mem _⟩)
    (fun _ _ _ _ _ => Submodule.add_mem _) (fun _ _ _ _ _ => Submodule.add_mem _) (fun a b x y ha hb => ?_) hA hB
  have sa : (Finsupp.single a x : MV ℝ) ∈ space ℝ n := single_mem_space x ha
  have sb : (Finsupp.single b y : MV ℝ) ∈ space ℝ n := single_mem_space y hb
  obtain ⟨p1, p2, p3, p4, p5⟩ := h.parts (ones a) (ones b) _ _ sa sb (homog_single x rfl) (homog_single y rfl)
  have hg := h.gp_space sa sb
  cases g
  · exact hg
  · rw [p1]; exact gradePart_space _ hg
  · rw [p2]; exact gradePart_space _ hg
  · rw [p3]; exact gradePart_space _ hg
  · rw [p4]; split_ifs; exacts [Submodule.zero_mem _, gradePart_space _ hg]
  · rw [p5]; exact gradePart_space _ hg

/-- There is only one geometric algebra of a metric. -/
theorem unique (hn : n ≤ 64) (h : GeometricAlgebra n M m) (h' : GeometricAlgebra n M m') (g : GradedProduct) {A B : MV ℝ}
    (hA : A ∈ space ℝ n) (hB : B ∈ space ℝ n) : m g A B = m' g A B := by
  have := h.induction₂ g (p := fun A B X => A ∈ space ℝ n ∧ B ∈ space ℝ n ∧ X = m' g A B)
    (fun A B hA hB => ⟨⟨hA, Submodule.zero_mem _, (h'.zero_right g hA).symm⟩,
      Submodule.zero_mem _, hB, (h'.zero_left g hB).symm⟩)
    (fun A B C X Y h1 h2 => ⟨Submodule.add_mem _ h1.1 h2.1, h1.2.1, by
      rw [h1.2.2, h2.2.2, h'.add_left _ _ _ _ h1.1 h2.1 h1.2.1]⟩)
    (fun A B C X Y h1 h2 => ⟨h1.1, Submodule.add_mem _ h1.2.1 h2.2.1, by
      rw [h1.2.2, h2.2.2, h'.add_right _ _ _ _ h1.1 h1.2.1 h2.2.1]⟩) (fun a b x y ha hb => ?_) hA hB
  · exact this.2.2
  have sa : (Finsupp.single a x : MV ℝ) ∈ space ℝ n := single_mem_space x ha
  have sb : (Finsupp.single b y : MV ℝ) ∈ space ℝ n := single_mem_space y hb
  refine ⟨sa, sb, ?_⟩
  obtain ⟨p1, p2, p3, p4, p5⟩ := h.parts (ones a) (ones b) _ _ sa sb (homog_single x rfl) (homog_single y rfl)
  obtain ⟨q1, q2, q3, q4, q5⟩ := h'.parts (ones a) (ones b) _ _ sa sb (homog_single x rfl) (homog_single y rfl)
  have hg := gp_eq hn h h' sa sb
  cases g
  · exact hg
  · rw [p1, q1, hg]
  · rw [p2, q2, hg]
  · rw [p3, q3, hg]
  · rw [p4, q4, hg]
  · rw [p5, q5, hg]

end Spec.GeometricAlgebra

/-! ## Existence -/

/-- The products of the library in up to seven dimensions. -/
theorem geometricAlgebra_gen (hn : n ≤ 7) (q : Nat → Nat → ℝ) {fuel : Nat} (hf : 2 ^ n < fuel) :
    GeometricAlgebra n (Props.metricMatrix q n) (fun g A B => genProd fuel q n g A B) := by
  have h64 : n ≤ 64 := by omega
  have small : ∀ {B : MV ℝ} {s : Nat}, B ∈ space ℝ n → Homogeneous s B → B ≠ 0 → s ≤ 7 := by
    intro B s hB hs h0
    obtain ⟨b, hb⟩ := Finsupp.ne_iff.1 h0
    rw [← hs b hb, gradeOf_eq]
    exact (inSpace_ones (by omega) (space_inSpace hB hb)).trans hn
  have vec : ∀ (v w : Fin n → ℝ) (b : Word) (y a : ℝ), InSpace n b → _ := fun v w b y a hb =>
    Props.C18_vector_partial q (n := n) (by omega) v w (single_mem_space y hb)
      (homog_single y rfl) ((inSpace_ones (by omega) hb).trans hn) a fuel hf
  refine ⟨?_, ?_, ?_, ?_, ?_, ?_, ?_⟩
  · intro g A B C _ _ _; simp only [map_add, LinearMap.add_apply]
  · intro g A B C _ _ _; simp only [map_add]
  · obtain ⟨Φ, h1, h2, h3⟩ := Props.C18_clifford_small_partial q hn
    exact ⟨Φ, h1, h2, h3 fuel hf⟩
  · intro v B hB
    refine space_eq_sum (p := fun B => genProd fuel q n .gp (vectorOf v) B
      = op (vectorOf v) B + genProd fuel q n .lcont (vectorOf v) B) hB ?_ ?_ ?_
    · simp only [map_zero, op_zero_right, add_zero]
    · intro A B h1 h2; rw [map_add, map_add, h1, h2, op_add_right]; abel
    · intro b y hb; exact (vec v v b y 0 hb).1
  · intro v a
    exact (vec v v 0 0 a (by intro i hi; simp at hi)).2.1
  · intro v w B hB
    refine space_eq_sum (p := fun B => genProd fuel q n .lcont (vectorOf v) (op (vectorOf w) B)
      = (∑ i, ∑ j, w i * Props.metricMatrix q n i j * v j) • B
        - op (vectorOf w) (genProd fuel q n .lcont (vectorOf v) B)) hB ?_ ?_ ?_
    · simp only [op_zero_right, map_zero, smul_zero, sub_zero]
    · intro A B h1 h2; simp only [map_add, op_add_right, smul_add, h1, h2]; abel
    · intro b y hb; exact (vec v w b y 0 hb).2.2.2
  · intro r s A B hA hB hr hs
    by_cases hA0 : A = 0
    · subst hA0
      simp only [map_zero, LinearMap.zero_apply]
      refine ⟨?_, ?_, ?_, ?_, ?_⟩ <;> simp [gradePart, Finsupp.filter_zero]
    by_cases hB0 : B = 0
    · subst hB0
      simp only [map_zero]
      refine ⟨?_, ?_, ?_, ?_, ?_⟩ <;> simp [gradePart, Finsupp.filter_zero]
    have h1 := small hA hr hA0
    have h2 := small hB hs hB0
    obtain ⟨p1, p2, p3, p4, p5, -⟩ := Props.C18_grade_parts_partial q (n := n) (by omega) hA hB hr hs (by omega) (by omega)
      fuel hf
    exact ⟨p1, p2, p3, p4, p5⟩

/-! ## The values of programs depend only on the algebra -/

theorem minus_space (pattern : Word) {A : MV ℝ} (hA : A ∈ space ℝ n) : gradedUnaryMinus pattern A ∈ space ℝ n := by
  refine space_eq_sum (p := fun A => gradedUnaryMinus pattern A ∈ space ℝ n) hA ?_ ?_ ?_
  · unfold gradedUnaryMinus; rw [map_zero]; exact Submodule.zero_mem _
  · intro A B h1 h2
    unfold gradedUnaryMinus at h1 h2 ⊢
    rw [map_add]; exact Submodule.add_mem _ h1 h2
  · intro b x hb
    unfold gradedUnaryMinus
    rw [Finsupp.linearCombination_single]
    exact Submodule.smul_mem _ _ (single_mem_space _ hb)

/-- The products agree on the multivectors of the space and do not leave it. -/
structure SameProducts (n : Nat) (m m' : Metric ℝ) : Prop where
  eq : ∀ g A B, A ∈ space ℝ n → B ∈ space ℝ n → m g A B = m' g A B
  mem : ∀ g A B, A ∈ space ℝ n → B ∈ space ℝ n → m g A B ∈ space ℝ n

theorem value_agree (hn : n ≤ 63) (h : SameProducts n m m') {As : List (MV ℝ)} (hA : ∀ A ∈ As, A ∈ space ℝ n) (t : Program) :
    t.valueIn n m As = t.valueIn n m' As ∧ t.valueIn n m As ∈ space ℝ n := by
  induction t with
  | input i =>
    refine ⟨rfl, ?_⟩
    simp only [Program.valueIn, List.getD_eq_getElem?_getD]
    cases hi : As[i]? with
    | none => exact Submodule.zero_mem _
    | some A => exact hA A (List.mem_of_getElem? hi)
  | lit v => exact ⟨rfl, scalar_space _⟩
  | add s t hs ht => simp only [Program.valueIn]; exact ⟨by rw [hs.1, ht.1], Submodule.add_mem _ hs.2 ht.2⟩
  | sub s t hs ht => simp only [Program.valueIn]; exact ⟨by rw [hs.1, ht.1], Submodule.sub_mem _ hs.2 ht.2⟩
  | neg t ht => simp only [Program.valueIn]; exact ⟨by rw [ht.1], Submodule.neg_mem _ ht.2⟩
  | scale v t ht => simp only [Program.valueIn]; exact ⟨by rw [ht.1], Submodule.smul_mem _ _ ht.2⟩
  | op s t hs ht => simp only [Program.valueIn]; exact ⟨by rw [hs.1, ht.1], op_space (by omega) hs.2 ht.2⟩
  | rp s t hs ht => simp only [Program.valueIn]; exact ⟨by rw [hs.1, ht.1], rp_mem n hs.2 ht.2⟩
  | graded g s t hs ht =>
    simp only [Program.valueIn]
    exact ⟨by rw [h.eq g _ _ hs.2 ht.2, hs.1, ht.1], h.mem g _ _ hs.2 ht.2⟩
  | reverse t ht => simp only [Program.valueIn]; exact ⟨by rw [ht.1], minus_space _ ht.2⟩
  | involute t ht => simp only [Program.valueIn]; exact ⟨by rw [ht.1], minus_space _ ht.2⟩
  | conjugate t ht => simp only [Program.valueIn]; exact ⟨by rw [ht.1], minus_space _ ht.2⟩

theorem rationalValue_agree (hn : n ≤ 63) (h : SameProducts n m m') (t : Rational) :
    ∀ {As : List (MV ℝ)}, (∀ A ∈ As, A ∈ space ℝ n) → t.valueIn n m As = t.valueIn n m' As := by
  have snoc : ∀ {As : List (MV ℝ)} {A : MV ℝ}, (∀ A ∈ As, A ∈ space ℝ n) → A ∈ space ℝ n →
      ∀ B ∈ As ++ [A], B ∈ space ℝ n := by
    intro As A h1 h2 B hB
    rcases List.mem_append.1 hB with hB | hB
    · exact h1 B hB
    · rw [List.mem_singleton.1 hB]; exact h2
  induction t with
  | ret t => intro As hA; simp only [Rational.valueIn, (value_agree hn h hA t).1]
  | bind t rest ih =>
    intro As hA
    have := value_agree hn h hA t
    simp only [Rational.valueIn]
    rw [ih (snoc hA this.2), this.1]
  | inv t rest ih =>
    intro As hA
    have := value_agree hn h hA t
    have hr : reverse (t.valueIn n m As) ∈ space ℝ n := minus_space _ this.2
    simp only [Rational.valueIn]
    rw [ih (snoc hA (Submodule.smul_mem _ _ hr))]
    have hx : rnormSqr m (t.valueIn n m As) = rnormSqr m' (t.valueIn n m' As) := by
      unfold rnormSqr
      rw [h.eq _ _ _ this.2 hr, this.1]
    rw [hx, this.1]

theorem agree_unique (hn : n ≤ 64) (h : GeometricAlgebra n M m) (h' : GeometricAlgebra n M m') : SameProducts n m m' :=
  ⟨fun g _ _ hA hB => h.unique hn h' g hA hB, fun g _ _ hA hB => h.prod_space g hA hB⟩

end GATL
