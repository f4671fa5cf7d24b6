import Verif.Proofs.Forms

/-! Helper lemmas: homogeneous multivectors and grade parts. -/

namespace GATL
open Spec

variable {K : Type*} [CommRing K]

theorem homog_induction {k : Nat} {A : MV K} {p : MV K → Prop} (hA : Homogeneous k A) (h0 : p 0)
    (hadd : ∀ A B, p A → p B → p (A + B))
    (hs : ∀ b a, ones b = k → p (Finsupp.single b a)) : p A := by
  rw [← Finsupp.sum_single A]
  unfold Finsupp.sum
  refine Finset.sum_induction _ p hadd h0 fun b hb => hs b _ ?_
  rw [← gradeOf_eq]
  exact hA b (Finsupp.mem_support_iff.mp hb)

theorem homog_zero (k : Nat) : Homogeneous k (0 : MV K) := fun b h => absurd rfl h

theorem homog_add {k : Nat} {A B : MV K} (hA : Homogeneous k A) (hB : Homogeneous k B) :
    Homogeneous k (A + B) := by
  intro b h
  by_cases h' : A b = 0
  · by_cases h'' : B b = 0
    · exact absurd (by rw [Finsupp.add_apply, h', h'', add_zero]) h
    · exact hB b h''
  · exact hA b h'

theorem homog_smul {k : Nat} {A : MV K} (a : K) (hA : Homogeneous k A) : Homogeneous k (a • A) := by
  intro b h
  refine hA b fun h' => h ?_
  rw [Finsupp.smul_apply, h', smul_zero]

theorem homog_single {k : Nat} {b : Word} (a : K) (h : ones b = k) :
    Homogeneous k (Finsupp.single b a : MV K) := by
  classical
  intro c hc
  rw [Finsupp.single_apply] at hc
  split at hc
  · rename_i h'; subst h'; rw [gradeOf_eq]; exact h
  · exact absurd rfl hc

theorem gradePart_single (k : Int) (b : Word) (a : K) :
    gradePart k (Finsupp.single b a : MV K) = if (ones b : Int) = k then Finsupp.single b a else 0 := by
  unfold gradePart
  split
  · rename_i h
    exact Finsupp.filter_single_of_pos _ (by rw [gradeOf_eq]; exact h)
  · rename_i h
    exact Finsupp.filter_single_of_neg _ (by rw [gradeOf_eq]; exact h)

theorem gradePart_add (k : Int) (A B : MV K) :
    gradePart k (A + B) = gradePart k A + gradePart k B := Finsupp.filter_add

theorem gradePart_zero (k : Int) : gradePart k (0 : MV K) = 0 := Finsupp.filter_zero _

theorem gradePart_smul (k : Int) (a : K) (A : MV K) :
    gradePart k (a • A) = a • gradePart k A := Finsupp.filter_smul

/-- a grade-selected product of homogeneous multivectors is a grade part of another product -/
theorem bilin_gradePart {r s : Nat} {A B : MV K} (hA : Homogeneous r A) (hB : Homogeneous s B)
    (m m' : BladeMul K) (k : Int)
    (h : ∀ L R, ones L = r → ones R = s →
      (Finsupp.single (m L R).2 (m L R).1 : MV K)
        = if (ones (m' L R).2 : Int) = k then Finsupp.single (m' L R).2 (m' L R).1 else 0) :
    bilin m A B = gradePart k (bilin m' A B) := by
  refine homog_induction (p := fun A => bilin m A B = gradePart k (bilin m' A B)) hA ?_ ?_ ?_
  · simp [gradePart_zero]
  · intro A A' h h'; simp only [map_add, LinearMap.add_apply, gradePart_add, h, h']
  · intro L a hL
    refine homog_induction (p := fun B => bilin m (Finsupp.single L a) B
      = gradePart k (bilin m' (Finsupp.single L a) B)) hB ?_ ?_ ?_
    · simp [gradePart_zero]
    · intro A A' h h'; simp only [map_add, gradePart_add, h, h']
    · intro R b hR
      have := congrArg (fun x => (a * b) • x) (h L R hL hR)
      simp only [Finsupp.smul_single, smul_eq_mul, smul_ite, smul_zero] at this
      rw [bilin_single, bilin_single, gradePart_single, this]

theorem bilin_homog {r s k : Nat} {A B : MV K} (hA : Homogeneous r A) (hB : Homogeneous s B)
    (m : BladeMul K) (h : ∀ L R, ones L = r → ones R = s → (m L R).1 ≠ 0 → ones (m L R).2 = k) :
    Homogeneous k (bilin m A B) := by
  refine homog_induction (p := fun A => Homogeneous k (bilin m A B)) hA ?_ ?_ ?_
  · simp [homog_zero]
  · intro A A' h h'; rw [map_add]; exact homog_add h h'
  · intro L a hL
    refine homog_induction (p := fun B => Homogeneous k (bilin m (Finsupp.single L a) B)) hB ?_ ?_ ?_
    · simp [homog_zero]
    · intro A A' h h'; rw [map_add]; exact homog_add h h'
    · intro R b hR
      rw [bilin_single]
      by_cases hz : (m L R).1 = 0
      · rw [hz, mul_zero, Finsupp.single_zero]; exact homog_zero _
      · exact homog_single _ (h L R hL hR hz)

/-- comparing two products with swapped arguments on homogeneous multivectors -/
theorem bilin_comm {r s : Nat} {A B : MV K} (hA : Homogeneous r A) (hB : Homogeneous s B)
    (m m' : BladeMul K) (c : K)
    (h : ∀ L R, ones L = r → ones R = s →
      (Finsupp.single (m L R).2 (m L R).1 : MV K) = Finsupp.single (m' R L).2 (c * (m' R L).1)) :
    bilin m A B = c • bilin m' B A := by
  refine homog_induction (p := fun A => bilin m A B = c • bilin m' B A) hA ?_ ?_ ?_
  · simp
  · intro A A' h h'; simp only [map_add, LinearMap.add_apply, smul_add, h, h']
  · intro L a hL
    refine homog_induction (p := fun B => bilin m (Finsupp.single L a) B
      = c • bilin m' B (Finsupp.single L a)) hB ?_ ?_ ?_
    · simp
    · intro A A' h h'; simp only [map_add, LinearMap.add_apply, smul_add, h, h']
    · intro R b hR
      have := congrArg (fun x => (a * b) • x) (h L R hL hR)
      simp only [Finsupp.smul_single, smul_eq_mul] at this
      rw [bilin_single, bilin_single, this, Finsupp.smul_single, smul_eq_mul]
      congr 1; ring

theorem ones_bit (i : Fin 64) : ones (bit i) = 1 := by
  rw [ones_eq_card, vecs_bit, Finset.card_singleton]

theorem vecs_inj {x y : Word} (h : vecs x = vecs y) : x = y := by
  apply word_ext
  intro i hi
  have := congrArg (fun s => (⟨i, hi⟩ : Fin 64) ∈ s) h
  simp only [vecs, Finset.mem_filter, Finset.mem_univ, true_and, eq_iff_iff] at this
  exact Bool.eq_iff_iff.mpr this

theorem ones_eq_one {b : Word} (h : ones b = 1) : ∃ i : Fin 64, b = bit i := by
  rw [ones_eq_card, Finset.card_eq_one] at h
  obtain ⟨i, hi⟩ := h
  exact ⟨i, vecs_inj (by rw [hi, vecs_bit])⟩

/-- vectors are linear combinations of the basis vectors -/
theorem homog_one {A : MV K} (hA : Homogeneous 1 A) :
    ∃ c : Fin 64 → K, A = ∑ i, c i • (Finsupp.single (bit i) 1 : MV K) := by
  refine homog_induction (p := fun A => ∃ c : Fin 64 → K,
    A = ∑ i, c i • (Finsupp.single (bit i) 1 : MV K)) hA ?_ ?_ ?_
  · exact ⟨0, by simp⟩
  · rintro A B ⟨c, rfl⟩ ⟨d, rfl⟩
    exact ⟨c + d, by simp only [Pi.add_apply, add_smul, Finset.sum_add_distrib]⟩
  · intro b a hb
    obtain ⟨i, rfl⟩ := ones_eq_one hb
    refine ⟨Pi.single i a, ?_⟩
    rw [Finset.sum_eq_single i]
    · rw [Pi.single_eq_same, Finsupp.smul_single, smul_eq_mul, mul_one]
    · intro j _ hj; rw [Pi.single_eq_of_ne hj, zero_smul]
    · simp

theorem vec_sq_homog (q : Fin 64 → K) {A : MV K} (hA : Homogeneous 1 A) :
    ∃ c : K, orthProd (diagFactor q) .gp A A = Finsupp.single 0 c := by
  obtain ⟨c, rfl⟩ := homog_one hA
  refine ⟨∑ i, q i * (c i * c i), ?_⟩
  refine (Cl.vec_sq q c).trans ?_
  rw [Cl.one_eq_blade]
  exact (Cl.single_eq q _ _).symm

end GATL
