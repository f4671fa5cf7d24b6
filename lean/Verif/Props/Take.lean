import Verif.Proofs.TakeRuntime
import Verif.Props.Lazy

/-!
# Grades and grade parts

**C31** (`grade`, `largest_grade`), **C32** (`take_grade`, `take_largest_grade`), **C49** (`dp`).

`Represents ρ n M A` says that the object `M` stands for the multivector `A` of a space with `n` dimensions
(its basis blades are part of its type).  `Verif/Spec/Take.lean` says what the grade of a set of basis blades
is, and which basis blades are significant.
-/

namespace GATL.Props

open Expr Spec

variable {τ : Types} {ρ : Env}

/-! ## C31 -/

/-- What the flags of a grade mean: 0 is `SINGLE_GRADE`, -1 is `MIXED_GRADE`, -2 is `UNDETERMINED_GRADE`. -/
theorem flag_of_grade {sig : Word → Prop} {g : ℤ} (h : IsGrade sig g) :
    (gradeFlag g = 0 ↔ (∃ b, sig b) ∧ ∀ b c, sig b → sig c → gradeOf b = gradeOf c) ∧
    (gradeFlag g = -1 ↔ ∃ b c, sig b ∧ sig c ∧ gradeOf b ≠ gradeOf c) ∧
    (gradeFlag g = -2 ↔ ∀ b, ¬ sig b) := by
  rcases h with ⟨h, rfl⟩ | ⟨⟨b, hb⟩, h⟩ | ⟨⟨b, c, hb, hc, hbc⟩, rfl⟩
  · refine ⟨?_, ?_, by simp [gradeFlag, h]⟩
    · simp only [gradeFlag]
      constructor
      · intro h; norm_num at h
      · rintro ⟨⟨b, hb⟩, -⟩; exact absurd hb (h b)
    · simp only [gradeFlag]
      constructor
      · intro h; norm_num at h
      · rintro ⟨b, c, hb, -⟩; exact absurd hb (h b)
  · have h0 : 0 ≤ g := by rw [← h b hb]; omega
    have e : gradeFlag g = 0 := by rw [gradeFlag, if_pos h0]
    have hs : ∀ b c, sig b → sig c → gradeOf b = gradeOf c := fun b c hb hc => by
      have := h b hb; have := h c hc; omega
    rw [e]
    refine ⟨⟨fun _ => ⟨⟨b, hb⟩, hs⟩, fun _ => rfl⟩, ⟨fun h => by norm_num at h, ?_⟩, ⟨fun h => by norm_num at h, ?_⟩⟩
    · rintro ⟨x, y, hx, hy, hxy⟩; exact absurd (hs x y hx hy) hxy
    · intro hn; exact absurd hb (hn b)
  · have e : gradeFlag (-1) = -1 := by decide
    rw [e]
    refine ⟨⟨fun h => by norm_num at h, ?_⟩, ⟨fun _ => ⟨b, c, hb, hc, hbc⟩, fun _ => rfl⟩,
      ⟨fun h => by norm_num at h, ?_⟩⟩
    · rintro ⟨-, hs⟩; exact absurd (hs b c hb hc) hbc
    · intro hn; exact absurd hb (hn b)

/-- **C31** `grade(A, tol)` compiles, and its value and its flag say which grades the components of `A` above
the tolerance have. -/
theorem C31_grade (n k : Nat) (hn : n ≤ 63) {M T : Object} {A : MV ℝ} {tol : ℝ} (hM : Represents ρ n M A)
    (hT : ScalarValue ρ n T tol) (h0 : 0 ≤ tol) (hs : Negatable M.expr) :
    ∃ o, ∃ g : ℤ, grade (k + 2) τ ρ M T = some o ∧ ScalarValue ρ n o g ∧ IsGrade (Above tol A) g ∧
      (gradeFlag g = 0 ↔ (∃ b, Above tol A b) ∧ ∀ b c, Above tol A b → Above tol A c → gradeOf b = gradeOf c) ∧
      (gradeFlag g = -1 ↔ ∃ b c, Above tol A b ∧ Above tol A c ∧ gradeOf b ≠ gradeOf c) ∧
      (gradeFlag g = -2 ↔ ∀ b, ¬ Above tol A b) := by
  obtain ⟨o, g, h1, h2, h3⟩ := grade_call (τ := τ) (k := k) hn hM hT h0 hs
  exact ⟨o, g, h1, h2, h3, flag_of_grade h3⟩

/-- **C31** `largest_grade(A, tol)` compiles, and its value is the largest grade of a component of `A` above
the tolerance (-2 if there is none). -/
theorem C31_largest_grade (n k : Nat) (hn : n ≤ 63) {M T : Object} {A : MV ℝ} {tol : ℝ}
    (hM : Represents ρ n M A) (hT : ScalarValue ρ n T tol) (h0 : 0 ≤ tol) (hs : Negatable M.expr) :
    ∃ o, ∃ g : ℤ, largestGrade (k + 2) τ ρ M T = some o ∧ ScalarValue ρ n o g ∧ IsLargestGrade (Above tol A) g :=
  largestGrade_call hn hM hT h0 hs

/-- A number, e.g. a tolerance. -/
abbrev scalarObj (x : ℝ) : Object := ⟨true, [⟨.stored, .const 0⟩], [x], []⟩

theorem scalarObj_value (n : Nat) (x : ℝ) : ScalarValue ρ n (scalarObj x) x := by
  refine ⟨⟨_, rfl⟩, ⟨canonical_single ⟨0, rfl, by simp [vecs]⟩, by simp⟩, ?_⟩
  have h1 : WellTyped n (x, TBlade.const 0) := by simp [WellTyped, vecs]
  simpa [TBlade.bits] using Reads.cons (.stored x) (.const 0) h1 (Reads.nil (ρ := ρ))

-- vectors, and vectors with a literal coordinate, meet the hypotheses
example (x y tol : ℝ) : Represents ρ 3 (vecObj x y) (Finsupp.single 1 x + Finsupp.single 2 y) ∧
    ScalarValue ρ 3 (scalarObj tol) tol ∧ Negatable (vecObj x y).expr := by
  refine ⟨vec_represents x y, scalarObj_value 3 tol, ?_⟩
  intro c hc v hv
  simp only [List.mem_cons, List.not_mem_nil, or_false] at hc
  rcases hc with rfl | rfl <;> cases hv

-- the grade of `3 e1 + 0 e2` is 1, the grade of `5 + 3 e1` is mixed, the grade of 0 is undetermined
example : IsGrade (Above 0 (Finsupp.single (1 : Word) (3 : ℝ))) 1 := by
  refine .inr (.inl ⟨⟨1, by simp [Above]⟩, fun b hb => ?_⟩)
  have : b = 1 := by
    by_contra h
    rw [Above, Finsupp.single_apply, if_neg (Ne.symm h)] at hb
    simp at hb
  subst this
  decide
example : IsGrade (Above 0 (Finsupp.single (0 : Word) (5 : ℝ) + Finsupp.single 1 3)) (-1) :=
  .inr (.inr ⟨⟨0, 1, by simp [Above], by simp [Above], by decide⟩, rfl⟩)
example : IsGrade (Above 0 (0 : MV ℝ)) (-2) := .inl ⟨fun b h => by simp [Above] at h, rfl⟩

/-- **C31** With basis blades that are chosen at run time, in evaluated multivectors: `grade` and
`largest_grade` compile, and they report the grade of the components above the tolerance.  If the components
have different basis blades, then these are the components of the multivector.

Missing: components with the same basis blade, where it is false (`C31_runtime_blades_is_false`). -/
theorem C31_runtime_blades_partial (n k : Nat) (hn : n ≤ 63) {M T : Object} {V : List (ℝ × TBlade)} {tol : ℝ}
    (hM : HasComponents ρ n M V) (hT : ScalarValue ρ n T tol) (h0 : 0 ≤ tol) (hs : Negatable M.expr) :
    (∃ o, ∃ g : ℤ, grade (k + 2) τ ρ M T = some o ∧ ScalarValue ρ n o g ∧ IsGrade (AboveIn tol V) g ∧
      ((V.map fun p => p.2.bits).Nodup → IsGrade (Above tol (Spec.sumOf V)) g)) ∧
    ∃ o, ∃ g : ℤ, largestGrade (k + 2) τ ρ M T = some o ∧ ScalarValue ρ n o g ∧ IsLargestGrade (AboveIn tol V) g ∧
      ((V.map fun p => p.2.bits).Nodup → IsLargestGrade (Above tol (Spec.sumOf V)) g) := by
  obtain ⟨o, g, h1, h2, h3⟩ := grade_runtime (τ := τ) (k := k) hn hM hT hs
  obtain ⟨o', g', h1', h2', h3'⟩ := largestGrade_runtime (τ := τ) (k := k) hn hM hT hs
  exact ⟨⟨o, g, h1, h2, h3, fun hd => (isGrade_congr (above_iff_distinct h0 hd) g).2 h3⟩,
    o', g', h1', h2', h3', fun hd => (isLargest_congr (above_iff_distinct h0 hd) g').2 h3'⟩

/-- The object `x * e1 + y * e(i)` for a run-time index `i`: `w` has the bit `i - 1`. -/
abbrev mixedObj (x : ℝ) (w : Word) : Object :=
  ⟨true, [⟨.stored, .const 1⟩, ⟨.const 1, .dyn 2 .storedBits⟩], [x], [w]⟩

theorem mixedObj_components (x : ℝ) (w : Word) (hw : ∀ i ∈ vecs w, i.val < 3) (h1 : gradeOf w = 1) :
    HasComponents ρ 3 (mixedObj x w) [(x, .const 1), (1, .dyn 2 w)] ∧ Negatable (mixedObj x w).expr ∧
      (mixedObj x w).expr.Pairwise (fun c d => Apart c.blade d.blade ∧ ¬ Clash 1 c.blade d.blade) := by
  have e1 : WellTyped 3 ((1 : ℝ), TBlade.dyn 2 w) := by
    refine ⟨fun g hg => ?_, hw, fun _ => ⟨1, by decide, h1.symm⟩⟩
    have : g = 1 := by revert g; decide
    subst this; decide
  have e2 : WellTyped 3 (x, TBlade.const 1) := by
    change ∀ i ∈ vecs 1, i.val < 3
    decide
  refine ⟨⟨by simp, ?_, ?_, ?_⟩, ?_, ?_⟩
  · intro c hc
    simp only [List.mem_cons, List.not_mem_nil, or_false] at hc
    rcases hc with rfl | rfl
    · exact ⟨.inl rfl, .inl ⟨1, rfl⟩⟩
    · exact ⟨.inr ⟨1, by decide, rfl⟩, .inr ⟨2, by decide, by decide, rfl⟩⟩
  · have := ReadsEach.cons (ρ := ρ) (.stored x) (.const 1)
      (.cons (.symbolic (.const 1) 1 rfl (.const 1) (by simp [Denotes, den])) (.stored 2 w) .nil)
    simpa using this
  · exact List.forall_mem_cons.2 ⟨e2, List.forall_mem_cons.2 ⟨e1, by simp⟩⟩
  · intro c hc v hv
    simp only [List.mem_cons, List.not_mem_nil, or_false] at hc
    rcases hc with rfl | rfl
    · cases hv
    · cases hv; norm_num
  · rw [List.pairwise_pair]
    refine ⟨⟨by decide +kernel, fun _ _ _ _ h => by cases h⟩, ?_⟩
    rintro ⟨G, e, H, f, h, -⟩
    cases h

-- `x * e1 + e(2)` meets the hypotheses; its components have different basis blades
example (x tol : ℝ) : HasComponents ρ 3 (mixedObj x 2) [(x, .const 1), (1, .dyn 2 2)] ∧
    ScalarValue ρ 3 (scalarObj tol) tol ∧ Negatable (mixedObj x 2).expr ∧
    (([(x, .const 1), (1, .dyn 2 2)] : List (ℝ × TBlade)).map fun p => p.2.bits).Nodup :=
  ⟨(mixedObj_components x 2 (by decide) (by decide)).1, scalarObj_value 3 tol,
    (mixedObj_components (ρ := ρ) x 2 (by decide) (by decide)).2.1, by simp [TBlade.bits]⟩

/-- **C31** is false for components with the same basis blade: `e(1) - e1`, where the first basis vector is
chosen at run time, is zero, but `grade` and `largest_grade` report 1. -/
theorem C31_runtime_blades_is_false (tol : ℝ) (h0 : 0 ≤ tol) (h1 : tol < 1) :
    call2 40 τ ρ (addC 40) ⟨true, [⟨.stored, .const 1⟩], [-1], []⟩ (basisObj 1) = some (mixedObj (-1) 1) ∧
    Reads ρ 3 (mixedObj (-1) 1).expr (mixedObj (-1) 1).values (mixedObj (-1) 1).bitsets 0 ∧
    (∃ o, grade 2 τ ρ (mixedObj (-1) 1) (scalarObj tol) = some o ∧ ScalarValue ρ 3 o 1) ∧
    (∃ o, largestGrade 2 τ ρ (mixedObj (-1) 1) (scalarObj tol) = some o ∧ ScalarValue ρ 3 o 1) ∧
    ¬ IsGrade (Above tol 0) 1 ∧ ¬ IsLargestGrade (Above tol 0) 1 := by
  obtain ⟨m1, m2, -⟩ := mixedObj_components (ρ := ρ) (-1) 1 (by decide) (by decide)
  obtain ⟨⟨o, g, a1, a2, a3, -⟩, o', g', b1, b2, b3, -⟩ := C31_runtime_blades_partial (τ := τ) 3 0 (by decide) m1
    (scalarObj_value 3 tol) h0 m2
  have hab : AboveIn tol [(-1, TBlade.const 1), (1, .dyn 2 1)] 1 := ⟨(-1, .const 1), by simp, rfl, by simpa using h1⟩
  have hab' : ∀ b, AboveIn tol [(-1, TBlade.const 1), (1, .dyn 2 1)] b → b = 1 := by
    rintro b ⟨p, hp, rfl, -⟩
    simp only [List.mem_cons, List.not_mem_nil, or_false] at hp
    rcases hp with rfl | rfl <;> rfl
  have hg1 : gradeOf 1 = 1 := by decide
  have eg : g = 1 := by
    rcases a3 with ⟨h, -⟩ | ⟨-, h⟩ | ⟨⟨b, c, hb, hc, hbc⟩, -⟩
    · exact absurd hab (h 1)
    · have := h 1 hab; rw [hg1] at this; exact_mod_cast this.symm
    · rw [hab' b hb, hab' c hc] at hbc; exact absurd rfl hbc
  have eg' : g' = 1 := by
    rcases b3 with ⟨h, -⟩ | ⟨⟨b, hb, e⟩, -⟩
    · exact absurd hab (h 1)
    · rw [hab' b hb, hg1] at e; exact_mod_cast e.symm
  subst eg eg'
  have hz : ∀ b, ¬ Above tol (0 : MV ℝ) b := fun b h => by
    simp only [Above, Finsupp.coe_zero, Pi.zero_apply, abs_zero] at h
    linarith
  refine ⟨?_, ?_, ⟨o, a1, by simpa using a2⟩, ⟨o', b1, by simpa using b2⟩, ?_, ?_⟩
  · let M : Object := ⟨true, [⟨.stored, .const 1⟩], [-1], []⟩
    have c1 : arguments (baseId [M, basisObj 1]) [M, basisObj 1] =
      some [[⟨.value 1 0, .const 1⟩], [⟨.const 1, .dyn 2 (.bitset 2 0)⟩]] := by rfl
    have c3 : addC 40 [⟨.value 1 0, .const 1⟩] [⟨.const 1, .dyn 2 (.bitset 2 0)⟩] =
      some [⟨.value 1 0, .const 1⟩, ⟨.const 1, .dyn 2 (.bitset 2 0)⟩] := by decide +kernel
    have c2 := contextObject_some (τ := τ) (ρ := ρ) (k := 40) (Ms := [M, basisObj 1])
      (e := [⟨.value 1 0, .const 1⟩, ⟨.const 1, .dyn 2 (.bitset 2 0)⟩])
      (s' := [⟨.stored, .const 1⟩, ⟨.const 1, .dyn 2 .storedBits⟩]) (vs := [-1]) (ws := [1])
      (code := [.value (.value 1 0), .bits (.bitset 2 0)])
      (by simp [storedInputs, hasStoredC, hasStored, Blade.hasStored, M]) (by rfl)
      (by simp [exec, eval, contextEnv, asBits, asNumber, baseId, storedInputs, Blade.hasStored,
        hasStoredC, hasStored, greaterIdC, greaterId, Blade.greaterId, M])
    rw [call2, c1]
    simp only [Option.bind_eq_bind, Option.bind_some]
    rw [c3, Option.bind_some, c2]
    rfl
  · have t1 : WellTyped 3 ((-1 : ℝ), TBlade.const 1) := m1.2.2.2 _ (by simp)
    have t2 : WellTyped 3 ((1 : ℝ), TBlade.dyn 2 1) := m1.2.2.2 _ (by simp)
    have := Reads.cons (ρ := ρ) (.stored (-1)) (.const 1) t1
      (.cons (.symbolic (.const 1) 1 rfl (.const 1) (by simp [Denotes, den])) (.stored 2 1) t2 .nil)
    simpa [TBlade.bits, ← Finsupp.single_add] using this
  · rintro (⟨-, h⟩ | ⟨⟨b, hb⟩, -⟩ | ⟨-, h⟩)
    · norm_num at h
    · exact hz b hb
    · norm_num at h
  · rintro (⟨-, h⟩ | ⟨⟨b, hb, -⟩, -⟩)
    · norm_num at h
    · exact hz b hb

/-! ## C32 -/

/-- **C32** `take_grade(A, g)` compiles, and it is the part of `A` with grade `g`. -/
theorem C32_take_grade (n k : Nat) (hn : n ≤ 63) {M K : Object} {A : MV ℝ} {g : ℤ} (hM : Represents ρ n M A)
    (hK : ScalarValue ρ n K g) :
    ∃ o, takeGrade (k + 1) τ ρ M K = some o ∧ Represents ρ n o (gradePart g A) :=
  takeGrade_call hn hM hK

/-- **C32** `take_largest_grade(A, tol)` compiles, and it is the part of `A` with the largest grade of a
component above the tolerance. -/
theorem C32_take_largest_grade (n k : Nat) (hn : n ≤ 63) {M T : Object} {A : MV ℝ} {tol : ℝ}
    (hM : Represents ρ n M A) (hT : ScalarValue ρ n T tol) (h0 : 0 ≤ tol) (hs : Negatable M.expr) :
    ∃ o, ∃ g : ℤ, takeLargestGrade (k + 2) τ ρ M T = some o ∧ IsLargestGrade (Above tol A) g ∧
      Represents ρ n o (gradePart g A) :=
  takeLargest_call hn hM hT h0 hs

/-- **C32** The grade parts of a multivector keep exactly the components of the grade; taking them is linear
and idempotent; parts of different grades have nothing in common; the parts of grades 0 to 64 add up to the
multivector. -/
theorem C32_projections (g h : ℤ) (x : ℝ) (A B : MV ℝ) :
    (∀ b, gradePart g A b = if (gradeOf b : ℤ) = g then A b else 0) ∧
    gradePart g (A + B) = gradePart g A + gradePart g B ∧ gradePart g (x • A) = x • gradePart g A ∧
    gradePart g (gradePart g A) = gradePart g A ∧ (g ≠ h → gradePart h (gradePart g A) = 0) ∧
    ∑ j ∈ Finset.range 65, gradePart (j : ℤ) A = A := by
  have hb : ∀ (g : ℤ) (A : MV ℝ) (b), gradePart g A b = if (gradeOf b : ℤ) = g then A b else 0 := by
    intro g A b
    rw [gradePart, Finsupp.filter_apply]
  refine ⟨hb g A, gradePart_add g A B, gradePart_smul g x A, ?_, fun hg => ?_, sum_gradePart A⟩
  · ext b
    rw [hb, hb]
    split_ifs <;> rfl
  · ext b
    rw [hb, hb]
    split_ifs with h1 h2
    · exact absurd (h2.symm.trans h1) hg
    · rfl
    · rfl

/-- **C32** Sequences of calls: taking the same grade again changes nothing, taking a different grade
gives zero. -/
theorem C32_calls (n k : Nat) (hn : n ≤ 63) {M K K' : Object} {A : MV ℝ} {g h : ℤ} (hM : Represents ρ n M A)
    (hK : ScalarValue ρ n K g) (hK' : ScalarValue ρ n K' h) :
    ∃ o o', takeGrade (k + 1) τ ρ M K = some o ∧ takeGrade (k + 1) τ ρ o K' = some o' ∧
      Represents ρ n o (gradePart g A) ∧ Represents ρ n o' (if g = h then gradePart g A else 0) := by
  obtain ⟨o, h1, h2⟩ := C32_take_grade (τ := τ) n k hn hM hK
  obtain ⟨o', h3, h4⟩ := C32_take_grade (τ := τ) n k hn h2 hK'
  refine ⟨o, o', h1, h3, h2, ?_⟩
  obtain ⟨-, -, -, p1, p2, -⟩ := C32_projections g h 0 A A
  split_ifs with hgh
  · subst hgh; rwa [p1] at h4
  · rwa [p2 hgh] at h4

/-- The literal `c<2>`, or any other. -/
abbrev literalObj (v : Int) : Object := ⟨false, [⟨.const v, .const 0⟩], [], []⟩

theorem literalObj_value (n : Nat) (v : Int) : ScalarValue ρ n (literalObj v) v := by
  refine ⟨⟨_, rfl⟩, ⟨canonical_single ⟨0, rfl, by simp [vecs]⟩, by simp⟩, ?_⟩
  have h1 : WellTyped n ((v : ℝ), TBlade.const 0) := by simp [WellTyped, vecs]
  simpa [TBlade.bits] using Reads.cons (.symbolic (.const v) (v : ℝ) rfl (.const v) (by simp [Denotes, den]))
    (.const 0) h1 (Reads.nil (ρ := ρ))

-- the part of grade 1 of a vector, with a literal grade and with a stored one
example (x y : ℝ) : ScalarValue ρ 3 (literalObj 1) ((1 : ℤ) : ℝ) ∧ ScalarValue ρ 3 (scalarObj 1) ((1 : ℤ) : ℝ) ∧
    Represents ρ 3 (vecObj x y) (Finsupp.single 1 x + Finsupp.single 2 y) ∧
    gradePart 1 (Finsupp.single 1 x + Finsupp.single 2 y : MV ℝ) = Finsupp.single 1 x + Finsupp.single 2 y ∧
    gradePart 2 (Finsupp.single 1 x + Finsupp.single 2 y : MV ℝ) = 0 := by
  have e1 : (ones 1 : ℤ) = 1 := by decide +kernel
  have e2 : (ones 2 : ℤ) = 1 := by decide +kernel
  refine ⟨literalObj_value 3 1, by simpa using scalarObj_value 3 1, vec_represents x y, ?_, ?_⟩
  · rw [gradePart_add, gradePart_single, gradePart_single, e1, e2]; simp
  · rw [gradePart_add, gradePart_single, gradePart_single, e1, e2]; simp

/-- **C32** With basis blades that are chosen at run time: `take_grade(A, g)` compiles, and it is the part of
`A` with grade `g`, if neighbours with run-time basis blades declare different possible grades, and, for a grade
that is a literal, at most one of them may have this grade.

Missing: other sums of run-time basis blades, where it is false (`C32_runtime_blades_is_false`); the literal 0;
`take_largest_grade`. -/
theorem C32_runtime_blades_partial (n k : Nat) (hn : n ≤ 63) {M K : Object} {V : List (ℝ × TBlade)}
    (hM : HasComponents ρ n M V) :
    (∀ g : ℤ, ScalarValue ρ n K g → K.expr = [⟨.stored, .const 0⟩] →
      M.expr.IsChain (fun c d => Apart c.blade d.blade) →
      ∃ o, takeGrade (k + 1) τ ρ M K = some o ∧ Reads ρ n o.expr o.values o.bitsets (gradePart g (Spec.sumOf V))) ∧
    (∀ j : ℕ, ScalarValue ρ n K j → K.expr = [⟨.const j, .const 0⟩] → 1 ≤ j → j ≤ 63 → hasStoredC M.expr = true →
      M.expr.Pairwise (fun c d => Apart c.blade d.blade ∧ ¬ Clash j c.blade d.blade) →
      ∃ o, takeGrade (k + 1) τ ρ M K = some o ∧ Reads ρ n o.expr o.values o.bitsets (gradePart j (Spec.sumOf V))) :=
  ⟨fun _ hK hst hc => takeGrade_runtime hn hM hc hK hst,
    fun _ hK hst h0 hj hs hc => takeGrade_runtime_lit hn (by omega) hj hM hs hc hK hst⟩

-- `x * e1 + e(2)`, with a stored grade and with a literal
example (x : ℝ) : HasComponents ρ 3 (mixedObj x 2) [(x, .const 1), (1, .dyn 2 2)] ∧
    (mixedObj x 2).expr.IsChain (fun c d => Apart c.blade d.blade) ∧
    ScalarValue ρ 3 (literalObj 1) ((1 : ℕ) : ℝ) ∧ ScalarValue ρ 3 (scalarObj 1) ((1 : ℤ) : ℝ) ∧
    hasStoredC (mixedObj x 2).expr = true ∧
    (mixedObj x 2).expr.Pairwise (fun c d => Apart c.blade d.blade ∧ ¬ Clash 1 c.blade d.blade) := by
  obtain ⟨m1, -, m3⟩ := mixedObj_components (ρ := ρ) x 2 (by decide) (by decide)
  exact ⟨m1, (m3.imp fun h => h.1).isChain, by simpa using literalObj_value 3 1, by simpa using scalarObj_value 3 1,
    by rfl, m3⟩

/-- The object `e(i) + y * e(j) * e(k) * e(l)`, with a run-time vector and a product of run-time vectors of
grade 1 or 3. -/
abbrev oddObj (y : ℝ) (w w' : Word) : Object :=
  ⟨true, [⟨.const 1, .dyn 2 .storedBits⟩, ⟨.stored, .dyn 10 .storedBits⟩], [y], [w, w']⟩

/-- **C32** is false if two run-time basis blades may have the grade: the part of grade 1 of a sum of a
run-time vector and a run-time blade of grade 1 or 3 has a type with a single basis blade, two bitsets are
written into it, and it does not stand for any multivector. -/
theorem C32_runtime_blades_is_false (y : ℝ) (w w' : Word) (hw : ∀ i ∈ vecs w, i.val < 3) (h1 : gradeOf w = 1)
    (hw' : ∀ i ∈ vecs w', i.val < 3) (h2 : gradeOf w' = 1 ∨ gradeOf w' = 3) :
    HasComponents ρ 3 (oddObj y w w') [(1, .dyn 2 w), (y, .dyn 10 w')] ∧
    ScalarValue ρ 3 (literalObj 1) 1 ∧ ∃ o,
    takeGrade 40 τ ρ (oddObj y w w') (literalObj 1) = some o ∧
      o.expr = [⟨.fn .mul [.const 2, .stored], .dyn 2 .storedBits⟩] ∧ countBitsC o.expr = 1 ∧ o.bitsets = [w, w'] ∧
      ¬ ∃ A, Reads ρ 3 o.expr o.values o.bitsets A := by
  have e1 : WellTyped 3 ((1 : ℝ), TBlade.dyn 2 w) := by
    refine ⟨fun g hg => ?_, hw, fun _ => ⟨1, by decide, h1.symm⟩⟩
    have : g = 1 := by revert g; decide
    subst this; decide
  have e2 : WellTyped 3 (y, TBlade.dyn 10 w') := by
    refine ⟨fun g hg => ?_, hw', fun _ => ?_⟩
    · revert g; decide
    · rcases h2 with h | h
      · exact ⟨1, by decide, h.symm⟩
      · exact ⟨3, by decide, h.symm⟩
  refine ⟨⟨by simp, ?_, ?_, List.forall_mem_cons.2 ⟨e1, List.forall_mem_cons.2 ⟨e2, by simp⟩⟩⟩, by simpa using literalObj_value 3 1, ?_⟩
  · intro c hc
    simp only [List.mem_cons, List.not_mem_nil, or_false] at hc
    rcases hc with rfl | rfl
    · exact ⟨.inr ⟨1, by decide, rfl⟩, .inr ⟨2, by decide, by decide, rfl⟩⟩
    · exact ⟨.inl rfl, .inr ⟨10, by decide, by decide, rfl⟩⟩
  · have := ReadsEach.cons (ρ := ρ) (.symbolic (.const 1) 1 rfl (.const 1) (by simp [Denotes, den])) (.stored 2 w)
      (.cons (.stored y) (.stored 10 w') .nil)
    simpa using this
  let Ms : List Object := [oddObj y w w', literalObj 1]
  let c1 : Expr := .fn .ifElse [.fn .equal [.fn .countOneBits [.bitset 1 0], .const 1], .const 1, .const 0]
  let c2 : Expr := .fn .ifElse [.fn .equal [.fn .countOneBits [.bitset 1 1], .const 1], .value 1 0, .const 0]
  have a1 : arguments (baseId Ms) Ms = some [[⟨.const 1, .dyn 2 (.bitset 1 0)⟩, ⟨.value 1 0, .dyn 10 (.bitset 1 1)⟩],
    [⟨.const 1, .const 0⟩]] := by rfl
  have a2 : keepGrade 40 (.const 1) [⟨.const 1, .dyn 2 (.bitset 1 0)⟩, ⟨.value 1 0, .dyn 10 (.bitset 1 1)⟩] =
    some [⟨c1, .dyn 2 (.bitset 1 0)⟩, ⟨c2, .dyn 2 (.bitset 1 1)⟩] := by decide +kernel
  have a3 : compileC 40 1 1 [⟨c1, .dyn 2 (.bitset 1 0)⟩, ⟨c2, .dyn 2 (.bitset 1 1)⟩] =
    some ([⟨.fn .mul [.const 2, .stored], .dyn 2 .storedBits⟩],
      [.value c1, .bits (.bitset 1 0), .value c2, .bits (.bitset 1 1)]) := by rfl
  have hst : storedInputs Ms = [oddObj y w w'] := by rfl
  have hb : baseId Ms = 0 := by rfl
  obtain ⟨vs, hx⟩ : ∃ vs, exec (contextTypes τ (baseId Ms) (storedInputs Ms)) (contextEnv ρ (baseId Ms) (storedInputs Ms))
      [.value c1, .bits (.bitset 1 0), .value c2, .bits (.bitset 1 1)] = some (vs, [w, w']) := by
    rw [hst, hb]
    have b0 : ∀ i, Built (.fn .countOneBits [.bitset 1 i]) := fun i =>
      built_fn1 (.bitset _ _) (by simp) (by simp) (by simp)
    have b1 : ∀ i, Built (.fn .equal [.fn .countOneBits [.bitset 1 i], .const 1]) := fun i =>
      built_fn2 (b0 i) (.const _) (by simp) (by simp) (by simp)
    let env := contextEnv ρ 0 [oddObj y w w']
    have v1 : env.bits 1 0 = w := by rfl
    have v2 : env.bits 1 1 = w' := by rfl
    have v3 : env.val 1 0 = y := by rfl
    have hA : SumDenotes env 3 [⟨.const 1, .dyn 2 (.bitset 1 0)⟩, ⟨.value 1 0, .dyn 10 (.bitset 1 1)⟩]
        (Spec.sumOf [(1, .dyn 2 w), (y, .dyn 10 w')]) := by
      refine ⟨?_, _, .cons ⟨by simp [Denotes, den], w, by rw [den, v1], rfl⟩
        (.cons ⟨by simp [Denotes, den, v3], w', by rw [den, v2], rfl⟩ .nil),
        List.forall_mem_cons.2 ⟨e1, List.forall_mem_cons.2 ⟨e2, by simp⟩⟩, rfl⟩
      intro c hc
      simp only [List.mem_cons, List.not_mem_nil, or_false] at hc
      rcases hc with rfl | rfl
      · exact ⟨.const 1, fun G e h => by cases h; exact ⟨.bitset _ _, rfl⟩⟩
      · exact ⟨.value _ _, fun G e h => by cases h; exact ⟨.bitset _ _, rfl⟩⟩
    obtain ⟨-, V, hV, -⟩ := keepGrade_sound (m := 1) (by decide) (.const 1) (lit_const 1) (by simp [Denotes, den]) _ _ _
      hA a2
    obtain ⟨⟨x1, t1⟩, V', ⟨d1, -⟩, hV', -⟩ := List.forall₂_cons_left_iff.1 hV
    obtain ⟨⟨x2, t2⟩, V'', ⟨d2, -⟩, -, -⟩ := List.forall₂_cons_left_iff.1 hV'
    have f1 := eval_ok (τ := contextTypes τ 0 [oddObj y w w']) (built_fn3 (b1 0) (.const 1) (.const 0) (by simp)
      (by simp) (by simp)) (by simp [NoIntQuotient, NoIntQuotientAll]) d1
    have f2 := eval_ok (τ := contextTypes τ 0 [oddObj y w w']) (built_fn3 (b1 1) (.value 1 0) (.const 0) (by simp)
      (by simp) (by simp)) (by simp [NoIntQuotient, NoIntQuotientAll]) d2
    rw [exec, f1]
    simp only [Option.bind_eq_bind, Option.bind_some, exec]
    refine ⟨[x1, x2], ?_⟩
    have f2' : eval (contextTypes τ 0 [oddObj y w w']) env c2 = some (.num x2) := f2
    have g1 : eval (contextTypes τ 0 [oddObj y w w']) env (.bitset 1 0) = some (.bits w) := by rw [eval, v1]
    have g2 : eval (contextTypes τ 0 [oddObj y w w']) env (.bitset 1 1) = some (.bits w') := by rw [eval, v2]
    rw [g1, f2', g2]
    rfl
  have h4 := contextObject_some (τ := τ) (ρ := ρ) (k := 40) (Ms := Ms) (by rw [hst]; simp)
    (by rw [hst, hb]; exact a3) hx
  have h5 : takeGrade 40 τ ρ (oddObj y w w') (literalObj 1) =
      contextObject 40 τ ρ Ms [⟨c1, .dyn 2 (.bitset 1 0)⟩, ⟨c2, .dyn 2 (.bitset 1 1)⟩] := by
    rw [takeGrade, call2, show [oddObj y w w', literalObj 1] = Ms from rfl, a1]
    simp only [Option.bind_eq_bind, Option.bind_some, scalarCoef_single]
    rw [a2, Option.bind_some]
  refine ⟨_, h5.trans h4, rfl, rfl, rfl, ?_⟩
  rintro ⟨A, h⟩
  have := (reads_counts h).2
  simp [countBitsC, Comp.countBits, countBits, countBitsAll, Blade.countBits] at this

/-! ## C49 -/

/-- **C49** What `dp(A, B, tol)` returns is the part of the geometric product with the largest grade of a
component above the tolerance.

Missing: basis vectors chosen at run time, where it is false (`C49_runtime_blades_is_false`).  That it compiles is
`C49_dp_compiles_partial`. -/
theorem C49_dp_partial (P Q R k : Nat) (hn : P + Q + R ≤ 62) {M M' T : Object} {A B : MV ℝ} {tol : ℝ}
    (hM : Represents ρ (P + Q + R) M A) (hM' : Represents ρ (P + Q + R) M' B)
    (hT : ScalarValue ρ (P + Q + R) T tol) (h0 : 0 ≤ tol)
    (o : Object) (h : deltaProduct P Q R (k + 1) τ ρ M M' T = some o) :
    ∃ g : ℤ, IsLargestGrade (Above tol (signedProd P Q R .gp A B)) g ∧
      Represents ρ (P + Q + R) o (gradePart g (signedProd P Q R .gp A B)) :=
  dp_call hn hM hM' hT h0 o h

/-- The type of the geometric product of two vectors in the plane. -/
abbrev planeProduct : CSum :=
  [⟨.fn .add [.fn .mul [.value 1 0, .value 2 0], .fn .mul [.value 1 1, .value 2 1]], .const 0⟩,
    ⟨.fn .add [.fn .mul [.value 1 0, .value 2 1], .fn .mul [.const (-1), .value 1 1, .value 2 0]], .const 3⟩]

-- two vectors meet the hypotheses, and every step of `dp` compiles
example (x y z w tol : ℝ) (a b t e : CSum)
    (h : arguments (baseId [vecObj x y, vecObj z w, scalarObj tol]) [vecObj x y, vecObj z w, scalarObj tol] =
      some [a, b, t])
    (h' : mulC (orthMapping (3 + 0 + 0) (mkSignedFactor 3 0 0) .gp) 40 a b = some e) :
    ∃ g r, deduceLargestGrade 40 (.value 3 0) e = some g ∧ keepGrade 40 g e = some r ∧
      (compileC 40 1 3 r).isSome := by
  have h1 : arguments (baseId [vecObj x y, vecObj z w, scalarObj tol]) [vecObj x y, vecObj z w, scalarObj tol] =
    some [[⟨.value 1 0, .const 1⟩, ⟨.value 1 1, .const 2⟩], [⟨.value 2 0, .const 1⟩, ⟨.value 2 1, .const 2⟩],
      [⟨.value 3 0, .const 0⟩]] := by rfl
  rw [h1] at h
  cases h
  have h2 : mulC (orthMapping (3 + 0 + 0) (mkSignedFactor 3 0 0) .gp) 40
      [⟨.value 1 0, .const 1⟩, ⟨.value 1 1, .const 2⟩] [⟨.value 2 0, .const 1⟩, ⟨.value 2 1, .const 2⟩] =
      some planeProduct := by decide +kernel
  rw [h2] at h'
  cases h'
  have : ((deduceLargestGrade 40 (.value 3 0) planeProduct).bind fun g =>
      (keepGrade 40 g planeProduct).bind fun r => compileC 40 1 3 r).isSome := by decide +kernel
  obtain ⟨c, hc⟩ := Option.isSome_iff_exists.1 this
  simp only [Option.bind_eq_some_iff] at hc
  obtain ⟨g, hg, r, hr, hc⟩ := hc
  exact ⟨g, r, hg, hr, by rw [hc]; rfl⟩

/-- The coefficient and the bitset of `dp(e(i), e(j), tol)` as an expression. -/
abbrev dpCoef : Expr :=
  let s : Expr := .fn .reorderingSign [.bitset 1 0, .bitset 2 0]
  let c : Expr := .fn .countOneBits [.fn .bxor [.bitset 1 0, .bitset 2 0]]
  .fn .ifElse [.fn .equal [c, .fn .ifElse [.fn .lessOrEqual [s, .value 3 0], .const (-2), c]], s, .const 0]
@[inherit_doc dpCoef]
abbrev dpBits : Expr := .fn .bxor [.bitset 1 0, .bitset 2 0]

/-- **C49** is false for basis vectors chosen at run time: `dp(e(2), e(1))` is zero, although the geometric
product is `-e1∧e2`.  The library takes reordering signs for non-negative, leaves out the absolute value, and
so finds `-1` to be within the tolerance. -/
theorem C49_runtime_blades_is_false (tol : ℝ) (h0 : 0 ≤ tol) (h1 : tol < 1) : ∃ o,
    deltaProduct 3 0 0 40 τ ρ (basisObj 2) (basisObj 1) (scalarObj tol) = some o ∧
    Reads ρ 3 o.expr o.values o.bitsets 0 ∧
    Reads ρ 3 (basisObj 2).expr (basisObj 2).values (basisObj 2).bitsets (Finsupp.single 2 1) ∧
    Reads ρ 3 (basisObj 1).expr (basisObj 1).values (basisObj 1).bitsets (Finsupp.single 1 1) ∧
    signedProd 3 0 0 .gp (Finsupp.single 2 1) (Finsupp.single 1 1) = (Finsupp.single 3 (-1) : MV ℝ) ∧
    Above tol (Finsupp.single 3 (-1)) 3 := by
  let Ms := [basisObj 2, basisObj 1, scalarObj tol]
  have a1 : arguments (baseId Ms) Ms = some [[⟨.const 1, .dyn 2 (.bitset 1 0)⟩],
    [⟨.const 1, .dyn 2 (.bitset 2 0)⟩], [⟨.value 3 0, .const 0⟩]] := by rfl
  have hb : baseId Ms = 0 := by rfl
  have hst : storedInputs Ms = Ms := by rfl
  let e : CSum := [⟨.fn .reorderingSign [.bitset 1 0, .bitset 2 0], .dyn 5 dpBits⟩]
  let g : Expr := .fn .ifElse [.fn .lessOrEqual [.fn .reorderingSign [.bitset 1 0, .bitset 2 0], .value 3 0],
    .const (-2), .fn .countOneBits [dpBits]]
  have m1 : mulC (orthMapping 3 (mkSignedFactor 3 0 0) .gp) 40 [⟨.const 1, .dyn 2 (.bitset 1 0)⟩]
    [⟨.const 1, .dyn 2 (.bitset 2 0)⟩] = some e := by decide +kernel
  have m2 : deduceLargestGrade 40 (.value 3 0) e = some g := by decide +kernel
  have m3 : keepGrade 40 g e = some [⟨dpCoef, .dyn 5 dpBits⟩] := by decide +kernel
  have m4 : compileC 40 1 3 [⟨dpCoef, .dyn 5 dpBits⟩] =
    some ([⟨.stored, .dyn 5 .storedBits⟩], [.value dpCoef, .bits dpBits]) := by rfl
  obtain ⟨f1, c1⟩ := call2_lazy (k := 40) (τ := τ) (outer := ρ)
    (f := mulC (orthMapping 3 (mkSignedFactor 3 0 0) .gp) 40)
    (X := lazyObject false [⟨.const 1, .dyn 2 (.bitset 1 0)⟩])
    (Y := lazyObject false [⟨.const 1, .dyn 2 (.bitset 2 0)⟩]) (by rfl) (by rfl) m1
  let p : Object := ⟨f1, e, [], []⟩
  let t := lazyObject true [⟨.value 3 0, .const 0⟩]
  have a2 : arguments (baseId [p, t]) [p, t] = some [e, [⟨.value 3 0, .const 0⟩]] := by
    rw [arguments_lazy [p, t] (by intro M hM; fin_cases hM <;> rfl)]; rfl
  obtain ⟨f2, c2⟩ := call2_lazy (k := 40) (τ := τ) (outer := ρ)
    (f := fun a t => do some [⟨← deduceLargestGrade 40 (← scalarCoef t) a, .const 0⟩])
    (X := lazyObject f1 e) (Y := lazyObject true [⟨.value 3 0, .const 0⟩]) (by rfl) (by rfl)
    (e := [⟨g, .const 0⟩]) (by
      simp only [lazyObject, scalarCoef_single, Option.bind_eq_bind, Option.bind_some, m2])
  have c2' : largestGrade 40 τ ρ (lazyObject f1 e) (lazyObject true [⟨.value 3 0, .const 0⟩]) = _ := c2
  obtain ⟨f3, c3⟩ := call2_lazy (k := 40) (τ := τ) (outer := ρ)
    (f := fun a g => do keepGrade 40 (← scalarCoef g) a)
    (X := lazyObject f1 e) (Y := ⟨f2, [⟨g, .const 0⟩], [], []⟩) (by rfl) (by rfl)
    (e := [⟨dpCoef, .dyn 5 dpBits⟩]) (by
      simp only [lazyObject, scalarCoef_single, Option.bind_eq_bind, Option.bind_some, m3])
  have c3' : takeGrade 40 τ ρ (lazyObject f1 e) ⟨f2, [⟨g, .const 0⟩], [], []⟩ = _ := c3
  have hl2 : ∀ X ∈ [p, t], hasStoredC X.expr = false := by intro M hM; fin_cases hM <;> rfl
  have c4 : takeLargestGrade 40 τ ρ p t =
      contextObject 40 τ ρ [p, t] [⟨dpCoef, .dyn 5 dpBits⟩] := by
    rw [takeLargestGrade, a2]
    simp only [Option.bind_eq_bind, Option.bind_some]
    rw [show p.floats = f1 from rfl, show t.floats = true from rfl, c2', Option.bind_some, c3', Option.bind_some]
  have hx : exec (contextTypes τ (baseId Ms) (storedInputs Ms)) (contextEnv ρ (baseId Ms) (storedInputs Ms))
      [.value dpCoef, .bits dpBits] = some ([0], [3]) := by
    rw [hb, hst]
    have ev : ∀ {e : Expr} {v : Val}, Built e → NoIntQuotient (contextTypes τ 0 Ms) e →
        den (contextEnv ρ 0 Ms) e = some v → eval (contextTypes τ 0 Ms) (contextEnv ρ 0 Ms) e = some v :=
      fun hb hq h => eval_ok hb hq h
    have v1 : (contextEnv ρ 0 Ms).bits 1 0 = 2 := by rfl
    have v2 : (contextEnv ρ 0 Ms).bits 2 0 = 1 := by rfl
    have v3 : (contextEnv ρ 0 Ms).val 3 0 = tol := by rfl
    have os : Spec.orderSign 2 1 = -1 := by
      have : (inversions (vecs 2) (vecs 1)).card = 1 := by decide +kernel
      rw [Spec.orderSign, this]; norm_num
    have gr : gradeOf 3 = 2 := by decide
    have b0 : Built (.fn .reorderingSign [.bitset 1 0, .bitset 2 0]) :=
      built_fn2 (.bitset _ _) (.bitset _ _) (by simp) (by simp) (by simp)
    have b1 : Built dpBits := built_fn2 (.bitset _ _) (.bitset _ _) (by simp) (by simp) (by simp)
    have b2 : Built (.fn .countOneBits [dpBits]) := built_fn1 b1 (by simp) (by simp) (by simp)
    have b3 : Built dpCoef := built_fn3 (built_fn2 b2 (built_fn3 (built_fn2 b0 (.value _ _) (by simp) (by simp)
      (by simp)) (.const _) b2 (by simp) (by simp) (by simp)) (by simp) (by simp) (by simp)) b0 (.const 0)
      (by simp) (by simp) (by simp)
    have d1 : den (contextEnv ρ 0 Ms) dpBits = some (.bits 3) := by
      simp [denList, den, interp, v1, v2]
    have d2 : den (contextEnv ρ 0 Ms) (.fn .reorderingSign [.bitset 1 0, .bitset 2 0]) = some (.num (-1)) := by
      simpa [denList, den, interp, v1, v2] using os
    have d3 : den (contextEnv ρ 0 Ms) (.fn .countOneBits [dpBits]) = some (.num 2) := by
      rw [den_fn, denList, denList, d1]
      simp only [interp]
      exact congrArg (fun n : Nat => some (Val.num n)) gr
    have d4 : den (contextEnv ρ 0 Ms) dpCoef = some (.num 0) := by
      have hle : (-1 : ℝ) ≤ tol := by linarith
      simp only [dpCoef]
      have d5 : den (contextEnv ρ 0 Ms) (.fn .lessOrEqual [.fn .reorderingSign [.bitset 1 0, .bitset 2 0],
          .value 3 0]) = some (.bool true) := by
        rw [den_fn, denList, denList, d2]
        simp [den, denList, interp, v3, hle]
      have d6 : den (contextEnv ρ 0 Ms) (.fn .ifElse [.fn .lessOrEqual [.fn .reorderingSign [.bitset 1 0, .bitset 2 0],
          .value 3 0], .const (-2), .fn .countOneBits [dpBits]]) = some (.num (-2)) := by
        rw [den_fn, denList, denList, denList, d5, d3]
        simp [den, denList, interp]
      have d7 : den (contextEnv ρ 0 Ms) (.fn .equal [.fn .countOneBits [dpBits], .fn .ifElse [.fn .lessOrEqual
          [.fn .reorderingSign [.bitset 1 0, .bitset 2 0], .value 3 0], .const (-2), .fn .countOneBits [dpBits]]]) =
          some (.bool false) := by
        rw [den_fn, denList, denList, d6, d3]
        simp [denList, interp]
        norm_num
      rw [den_fn, denList, denList, denList, d7, d2]
      simp [den, denList, interp]
    rw [exec, ev b3 (by simp [NoIntQuotient, NoIntQuotientAll]) d4]
    simp only [Option.bind_eq_bind, Option.bind_some]
    rw [exec, ev b1 (by simp [NoIntQuotient, NoIntQuotientAll]) d1]
    simp [exec, asNumber, asBits]
  have h4 := contextObject_some (τ := τ) (ρ := ρ) (k := 40) (Ms := Ms) (e := [⟨dpCoef, .dyn 5 dpBits⟩])
    (s' := [⟨.stored, .dyn 5 .storedBits⟩]) (vs := [0]) (ws := [3]) (by rw [hst]; simp [Ms])
    (by rw [hb, hst]; exact m4) hx
  have hdp : deltaProduct 3 0 0 40 τ ρ (basisObj 2) (basisObj 1) (scalarObj tol) =
      some ⟨writtenFloats (contextTypes τ (baseId Ms) (storedInputs Ms)) [.value dpCoef, .bits dpBits],
        [⟨.stored, .dyn 5 .storedBits⟩], [0], [3]⟩ := by
    simp only [deltaProduct]
    rw [show [basisObj 2, basisObj 1, scalarObj tol] = Ms from rfl, a1]
    simp only [Option.bind_eq_bind, Option.bind_some]
    rw [show 3 + 0 + 0 = 3 from rfl, c1, Option.bind_some,
      show lazyObject true [⟨.value 3 0, .const 0⟩] = t from rfl, c4]
    simp only [contextObject, contextEval_lazy hl2, Option.bind_eq_bind, Option.bind_some]
    exact h4
  refine ⟨_, hdp, ?_, basis_reads 3 (by decide) 2 (by decide) (by decide),
    basis_reads 3 (by decide) 1 (by decide) (by decide), ?_, ?_⟩
  · have ht : WellTyped 3 ((0 : ℝ), TBlade.dyn 5 3) := ⟨by decide, by decide, fun h => absurd rfl h⟩
    have := Reads.cons (ρ := ρ) (.stored 0) (.stored 5 3) ht .nil
    simpa [TBlade.bits] using this
  · have hm : orthMul (fun b => ((signedFactor 3 0 0 b : Int) : ℝ)) .gp 2 1 = (-1, 3) := by
      have e1 : areValidGrades .gp (ones 2) (ones 1) (ones (2 ^^^ 1)) = true := by decide +kernel
      have e2 : reorderingSign 2 1 = -1 := by decide +kernel
      have e3 : signedFactor 3 0 0 (2 &&& 1) = 1 := by decide +kernel
      rw [orthMul, if_pos e1, e2, e3]
      simp
    rw [signedProd, orthProd, bilin_single, hm]
    simp
  · simpa [Above] using h1

end GATL.Props
