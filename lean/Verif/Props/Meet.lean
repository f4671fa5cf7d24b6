import Verif.Proofs.FastJoin
import Verif.Spec.Take

/-!
# C62-C64, C66: meet, join and the delta product of blades

`Spans A U` says that `A` is a blade of the subspace `U` (`Spec/Meet.lean`), so the subject of these theorems is the
intersection `U ⊓ V`, the sum `U ⊔ V` and the orthogonal complement `Uᗮ` of Mathlib.  `bs` is what `for_each_component`
visits: any list of bitsets with all the components that are not zero.
-/

namespace GATL.Props

open Spec

variable {n : Nat}

local notation "q1" => (fun _ => (1 : ℝ) : Fin 64 → ℝ)

/-! ### The numbers `grade` and `largest_grade` report -/

/-- The number used for `grade` here is the one that `grade` on objects reports. -/
theorem gradeValue_isGrade (tol : ℝ) (h0 : 0 ≤ tol) (A : MV ℝ) : IsGrade (Above tol A) (gradeValue tol A) := by
  have hsig : ∀ b, b ∈ A.support.filter (fun b => tol < |A b|) ↔ Above tol A b := by
    intro b
    rw [Finset.mem_filter, Finsupp.mem_support_iff]
    refine ⟨fun h => h.2, fun h => ⟨fun h' => ?_, h⟩⟩
    unfold Above at h
    rw [h', abs_zero] at h
    exact absurd h (not_lt.mpr h0)
  unfold gradeValue
  simp only
  split_ifs with h1 h2
  · left
    refine ⟨fun b hb => ?_, rfl⟩
    have := (hsig b).mpr hb
    rw [h1] at this
    exact absurd this (Finset.notMem_empty b)
  · right; left
    obtain ⟨b, hb⟩ := Finset.nonempty_iff_ne_empty.mpr h1
    refine ⟨⟨b, (hsig b).mp hb⟩, fun c hc => ?_⟩
    rw [gradeOf_eq, h2 c ((hsig c).mpr hc)]
  · right; right
    push_neg at h2
    obtain ⟨b, hb, h2⟩ := h2
    obtain ⟨c, hc, h3⟩ := Finset.exists_mem_eq_sup _ ⟨b, hb⟩ ones
    refine ⟨⟨b, c, (hsig b).mp hb, (hsig c).mp hc, ?_⟩, rfl⟩
    rw [gradeOf_eq, gradeOf_eq, ← h3]
    exact h2

/-- The number used for `largest_grade` here is the one that `largest_grade` on objects reports. -/
theorem largestGradeValue_isLargest (tol : ℝ) (h0 : 0 ≤ tol) (A : MV ℝ) :
    IsLargestGrade (Above tol A) (largestGradeValue tol A) := by
  have hsig : ∀ b, b ∈ A.support.filter (fun b => tol < |A b|) ↔ Above tol A b := by
    intro b
    rw [Finset.mem_filter, Finsupp.mem_support_iff]
    refine ⟨fun h => h.2, fun h => ⟨fun h' => ?_, h⟩⟩
    unfold Above at h
    rw [h', abs_zero] at h
    exact absurd h (not_lt.mpr h0)
  unfold largestGradeValue
  simp only
  split_ifs with h1
  · left
    refine ⟨fun b hb => ?_, rfl⟩
    have := (hsig b).mpr hb
    rw [h1] at this
    exact absurd this (Finset.notMem_empty b)
  · right
    obtain ⟨b, hb⟩ := Finset.nonempty_iff_ne_empty.mpr h1
    obtain ⟨c, hc, h3⟩ := Finset.exists_mem_eq_sup _ ⟨b, hb⟩ ones
    refine ⟨⟨c, (hsig c).mp hc, ?_⟩, fun d hd => ?_⟩
    · rw [gradeOf_eq, h3]
    · rw [gradeOf_eq]
      exact_mod_cast Finset.le_sup (f := ones) ((hsig d).mpr hd)

/-! ### Tolerances -/

theorem sharp_zero (A : MV ℝ) : Sharp 0 A := by
  intro b
  by_cases h : A b = 0
  · exact Or.inl h
  · exact Or.inr (abs_pos.mpr h)

/-- With tolerances of zero the tests see everything. -/
theorem visible_zero (A B P : MV ℝ) (U V : Submodule ℝ (EuclideanSpace ℝ (Fin n))) : Visible 0 0 A B P U V :=
  ⟨le_refl _, le_refl _, sharp_zero _, sharp_zero _, sharp_zero _, sharp_zero _, fun _ => sharp_zero _, fun _ => sharp_zero _⟩

theorem sharp_swap (hn : n ≤ 63) {tol : ℝ} {A B : MV ℝ} {U V : Submodule ℝ (EuclideanSpace ℝ (Fin n))} (hA : Spans A U)
    (hB : Spans B V) (h : Sharp tol (realProd .gp A B)) : Sharp tol (realProd .gp B A) := by
  have h1 : reverse (realProd .gp A B : MV ℝ) = realProd .gp (reverse B) (reverse A) := by
    rw [real_eq]; exact reverse_gp _ A B
  rw [reverse_homog (hA.homog hn), reverse_homog (hB.homog hn), real_eq, prod_smul_left, prod_smul_right, smul_smul] at h1
  rw [real_eq] at h ⊢
  intro b
  have h2 := congrArg (fun X : MV ℝ => |X b|) h1
  simp only [Finsupp.smul_apply, smul_eq_mul, abs_mul, abs_pow, abs_neg, abs_one, one_pow, one_mul] at h2
  rw [reverse_apply, abs_mul, abs_pow, abs_neg, abs_one, one_pow, one_mul] at h2
  rcases h b with h | h
  · left
    rw [h, abs_zero] at h2
    exact abs_eq_zero.mp h2.symm
  · right
    rwa [← h2]

theorem proj_congr {S T : Submodule ℝ (EuclideanSpace ℝ (Fin n))} (h : S = T) (x : EuclideanSpace ℝ (Fin n)) :
    S.starProjection x = T.starProjection x := by
  subst h; rfl

theorem visible_swap (hn : n ≤ 63) {tol dtol : ℝ} {A B : MV ℝ} {U V : Submodule ℝ (EuclideanSpace ℝ (Fin n))}
    (hA : Spans A U) (hB : Spans B V) (h : Visible tol dtol A B (realProd .gp A B) U V) :
    Visible tol dtol B A (realProd .gp B A) V U := by
  refine ⟨h.pos, h.dpos, h.right, h.left, sharp_swap hn hA hB h.product, sharp_swap hn hA hB h.product', ?_, ?_⟩
  · intro i; rw [proj_congr (inf_comm V U)]; exact h.inside i
  · intro i; rw [proj_congr (congrArg _ (sup_comm V U))]; exact h.outside i

theorem signChange_spans {M J : MV ℝ} {U V : Submodule ℝ (EuclideanSpace ℝ (Fin n))} (hM : Spans M U) (hJ : Spans J V)
    (e : Bool) (k : ℤ) : Spans (signChange e k (M, J)).1 U ∧ Spans (signChange e k (M, J)).2 V := by
  unfold signChange
  split_ifs
  · exact ⟨by simpa using hM.smul (c := -1) (by norm_num), by simpa using hJ.smul (c := -1) (by norm_num)⟩
  · exact ⟨hM, hJ⟩

/-- `meet_and_join` on blades is `_meet_and_join_impl` with the operand of lower grade first. -/
theorem meetAndJoin_eq (hn : n ≤ 63) {tol dtol : ℝ} (bs : MV ℝ → List Word) {A B : MV ℝ}
    {U V : Submodule ℝ (EuclideanSpace ℝ (Fin n))} (hA : Spans A U) (hB : Spans B V)
    (ht : Visible tol dtol A B (realProd .gp A B) U V) :
    meetAndJoin n tol dtol bs A B =
      if Module.finrank ℝ U ≤ Module.finrank ℝ V then
        meetAndJoinImpl n tol dtol bs false A (Module.finrank ℝ U) B (Module.finrank ℝ V)
      else meetAndJoinImpl n tol dtol bs true B (Module.finrank ℝ V) A (Module.finrank ℝ U) := by
  unfold meetAndJoin
  rw [gradeValue_of ht.pos ht.left (hA.homog hn) hA.ne, gradeValue_of ht.pos ht.right (hB.homog hn) hB.ne]
  simp only [Nat.cast_le]

/-! ### C62 -/

/-- **C62** (partial: that there is a result is missing; `C62_division_by_zero_is_false` shows that there is none for some
blades). If `meet_and_join` of two blades returns a meet and a join, they are blades of the intersection and of the sum of
their subspaces. -/
theorem C62_meet_and_join_partial (hn : n ≤ 63) {tol dtol : ℝ} {bs : MV ℝ → List Word} (hbs : ∀ X b, X b ≠ 0 → b ∈ bs X)
    {A B : MV ℝ} {U V : Submodule ℝ (EuclideanSpace ℝ (Fin n))} (hA : Spans A U) (hB : Spans B V)
    (ht : Visible tol dtol A B (realProd .gp A B) U V) {M J : MV ℝ} (h : meetAndJoin n tol dtol bs A B = some (M, J)) :
    Spans M (U ⊓ V) ∧ Spans J (U ⊔ V) := by
  rw [meetAndJoin_eq hn bs hA hB ht] at h
  split_ifs at h
  · rw [real_eq] at ht
    obtain ⟨M', J', h1, h2⟩ := impl_found hn hbs hA hB ht false h
    have h3 := signChange_spans h1.meet h1.join false (((Module.finrank ℝ (U ⊔ V : Submodule ℝ (EuclideanSpace ℝ (Fin n))) : ℤ) -
      Module.finrank ℝ U) * ((Module.finrank ℝ (U ⊔ V : Submodule ℝ (EuclideanSpace ℝ (Fin n))) : ℤ) - Module.finrank ℝ V))
    rw [← h2] at h3
    exact h3
  · have ht' := visible_swap hn hA hB ht
    rw [real_eq] at ht'
    obtain ⟨M', J', h1, h2⟩ := impl_found hn hbs hB hA ht' true h
    have h3 := signChange_spans h1.meet h1.join true (((Module.finrank ℝ (V ⊔ U : Submodule ℝ (EuclideanSpace ℝ (Fin n))) : ℤ) -
      Module.finrank ℝ V) * ((Module.finrank ℝ (V ⊔ U : Submodule ℝ (EuclideanSpace ℝ (Fin n))) : ℤ) - Module.finrank ℝ U))
    rw [← h2, inf_comm, sup_comm] at h3
    exact h3

/-- **C62** If the blades have at most one direction in common, or together fill the space, `meet_and_join` returns blades
of the intersection and of the sum of their subspaces. -/
theorem C62_line_or_all_partial (hn : n ≤ 63) {tol dtol : ℝ} {bs : MV ℝ → List Word} (hbs : ∀ X b, X b ≠ 0 → b ∈ bs X)
    {A B : MV ℝ} {U V : Submodule ℝ (EuclideanSpace ℝ (Fin n))} (hA : Spans A U) (hB : Spans B V)
    (ht : Visible tol dtol A B (realProd .gp A B) U V)
    (h : Module.finrank ℝ (U ⊓ V : Submodule ℝ (EuclideanSpace ℝ (Fin n))) ≤ 1 ∨ U ⊔ V = ⊤) :
    ∃ M J, meetAndJoin n tol dtol bs A B = some (M, J) ∧ Spans M (U ⊓ V) ∧ Spans J (U ⊔ V) := by
  have h1 : meetAndJoin n tol dtol bs A B ≠ none := by
    rw [meetAndJoin_eq hn bs hA hB ht]
    split_ifs
    · rw [real_eq] at ht
      exact impl_total hn hbs hA hB ht h false
    · have ht' := visible_swap hn hA hB ht
      rw [real_eq] at ht'
      rw [inf_comm, sup_comm] at h
      exact impl_total hn hbs hB hA ht' h true
  obtain ⟨⟨M, J⟩, h2⟩ := Option.ne_none_iff_exists'.mp h1
  exact ⟨M, J, h2, C62_meet_and_join_partial hn hbs hA hB ht h2⟩

/-- **C62** The meet and the join with zero are zero. -/
theorem C62_zero {tol dtol : ℝ} (bs : MV ℝ → List Word) (A : MV ℝ) :
    meetAndJoin n tol dtol bs 0 A = some (0, 0) ∧ meetAndJoin n tol dtol bs A 0 = some (0, 0) := by
  have hz : gradeValue tol (0 : MV ℝ) = -2 := by unfold gradeValue; simp
  unfold meetAndJoin
  rw [hz]
  simp only
  constructor <;> split_ifs <;> simp [meetAndJoinImpl]

/-! ### C63 -/

theorem inv_neg_value {M m : MV ℝ} (h : inv (orthProd (diagFactor q1)) M = some m) :
    inv (orthProd (diagFactor q1)) (-M) = some (-m) := by
  have e : rnormSqr (orthProd (diagFactor q1)) (-M) = rnormSqr (orthProd (diagFactor q1)) M := by
    unfold rnormSqr
    have e : -M = (-1 : ℝ) • M := by simp
    rw [e, reverse_smul, prod_smul_left, prod_smul_right]
    simp
  unfold inv at h ⊢
  rw [e]
  rw [Option.map_eq_some_iff] at h ⊢
  obtain ⟨s, h1, rfl⟩ := h
  refine ⟨s, h1, ?_⟩
  have e : -M = (-1 : ℝ) • M := by simp
  rw [e, reverse_smul, real_eq, prod_smul_left]
  simp

/-- **C63** (partial: `meet_and_join` of two blades, the first of lower or the same grade). The meet and the join belong
together: the join is the second blade times the quotient of the first by the meet. -/
theorem C63_relation_partial (hn : n ≤ 63) {tol dtol : ℝ} {bs : MV ℝ → List Word} (hbs : ∀ X b, X b ≠ 0 → b ∈ bs X)
    {A B : MV ℝ} {U V : Submodule ℝ (EuclideanSpace ℝ (Fin n))} (hA : Spans A U) (hB : Spans B V)
    (ht : Visible tol dtol A B (realProd .gp A B) U V) (hg : Module.finrank ℝ U ≤ Module.finrank ℝ V)
    {M J : MV ℝ} (h : meetAndJoin n tol dtol bs A B = some (M, J)) :
    ∃ m, inv realProd M = some m ∧ op (realProd .rcont A m) B = J := by
  rw [meetAndJoin_eq hn bs hA hB ht, if_pos hg] at h
  rw [real_eq] at ht ⊢
  obtain ⟨M', J', h1, h2⟩ := impl_found hn hbs hA hB ht false h
  unfold signChange at h2
  simp only [Bool.false_and, Bool.false_eq_true, if_false, Prod.mk.injEq] at h2
  obtain ⟨rfl, rfl⟩ := h2
  exact h1.related

/-- **C63** (partial: the wrong sign) If the first blade has the higher grade, the same holds up to the sign, which is wrong
if the grades that the two blades lack of that of the join are both odd. -/
theorem C63_higher_first_partial (hn : n ≤ 63) {tol dtol : ℝ} {bs : MV ℝ → List Word} (hbs : ∀ X b, X b ≠ 0 → b ∈ bs X)
    {A B : MV ℝ} {U V : Submodule ℝ (EuclideanSpace ℝ (Fin n))} (hA : Spans A U) (hB : Spans B V)
    (ht : Visible tol dtol A B (realProd .gp A B) U V) (hg : Module.finrank ℝ V < Module.finrank ℝ U)
    {M J : MV ℝ} (h : meetAndJoin n tol dtol bs A B = some (M, J)) :
    ∃ m, inv realProd M = some m ∧
      J = (-1 : ℝ) ^ ((Module.finrank ℝ (U ⊔ V : Submodule ℝ (EuclideanSpace ℝ (Fin n))) - Module.finrank ℝ U) *
        (Module.finrank ℝ (U ⊔ V : Submodule ℝ (EuclideanSpace ℝ (Fin n))) - Module.finrank ℝ V)) •
          op (realProd .rcont A m) B := by
  rw [meetAndJoin_eq hn bs hA hB ht, if_neg (by omega)] at h
  have ht' := visible_swap hn hA hB ht
  rw [real_eq] at ht' ⊢
  obtain ⟨M', J', h1, h2⟩ := impl_found hn hbs hB hA ht' true h
  obtain ⟨m, hm, hr⟩ := h1.related
  have hle1 := Submodule.finrank_mono (le_sup_left : U ≤ U ⊔ V)
  have hle2 := Submodule.finrank_mono (le_sup_right : V ≤ U ⊔ V)
  have hsw := relation_swap hn hA hB (inf_comm V U ▸ h1.meet) hm
  rw [hr] at hsw
  rw [sup_comm V U] at h2
  set x := Module.finrank ℝ (U ⊔ V : Submodule ℝ (EuclideanSpace ℝ (Fin n))) - Module.finrank ℝ U with hx
  set y := Module.finrank ℝ (U ⊔ V : Submodule ℝ (EuclideanSpace ℝ (Fin n))) - Module.finrank ℝ V with hy
  have hk : ((Module.finrank ℝ (U ⊔ V : Submodule ℝ (EuclideanSpace ℝ (Fin n))) : ℤ) - Module.finrank ℝ V) *
      ((Module.finrank ℝ (U ⊔ V : Submodule ℝ (EuclideanSpace ℝ (Fin n))) : ℤ) - Module.finrank ℝ U) = ((x * y : ℕ) : ℤ) := by
    rw [hx, hy]
    push_cast [Nat.cast_sub hle1, Nat.cast_sub hle2]
    ring
  rw [hk] at h2
  have hodd : (((x * y : ℕ) : ℤ) % 2 ≠ 0) ↔ ¬ Even (x * y) := by
    rw [Nat.even_iff]; omega
  unfold signChange at h2
  simp only [Bool.true_and, decide_eq_true_eq] at h2
  by_cases he : Even (x * y)
  · rw [if_neg (by rw [hodd]; exact not_not.mpr he)] at h2
    obtain ⟨rfl, rfl⟩ := Prod.mk.inj h2
    refine ⟨m, hm, ?_⟩
    rw [hsw, he.neg_one_pow, one_smul, one_smul]
  · rw [if_pos (hodd.mpr he)] at h2
    obtain ⟨rfl, rfl⟩ := Prod.mk.inj h2
    have ho := Nat.not_even_iff_odd.mp he
    refine ⟨-m, inv_neg_value hm, ?_⟩
    have e : -m = (-1 : ℝ) • m := by simp
    rw [e, prod_smul_right, op_smul_left, hsw, ho.neg_one_pow, smul_smul, smul_smul]
    simp

/-! ### Examples and counterexamples -/

theorem two_blade_spans (hn : n ≤ 63) {x y : EuclideanSpace ℝ (Fin n)} (hy : y ≠ 0) (hx : x ∉ Submodule.span ℝ {y}) :
    Spans (op (vectorOf x) (vectorOf y)) (Submodule.span ℝ {x, y}) := by
  have h1 : outerProd ([y].map fun x : EuclideanSpace ℝ (Fin n) => vec x) ≠ 0 := by
    intro h
    exact hy (vec_injective hn ((outerProd_single _).symm.trans h))
  have e' : {z | z ∈ [y]} = {y} := by ext; simp
  have h2 := outer_cons_ne hn h1 (by rw [e']; exact hx)
  have h3 := spans_outer (c := 1) one_ne_zero h2
  rw [one_smul] at h3
  have e : outerProd ([x, y].map fun x : EuclideanSpace ℝ (Fin n) => vec x) = op (vectorOf x) (vectorOf y) := by
    show op (vec x) (outerProd ([y].map fun x : EuclideanSpace ℝ (Fin n) => vec x)) = _
    rw [List.map_singleton, outerProd_single]
    rfl
  have e2 : {z | z ∈ [x, y]} = {x, y} := by ext; simp
  rwa [e, e2] at h3

/-- The basis vectors as vectors of the Euclidean space. -/
local notation "ε" => fun i : Fin 4 => (EuclideanSpace.single i (1 : ℝ) : EuclideanSpace ℝ (Fin 4))

theorem coordinate_of_span {x y : EuclideanSpace ℝ (Fin n)} (h : x ∈ Submodule.span ℝ {y}) (i : Fin n) (hy : y i = 0) :
    x i = 0 := by
  obtain ⟨c, rfl⟩ := Submodule.mem_span_singleton.mp h
  rw [PiLp.smul_apply, hy, smul_zero]

/-- A plane of the four-dimensional space that no basis vector is in. -/
theorem plane_spans : Spans (op (vectorOf (ε 0 + ε 1)) (vectorOf (ε 2 + ε 3)))
    (Submodule.span ℝ {ε 0 + ε 1, ε 2 + ε 3}) := by
  refine two_blade_spans (by norm_num) ?_ ?_
  · intro h
    have := congrArg (fun x : EuclideanSpace ℝ (Fin 4) => x 2) h
    simp at this
  · intro h
    have := coordinate_of_span h 0 (by simp)
    simp at this

/-- **C62** The meet and the join of two blades do not always come out: for the plane `(e1 + e2) ∧ (e3 + e4)` and itself
`meet_and_join` divides by zero. -/
theorem C62_division_by_zero_is_false {bs : MV ℝ → List Word} (hbs : ∀ X b, X b ≠ 0 → b ∈ bs X) :
    meetAndJoin 4 0 0 bs (op (vectorOf (ε 0 + ε 1)) (vectorOf (ε 2 + ε 3))) (op (vectorOf (ε 0 + ε 1)) (vectorOf (ε 2 + ε 3))) =
      none := by
  have hn : 4 ≤ 63 := by norm_num
  have hA := plane_spans
  generalize hA' : op (vectorOf (ε 0 + ε 1)) (vectorOf (ε 2 + ε 3)) = A at *
  generalize hU : Submodule.span ℝ {ε 0 + ε 1, ε 2 + ε 3} = U at *
  rw [meetAndJoin_eq hn bs hA hA (visible_zero _ _ _ U U), if_pos (le_refl _)]
  have hdim : Module.finrank ℝ U = 2 := by
    obtain ⟨b, hb⟩ := Finsupp.ne_iff.mp hA.ne
    have h1 : Homogeneous (1 + 1) A := by
      rw [← hA']
      exact Iso.op_homog (vec_homog hn (ε 0 + ε 1)) (vec_homog hn (ε 2 + ε 3))
    exact (hA.homog hn b hb).symm.trans (h1 b hb)
  obtain ⟨-, h2⟩ := impl_eq hn hbs hA hA (visible_zero _ _ _ U U) false
  have hne : U ⊓ U ≠ ⊥ := by
    rw [inf_idem]; rintro h; rw [h] at hdim; simp at hdim
  obtain ⟨D, d, a, E, hD, hE, ha, hd, h3⟩ := h2 hne
  rw [h3]
  have hEl : (vecs E).sort (· ≤ ·) = [0, 1, 2, 3] := by
    have h4 : E = full 4 := by
      have h5 : U ⊓ U ⊔ (U ⊔ U)ᗮ = ⊤ := by
        rw [inf_idem, sup_idem]; exact Submodule.sup_orthogonal_of_hasOrthogonalProjection
      have h6 := hD
      rw [h5] at h6
      obtain ⟨c, -, rfl⟩ := h6.unique hn (pseudoscalar_spans hn)
      by_contra h7
      rw [Finsupp.smul_apply, Finsupp.single_eq_of_ne h7] at hE
      simp at hE
    have h5 : vecs E = ([0, 1, 2, 3] : List (Fin 64)).toFinset := by rw [h4]; decide
    rw [h5]
    exact (List.toFinset_sort _ (by decide)).mpr (by decide)
  have hp : U.starProjection (ε 0) = U.starProjection (ε 1) := by
    rw [← sub_eq_zero, ← map_sub, Submodule.starProjection_apply_eq_zero_iff, Submodule.mem_orthogonal, ← hU]
    intro u hu
    obtain ⟨s, t, rfl⟩ := Submodule.mem_span_pair.mp hu
    simp [inner_sub_right, inner_add_left, inner_smul_left, EuclideanSpace.inner_single_left]
  have hp0 : U.starProjection (ε 0) ≠ 0 := by
    rw [Ne, Submodule.starProjection_apply_eq_zero_iff, Submodule.mem_orthogonal]
    intro h
    have := h (ε 0 + ε 1) (by rw [← hU]; exact Submodule.subset_span (by simp))
    simp [inner_add_left, EuclideanSpace.inner_single_left] at this
  have hz : isZeroValue 0 (vec (U.starProjection (ε 0))) ≠ true := by
    rw [Ne, isZero_iff (le_refl _) (sharp_zero _)]
    exact fun h => hp0 (vec_injective hn h)
  have e1 : Module.finrank ℝ (U ⊓ U : Submodule ℝ (EuclideanSpace ℝ (Fin 4))) = 2 := by rw [inf_idem, hdim]
  have e2 : Module.finrank ℝ (U ⊔ U : Submodule ℝ (EuclideanSpace ℝ (Fin 4))) = 2 := by rw [sup_idem, hdim]
  rw [hEl, e1, e2, Option.map_eq_none_iff]
  have hr : ∀ r : MV ℝ, ∃ s', rejectStep 0 ((2 : ℕ) : ℤ) A A r
      ⟨op (scalar 1) (vec (U.starProjection (ε 0))), 0 + 1, Finsupp.single (full 4) 1, ((4 : ℕ) : ℤ)⟩ = (some s', true) ∧
      s'.meet = vec (U.starProjection (ε 0)) ∧ s'.gradeMeet = 1 := by
    intro r
    unfold rejectStep
    by_cases h : isZeroValue 0 r = true
    · rw [if_pos h]
      exact ⟨_, rfl, by rw [op_scalar_left, one_smul], by norm_num⟩
    · rw [if_neg h]
      dsimp only
      rw [if_neg (by norm_num)]
      exact ⟨_, rfl, by rw [op_scalar_left, one_smul], by norm_num⟩
  obtain ⟨s', h4, h5, h6⟩ := hr (vec ((U ⊔ U)ᗮ.starProjection (ε 0)))
  have g1 : meetStep 0 ((2 : ℕ) : ℤ) ((2 : ℕ) : ℤ) A a A D d ((0 : Fin 64).val + 1)
      (some ⟨scalar 1, 0, Finsupp.single (full 4) 1, ((4 : ℕ) : ℤ)⟩) = (some s', true) := by
    have := meetStep_eq (tol := 0) (B := A) hn hA hD ha hd ((2 : ℕ) : ℤ) ((2 : ℕ) : ℤ) 0
      ⟨scalar 1, 0, Finsupp.single (full 4) 1, ((4 : ℕ) : ℤ)⟩
    rw [proj_congr (inf_idem U)] at this
    refine this.trans ?_
    dsimp only
    have hk : ¬ ((0 : ℤ) + 1 = ((2 : ℕ) : ℤ)) := by norm_num
    rw [if_neg hz, if_neg hk]
    exact h4
  have g2 : meetStep 0 ((2 : ℕ) : ℤ) ((2 : ℕ) : ℤ) A a A D d ((1 : Fin 64).val + 1) (some s') = (none, false) := by
    have := meetStep_eq (tol := 0) (B := A) hn hA hD ha hd ((2 : ℕ) : ℤ) ((2 : ℕ) : ℤ) 1 s'
    rw [proj_congr (inf_idem U)] at this
    refine this.trans ?_
    dsimp only
    have h7 : op (vec (U.starProjection (ε 0))) (vec (U.starProjection (ε 0))) = 0 := op_vec_self (vec_homog hn _)
    have hk : s'.gradeMeet + 1 = ((2 : ℕ) : ℤ) := by rw [h6]; norm_num
    have hp' : U.starProjection (EuclideanSpace.single 1 1) = U.starProjection (ε 0) := hp.symm
    rw [hp', if_neg hz, if_pos hk, h5, h7, real_eq, inv_zero]
    rfl
  unfold visit
  rw [g1]
  dsimp only
  rw [if_pos rfl]
  unfold visit
  rw [g2]
  rfl

/-- The hypotheses are met by the plane and the plane orthogonal to it. -/
example : ∃ (A B : MV ℝ) (U V : Submodule ℝ (EuclideanSpace ℝ (Fin 4))), Spans A U ∧ Spans B V ∧
    Visible 0 0 A B (realProd .gp A B) U V ∧ U ⊔ V = ⊤ := by
  obtain ⟨B, hB⟩ := exists_spans (n := 4) (by norm_num) (Submodule.span ℝ {ε 0 + ε 1, ε 2 + ε 3})ᗮ
  refine ⟨_, B, _, _, plane_spans, hB, visible_zero _ _ _ _ _, ?_⟩
  exact Submodule.sup_orthogonal_of_hasOrthogonalProjection

theorem line_spans (hn : n ≤ 63) (i : Fin n) :
    Spans (Finsupp.single (bit i) 1) (Submodule.span ℝ {EuclideanSpace.single i (1 : ℝ)}) := by
  have h1 : outerProd ([EuclideanSpace.single i (1 : ℝ)].map fun x : EuclideanSpace ℝ (Fin n) => vec x) ≠ 0 := by
    intro h
    have := vec_injective hn ((outerProd_single _).symm.trans h)
    simpa using congrArg (fun x : EuclideanSpace ℝ (Fin n) => x i) this
  have h2 := spans_outer (c := 1) one_ne_zero h1
  rw [one_smul, List.map_singleton, outerProd_single, basis_vec] at h2
  have e : {z | z ∈ [EuclideanSpace.single i (1 : ℝ)]} = {EuclideanSpace.single i (1 : ℝ)} := by ext; simp
  rwa [e] at h2

/-- **C63** The meet and the join do not always belong together: for `e1 ∧ e2 ∧ e3` and `e4` the meet is `-1` and the join
`e1 ∧ e2 ∧ e3 ∧ e4`, and `(A ⌊ M⁻¹) ∧ B` is the join with the other sign. -/
theorem C63_relation_is_false {bs : MV ℝ → List Word} (hbs : ∀ X b, X b ≠ 0 → b ∈ bs X) :
    ∃ m, meetAndJoin 4 0 0 bs (Finsupp.single 7 1) (Finsupp.single 8 1) = some (Finsupp.single 0 (-1), Finsupp.single 15 1) ∧
      inv realProd (Finsupp.single 0 (-1) : MV ℝ) = some m ∧
      op (realProd .rcont (Finsupp.single 7 1) m) (Finsupp.single 8 1) = -(Finsupp.single 15 1 : MV ℝ) := by
  have hn : 4 ≤ 63 := by norm_num
  have hB := line_spans hn (3 : Fin 4)
  have hA := (pseudoscalar_spans hn).lcont_vec hn (a := ε 3) (by
    rw [Submodule.top_orthogonal_eq_bot, Submodule.mem_bot]
    intro h
    simpa using congrArg (fun x : EuclideanSpace ℝ (Fin 4) => x 3) h)
  rw [top_inf_eq] at hA
  have e8 : bit (3 : Fin 4) = (8 : Word) := by decide
  have hp1 : par (8 : Word) 15 = 1 := by rw [par_eq]; decide +kernel
  have hp2 : par (8 : Word) 7 = 1 := by rw [par_eq]; decide +kernel
  have hp3 : par (7 : Word) 0 = 0 := by rw [par_eq]; decide +kernel
  have hp4 : par (7 : Word) 8 = 0 := by rw [par_eq]; decide +kernel
  have hs1 : sg ℝ 1 = -1 := by unfold sg; rw [ZMod.val_one]; norm_num
  have hs0 : sg ℝ 0 = 1 := by unfold sg; rw [ZMod.val_zero]; norm_num
  have hd : ∀ b, diagFactor q1 b = 1 := by intro b; unfold diagFactor; simp
  have hA' : Spans (Finsupp.single 7 1 : MV ℝ) (Submodule.span ℝ {ε 3})ᗮ := by
    rw [basis_vec, e8, show full 4 = 15 from by decide, lcont_single, hp1, hs1, hd, if_pos (by decide),
      show (8 : Word) ^^^ 15 = 7 by decide] at hA
    have := hA.smul (c := -1) (by norm_num)
    rw [Finsupp.smul_single] at this
    simpa using this
  rw [e8] at hB
  have h1 : Module.finrank ℝ (Submodule.span ℝ {ε 3}) = 1 :=
    ((hB.homog hn 8 (by simp)).symm.trans (by rw [gradeOf_eq]; decide))
  have h3 : Module.finrank ℝ (Submodule.span ℝ {ε 3})ᗮ = 3 :=
    ((hA'.homog hn 7 (by simp)).symm.trans (by rw [gradeOf_eq]; decide))
  have h4 : Module.finrank ℝ (Submodule.span ℝ {ε 3} ⊔ (Submodule.span ℝ {ε 3})ᗮ : Submodule ℝ (EuclideanSpace ℝ (Fin 4))) = 4 := by
    rw [Submodule.sup_orthogonal_of_hasOrthogonalProjection, finrank_top_eq]
  refine ⟨Finsupp.single 0 (-1), ?_, ?_, ?_⟩
  · rw [meetAndJoin_eq hn bs hA' hB (visible_zero _ _ _ _ _), if_neg (by rw [h1, h3]; norm_num)]
    rw [(impl_eq hn hbs hB hA' (visible_zero _ _ _ _ _) true).1 (Submodule.inf_orthogonal_eq_bot _)]
    rw [h1, h3, h4]
    unfold signChange
    rw [if_pos (by norm_num), op_single', hp2, hs1, if_pos (by decide), show (8 : Word) ^^^ 7 = 15 by decide]
    simp [scalar, Finsupp.single_neg]
  · rw [real_eq]
    have h5 := inv_neg_value (M := scalar 1) (m := scalar 1) ?_
    · simpa [scalar, Finsupp.single_neg] using h5
    · obtain ⟨κ, -, hκ, hi⟩ := (scalar_spans (n := 4) (c := 1) one_ne_zero).inverse hn
      rw [gp_scalar_left, one_smul] at hκ
      have := Finsupp.single_injective _ hκ
      rw [hi, ← this]; simp
  · rw [real_eq, rcont_single, hp3, hs0, hd, if_pos (by decide), op_single', show (7 : Word) ^^^ 0 = 7 by decide, hp4, hs0,
      if_pos (by decide), show (7 : Word) ^^^ 8 = 15 by decide, ← Finsupp.single_neg]
    norm_num

/-! ### C64 -/

/-- `fast_join` of blades, whichever has the higher grade. -/
theorem fastJoin_spec (hn : n ≤ 63) {tol : ℝ} (h0 : 0 ≤ tol) {bs : MV ℝ → List Word} (hbs : ∀ X b, X b ≠ 0 → b ∈ bs X)
    {A B : MV ℝ} {U V : Submodule ℝ (EuclideanSpace ℝ (Fin n))} (hA : Spans A U) (hB : Spans B V) (sA : Sharp tol A)
    (sB : Sharp tol B) :
    ∃ (J : MV ℝ) (S : Submodule ℝ (EuclideanSpace ℝ (Fin n))), fastJoin n tol bs A B = some J ∧ Spans J S ∧
      |rnormSqr realProd J| = 1 ∧ (U ≤ S ∨ V ≤ S) ∧ S ≤ U ⊔ V ∧ (tol = 0 → S = U ⊔ V) := by
  unfold fastJoin
  rw [gradeValue_of h0 sA (hA.homog hn) hA.ne, gradeValue_of h0 sB (hB.homog hn) hB.ne]
  simp only [Nat.cast_le]
  split_ifs with h
  · obtain ⟨J, S, h1, h2, h3, h4, h5⟩ := fastImpl_spec hn h0 hA hB (hbs B) h false
    exact ⟨J, S, h1, h2, h3, Or.inl h4, h5⟩
  · obtain ⟨J, S, h1, h2, h3, h4, h5⟩ := fastImpl_spec hn h0 hB hA (hbs A) (by omega) true
    rw [sup_comm] at h5
    exact ⟨J, S, h1, h2, h3, Or.inr h4, h5⟩

/-- **C64** With a tolerance of zero `fast_join` of two blades returns a blade of norm one of the sum of their subspaces. -/
theorem C64_fast_join (hn : n ≤ 63) {bs : MV ℝ → List Word} (hbs : ∀ X b, X b ≠ 0 → b ∈ bs X) {A B : MV ℝ}
    {U V : Submodule ℝ (EuclideanSpace ℝ (Fin n))} (hA : Spans A U) (hB : Spans B V) :
    ∃ J, fastJoin n 0 bs A B = some J ∧ Spans J (U ⊔ V) ∧ |rnormSqr realProd J| = 1 := by
  obtain ⟨J, S, h1, h2, h3, -, -, h4⟩ := fastJoin_spec hn (le_refl _) hbs hA hB (sharp_zero A) (sharp_zero B)
  exact ⟨J, h1, h4 rfl ▸ h2, h3⟩

/-- **C64** (partial: with a tolerance, directions that leave only small coefficients are dropped, so that the result need
not be the whole sum). With any tolerance `fast_join` of two blades returns a blade of norm one of a subspace of the sum
that contains one of the two. -/
theorem C64_fast_join_tolerance_partial (hn : n ≤ 63) {tol : ℝ} (h0 : 0 ≤ tol) {bs : MV ℝ → List Word}
    (hbs : ∀ X b, X b ≠ 0 → b ∈ bs X) {A B : MV ℝ} {U V : Submodule ℝ (EuclideanSpace ℝ (Fin n))} (hA : Spans A U)
    (hB : Spans B V) (sA : Sharp tol A) (sB : Sharp tol B) :
    ∃ (J : MV ℝ) (S : Submodule ℝ (EuclideanSpace ℝ (Fin n))), fastJoin n tol bs A B = some J ∧ Spans J S ∧
      |rnormSqr realProd J| = 1 ∧ (U ≤ S ∨ V ≤ S) ∧ S ≤ U ⊔ V := by
  obtain ⟨J, S, h1, h2, h3, h4, h5, -⟩ := fastJoin_spec hn h0 hbs hA hB sA sB
  exact ⟨J, S, h1, h2, h3, h4, h5⟩

/-- **C64** The fast join with zero is zero. -/
theorem C64_zero {tol : ℝ} (bs : MV ℝ → List Word) (A : MV ℝ) :
    fastJoin n tol bs 0 A = some 0 ∧ fastJoin n tol bs A 0 = some 0 := by
  have hz : gradeValue tol (0 : MV ℝ) = -2 := by unfold gradeValue; simp
  unfold fastJoin
  rw [hz]
  simp only
  constructor <;> split_ifs <;> simp [fastJoinImpl]

/-- **C64** `fast_meet_and_join` with zero divides by zero, unlike `meet_and_join`. -/
theorem C64_zero_is_false {tol : ℝ} (bs : MV ℝ → List Word) (A : MV ℝ) :
    fastMeetAndJoin n tol bs 0 A = none ∧ fastMeetAndJoin n tol bs A 0 = none := by
  unfold fastMeetAndJoin
  rw [(C64_zero bs A).1, (C64_zero bs A).2, real_eq]
  simp [inv_zero]

/-- **C64** With a tolerance of zero `fast_meet_and_join` of two blades returns blades of the intersection and of the sum
of their subspaces, the join of norm one, and the two belong together. -/
theorem C64_fast_meet_and_join (hn : n ≤ 63) {bs : MV ℝ → List Word} (hbs : ∀ X b, X b ≠ 0 → b ∈ bs X) {A B : MV ℝ}
    {U V : Submodule ℝ (EuclideanSpace ℝ (Fin n))} (hA : Spans A U) (hB : Spans B V) :
    ∃ M J, fastMeetAndJoin n 0 bs A B = some (M, J) ∧ Spans M (U ⊓ V) ∧ Spans J (U ⊔ V) ∧ |rnormSqr realProd J| = 1 ∧
      ∃ m, inv realProd M = some m ∧ op (realProd .rcont A m) B = J := by
  obtain ⟨J, h1, h2, h3⟩ := C64_fast_join hn hbs hA hB
  obtain ⟨j, h4, h5⟩ := meet_of_join hn hA hB h2
  obtain ⟨m, h6, -⟩ := join_of_meet hn hA hB h5
  have h7 := relation hn hA hB h2 h4 h6
  rw [← real_eq] at h4 h5 h6 h7
  refine ⟨_, J, ?_, h5, h2, h3, m, h6, h7⟩
  unfold fastMeetAndJoin
  rw [h1]
  simp only [Option.bind_eq_bind, Option.bind_some, h4]

/-- The plane and itself, on which `meet_and_join` fails. -/
example {bs : MV ℝ → List Word} (hbs : ∀ X b, X b ≠ 0 → b ∈ bs X) :
    ∃ M J, fastMeetAndJoin 4 0 bs (op (vectorOf (ε 0 + ε 1)) (vectorOf (ε 2 + ε 3)))
      (op (vectorOf (ε 0 + ε 1)) (vectorOf (ε 2 + ε 3))) = some (M, J) ∧ Spans M (Submodule.span ℝ {ε 0 + ε 1, ε 2 + ε 3}) := by
  obtain ⟨M, J, h1, h2, -⟩ := C64_fast_meet_and_join (by norm_num) hbs plane_spans plane_spans
  exact ⟨M, J, h1, inf_idem (Submodule.span ℝ {ε 0 + ε 1, ε 2 + ε 3}) ▸ h2⟩

/-- A tolerance that the blades pass. -/
example : ∃ (A : MV ℝ) (U : Submodule ℝ (EuclideanSpace ℝ (Fin 4))), Spans A U ∧ Sharp (1 / 2) A := by
  refine ⟨_, _, pseudoscalar_spans (by norm_num), fun b => ?_⟩
  rw [Finsupp.single_apply]
  split_ifs <;> norm_num

/-! ### C66 -/

/-- **C66** If the tolerance separates the coefficients of the geometric product from zero, the delta product of two blades
is a blade of the directions in the sum of their subspaces that are orthogonal to all that they have in common; its grade
is the number of factors of the two that are not in common. -/
theorem C66_delta_product (hn : n ≤ 63) {tol : ℝ} (h0 : 0 ≤ tol) {A B : MV ℝ}
    {U V : Submodule ℝ (EuclideanSpace ℝ (Fin n))} (hA : Spans A U) (hB : Spans B V) (hs : Sharp tol (realProd .gp A B)) :
    Spans (deltaValue realProd tol A B) ((U ⊔ V) ⊓ (U ⊓ V)ᗮ) ∧
      gradeValue tol (deltaValue realProd tol A B) + 2 * Module.finrank ℝ (U ⊓ V : Submodule ℝ (EuclideanSpace ℝ (Fin n))) =
        Module.finrank ℝ U + Module.finrank ℝ V := by
  obtain ⟨g, h1, h2, h3⟩ := delta hn hA hB
  rw [real_eq] at hs
  rw [deltaValue_of h0 hs h2 h3.ne]
  refine ⟨h3, ?_⟩
  rw [gradeValue_of h0 (sharp_gradePart hs _) (h3.homog hn) h3.ne]
  have e1 := finrank_perp (inf_le_left.trans le_sup_left : U ⊓ V ≤ U ⊔ V)
  have e5 := Submodule.finrank_sup_add_finrank_inf_eq U V
  omega

example : ∃ (A B : MV ℝ) (U V : Submodule ℝ (EuclideanSpace ℝ (Fin 4))), Spans A U ∧ Spans B V ∧
    Sharp 0 (realProd .gp A B) := ⟨_, _, _, _, plane_spans, plane_spans, sharp_zero _⟩

end GATL.Props
