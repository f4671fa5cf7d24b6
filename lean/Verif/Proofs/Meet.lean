import Verif.Model.Meet
import Verif.Proofs.Delta
import Verif.Props.Enumerate

/-!
# Meet and join
-/

namespace GATL

open Spec Props

variable {n : Nat}

local notation "q1" => (fun _ => (1 : ℝ) : Fin 64 → ℝ)
local notation "L" => orthProd (diagFactor q1) GradedProduct.lcont
local notation "G" => orthProd (diagFactor q1) GradedProduct.gp
local notation "𝔼" => EuclideanSpace ℝ (Fin n)

theorem real_eq : (realProd : Metric ℝ) = orthProd (diagFactor q1) := by
  unfold realProd; rw [realFactor_eq]

/-! ### Values -/

theorem gradeValue_of {tol : ℝ} (h0 : 0 ≤ tol) {A : MV ℝ} {k : Nat} (hs : Sharp tol A) (hA : Homogeneous k A) (hne : A ≠ 0) :
    gradeValue tol A = k := by
  have hsig : ∀ b, b ∈ A.support.filter (fun b => tol < |A b|) ↔ A b ≠ 0 := by
    intro b
    rw [Finset.mem_filter, Finsupp.mem_support_iff]
    exact ⟨fun h => h.1, fun h => ⟨h, (hs b).resolve_left h⟩⟩
  obtain ⟨c, hc⟩ := Finsupp.ne_iff.mp hne
  have hg : ∀ b ∈ A.support.filter (fun b => tol < |A b|), ones b = k := by
    intro b hb; rw [← gradeOf_eq]; exact hA b ((hsig b).mp hb)
  have hsup : (A.support.filter (fun b => tol < |A b|)).sup ones = k :=
    le_antisymm (Finset.sup_le fun b hb => (hg b hb).le)
      ((hg c ((hsig c).mpr hc)).symm.le.trans (Finset.le_sup (f := ones) ((hsig c).mpr hc)))
  unfold gradeValue
  simp only [hsup]
  rw [if_neg (Finset.ne_empty_of_mem ((hsig c).mpr hc)), if_pos hg]

theorem takeGrade_eq (k : ℤ) (A : MV ℝ) : takeGradeValue k A = gradePart k A := by
  unfold takeGradeValue gradePart
  congr 1
  funext b
  rw [gradeOf_eq]

theorem deltaValue_metric {m : Metric ℝ} {tol : ℝ} {A B : MV ℝ} {g : Nat} (hs : Sharp tol (m .gp A B))
    (hle : ∀ b, m .gp A B b ≠ 0 → gradeOf b ≤ g) (hne : gradePart (g : ℤ) (m .gp A B) ≠ 0) :
    deltaValue m tol A B = gradePart (g : ℤ) (m .gp A B) := by
  unfold deltaValue
  rw [takeGrade_eq]
  congr 1
  generalize m .gp A B = X at *
  have hsig : ∀ b, b ∈ X.support.filter (fun b => tol < |X b|) ↔ X b ≠ 0 := by
    intro b
    rw [Finset.mem_filter, Finsupp.mem_support_iff]
    exact ⟨fun h => h.1, fun h => ⟨h, (hs b).resolve_left h⟩⟩
  obtain ⟨c, hc⟩ := Finsupp.ne_iff.mp hne
  unfold gradePart at hc
  have hc1 : (gradeOf c : ℤ) = g := by
    by_contra h
    exact hc (Finsupp.filter_apply_neg (fun b => (gradeOf b : ℤ) = g) _ h)
  have hc : X c ≠ 0 := by
    intro h
    apply hc
    rw [Finsupp.filter_apply, h]; simp
  have hc' := (hsig c).mpr hc
  have hsup : (X.support.filter (fun b => tol < |X b|)).sup ones = g := by
    refine le_antisymm (Finset.sup_le fun b hb => ?_) ?_
    · rw [← gradeOf_eq]; exact hle b ((hsig b).mp hb)
    · have : ones c = g := by rw [← gradeOf_eq]; exact_mod_cast hc1
      exact this.symm.le.trans (Finset.le_sup (f := ones) hc')
  unfold largestGradeValue
  simp only [hsup]
  rw [if_neg (Finset.ne_empty_of_mem hc')]

theorem deltaValue_of {tol : ℝ} (_h0 : 0 ≤ tol) {A B : MV ℝ} {g : Nat} (hs : Sharp tol (G A B))
    (hle : ∀ b, G A B b ≠ 0 → gradeOf b ≤ g) (hne : gradePart (g : ℤ) (G A B) ≠ 0) :
    deltaValue realProd tol A B = gradePart (g : ℤ) (G A B) := by
  rw [real_eq]
  exact deltaValue_metric hs hle hne

theorem isZero_iff {tol : ℝ} (h0 : 0 ≤ tol) {A : MV ℝ} (hs : Sharp tol A) : isZeroValue tol A = true ↔ A = 0 := by
  unfold isZeroValue
  rw [decide_eq_true_iff]
  constructor
  · intro h
    ext b
    exact (hs b).resolve_right (not_lt.mpr (h b))
  · rintro rfl b
    simpa using h0

theorem largest_ne {bs : List Word} {A : MV ℝ} (h : ∃ b ∈ bs, A b ≠ 0) : A (largestComponent bs A) ≠ 0 := by
  have key : ∀ (bs : List Word) (s : Word × ℝ), (s.2 = -1 ∨ s.2 = |A s.1|) →
      let r := bs.foldl (fun s b => if s.2 < |A b| then (b, |A b|) else s) s
      (r.2 = -1 ∨ r.2 = |A r.1|) ∧ s.2 ≤ r.2 ∧ ∀ b ∈ bs, |A b| ≤ r.2 := by
    intro bs
    induction bs with
    | nil => intro s hs; exact ⟨hs, le_refl _, by simp⟩
    | cons b bs ih =>
      intro s hs
      rw [List.foldl_cons]
      by_cases hb : s.2 < |A b|
      · rw [if_pos hb]
        obtain ⟨h1, h2, h3⟩ := ih (b, |A b|) (Or.inr rfl)
        refine ⟨h1, hb.le.trans h2, ?_⟩
        intro c hc
        rcases List.mem_cons.mp hc with rfl | hc
        · exact h2
        · exact h3 c hc
      · rw [if_neg hb]
        obtain ⟨h1, h2, h3⟩ := ih s hs
        refine ⟨h1, h2, ?_⟩
        intro c hc
        rcases List.mem_cons.mp hc with rfl | hc
        · exact (not_lt.mp hb).trans h2
        · exact h3 c hc
  obtain ⟨b, hb, hne⟩ := h
  obtain ⟨h1, -, h3⟩ := key bs (0, -1) (Or.inl rfl)
  have h4 := h3 b hb
  have h5 : 0 < |A b| := abs_pos.mpr hne
  intro h0
  unfold largestComponent at h0
  rcases h1 with h1 | h1
  · rw [h1] at h4; linarith
  · rw [h0, abs_zero] at h1; rw [h1] at h4; linarith

theorem unitVector_eq (i : Fin n) : unitVector (i + 1) = vec (EuclideanSpace.single i (1 : ℝ)) := by
  rw [basis_vec]; rfl

theorem takeGrade_vec (hn : n ≤ 63) (x : 𝔼) : takeGradeValue 1 (vec x) = vec x := by
  rw [takeGrade_eq, Iso.gradePart_of_homog (vec_homog hn x)]; simp

theorem projectVector_eq (hn : n ≤ 63) {B : MV ℝ} {V : Submodule ℝ 𝔼} (hB : Spans B V) {κ : ℝ} (h0 : κ ≠ 0)
    (hκ : G B B = scalar κ) (a : 𝔼) : projectVector (vec a) B (κ⁻¹ • B) = vec (V.starProjection a) := by
  unfold projectVector
  rw [real_eq, hB.project hn h0 hκ, takeGrade_vec hn]

/-! ### Subspaces -/

theorem proj_sup {W N : Submodule ℝ 𝔼} (h : N ≤ Wᗮ) (x : 𝔼) :
    (W ⊔ N).starProjection x = W.starProjection x + N.starProjection x := by
  have h' : W ≤ Nᗮ := (Submodule.le_orthogonal_orthogonal W).trans (Submodule.orthogonal_le h)
  refine Submodule.eq_starProjection_of_mem_orthogonal ?_ ?_
  · exact Submodule.add_mem_sup (Submodule.starProjection_apply_mem _ _) (Submodule.starProjection_apply_mem _ _)
  · rw [← Submodule.inf_orthogonal]
    constructor
    · have : x - (W.starProjection x + N.starProjection x) = (x - W.starProjection x) - N.starProjection x := by abel
      rw [this]
      exact Submodule.sub_mem _ (Submodule.sub_starProjection_mem_orthogonal _) (h (Submodule.starProjection_apply_mem _ _))
    · have : x - (W.starProjection x + N.starProjection x) = (x - N.starProjection x) - W.starProjection x := by abel
      rw [this]
      exact Submodule.sub_mem _ (Submodule.sub_starProjection_mem_orthogonal _) (h' (Submodule.starProjection_apply_mem _ _))

theorem proj_part {U W N : Submodule ℝ 𝔼} (hW : W ≤ U) (hN : N ≤ Uᗮ) (x : 𝔼) :
    U.starProjection ((W ⊔ N).starProjection x) = W.starProjection x := by
  rw [proj_sup (hN.trans (Submodule.orthogonal_le hW))]
  refine Submodule.eq_starProjection_of_mem_orthogonal (hW (Submodule.starProjection_apply_mem _ _)) ?_
  rw [add_sub_cancel_left]
  exact hN (Submodule.starProjection_apply_mem _ _)

/-- The meet from the join. -/
theorem meet_of_join (hn : n ≤ 63) {A B J : MV ℝ} {U V : Submodule ℝ 𝔼} (hA : Spans A U) (hB : Spans B V)
    (hJ : Spans J (U ⊔ V)) : ∃ j, inv (orthProd (diagFactor q1)) J = some j ∧ Spans (L (L B j) A) (U ⊓ V) := by
  obtain ⟨κ, h0, -, h1⟩ := hJ.inverse hn
  have hj := hJ.smul (inv_ne_zero h0)
  have e1 : V ⊓ (U ⊔ V)ᗮ = ⊥ := by
    rw [eq_bot_iff, ← Submodule.inf_orthogonal_eq_bot (U ⊔ V)]
    exact inf_le_inf_right _ le_sup_right
  have h2 := hB.lcont hn hj e1
  have e2 : (U ⊔ V) ⊓ Vᗮ ⊓ Uᗮ = ⊥ := by
    rw [inf_assoc, Submodule.inf_orthogonal, sup_comm V U, Submodule.inf_orthogonal_eq_bot]
  have h3 := h2.lcont hn hA e2
  refine ⟨_, h1, ?_⟩
  have e3 : U ⊓ ((U ⊔ V) ⊓ Vᗮ)ᗮ = U ⊓ V := by
    have e4 : (U ⊔ V) ⊓ Vᗮ = ((U ⊔ V)ᗮ ⊔ V)ᗮ := by
      rw [← Submodule.inf_orthogonal, Submodule.orthogonal_orthogonal]
    rw [e4, Submodule.orthogonal_orthogonal]
    refine le_antisymm ?_ (inf_le_inf_left _ le_sup_right)
    rintro x ⟨hx, hx'⟩
    obtain ⟨y, hy, v, hv, rfl⟩ := Submodule.mem_sup.mp hx'
    have h5 : y = 0 := by
      have : y ∈ (U ⊔ V) ⊓ (U ⊔ V)ᗮ := by
        refine ⟨?_, hy⟩
        have : y = (y + v) - v := by abel
        rw [this]
        exact Submodule.sub_mem _ (Submodule.mem_sup_left hx) (Submodule.mem_sup_right hv)
      rwa [Submodule.inf_orthogonal_eq_bot, Submodule.mem_bot] at this
    rw [h5, zero_add] at hx ⊢
    exact ⟨hx, hv⟩
  rwa [e3] at h3

/-- The join from the meet. -/
theorem join_of_meet (hn : n ≤ 63) {A B M : MV ℝ} {U V : Submodule ℝ 𝔼} (hA : Spans A U) (hB : Spans B V)
    (hM : Spans M (U ⊓ V)) : ∃ m, inv (orthProd (diagFactor q1)) M = some m ∧
      Spans (op (orthProd (diagFactor q1) .rcont A m) B) (U ⊔ V) := by
  obtain ⟨κ, h0, -, h1⟩ := hM.inverse hn
  have hm := hM.smul (inv_ne_zero h0)
  have e1 : U ⊓ V ⊓ Uᗮ = ⊥ := by
    rw [eq_bot_iff, ← Submodule.inf_orthogonal_eq_bot U]
    exact inf_le_inf_right _ inf_le_left
  have h2 := hA.rcont hn hm e1
  have e2 : U ⊓ (U ⊓ V)ᗮ ⊓ V = ⊥ := by
    rw [eq_bot_iff, ← Submodule.inf_orthogonal_eq_bot (U ⊓ V)]
    exact le_inf (le_inf (inf_le_left.trans inf_le_left) inf_le_right) (inf_le_left.trans inf_le_right)
  have h3 := h2.op hn hB e2
  refine ⟨_, h1, ?_⟩
  have e3 : U ⊓ (U ⊓ V)ᗮ ⊔ V = U ⊔ V := by
    refine le_antisymm (sup_le_sup_right inf_le_left _) (sup_le ?_ le_sup_right)
    conv_lhs => rw [← split_perp (inf_le_left : U ⊓ V ≤ U)]
    exact sup_le_sup_left inf_le_right _
  rwa [e3] at h3

theorem inv_zero : inv (orthProd (diagFactor q1)) (0 : MV ℝ) = none := by
  unfold inv invScalar rnormSqr
  rw [prod_zero_left]; simp

theorem outer_append (vs ws : List (MV ℝ)) : outerProd (vs ++ ws) = op (outerProd vs) (outerProd ws) := by
  induction vs with
  | nil =>
    have e : outerProd ([] : List (MV ℝ)) = scalar 1 := rfl
    rw [e, op_scalar_left, one_smul, List.nil_append]
  | cons v vs ih =>
    have e : ∀ us : List (MV ℝ), outerProd (v :: us) = op v (outerProd us) := fun _ => rfl
    rw [List.cons_append, e, e, ih, op_assoc']

theorem outerProd_single (v : MV ℝ) : outerProd [v] = v := by
  have e : outerProd [v] = op v (scalar 1) := rfl
  rw [e, op_scalar_right, one_smul]

/-- As many vectors of a subspace as its dimension: their outer product spans it unless it is zero. -/
theorem spans_full (hn : n ≤ 63) {W : Submodule ℝ 𝔼} {xs : List 𝔼} (h : ∀ x ∈ xs, x ∈ W)
    (hl : xs.length = Module.finrank ℝ W) (hne : outerProd (xs.map vec) ≠ 0) : Spans (outerProd (xs.map vec)) W := by
  have h1 := spans_outer (c := 1) one_ne_zero hne
  rw [one_smul] at h1
  have h2 : Submodule.span ℝ {x | x ∈ xs} = W := by
    refine Submodule.eq_of_le_of_finrank_eq (Submodule.span_le.mpr h) ?_
    rw [outer_finrank hn hne, hl]
  rwa [h2] at h1

theorem lcont_scalar_one (X : MV ℝ) : L (scalar 1) X = X := by
  rw [lcont_scalar _ (by unfold diagFactor; simp), one_smul]

end GATL
