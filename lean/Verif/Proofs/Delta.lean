import Verif.Proofs.Subspaces
import Verif.Props.Spaces

/-!
# The delta product of blades and the largest coordinate of a blade
-/

namespace GATL

open Spec Props

variable {n : Nat}

local notation "q1" => (fun _ => (1 : ℝ) : Fin 64 → ℝ)
local notation "L" => orthProd (diagFactor q1) GradedProduct.lcont
local notation "G" => orthProd (diagFactor q1) GradedProduct.gp
local notation "𝔼" => EuclideanSpace ℝ (Fin n)

theorem gp_orthogonal_list {Y : MV ℝ} : ∀ {ws : List (MV ℝ)}, Orthogonal q1 ws → (∀ w ∈ ws, L w Y = 0) →
    G (outerProd ws) Y = op (outerProd ws) Y
  | [], _, _ => by
    have e : outerProd ([] : List (MV ℝ)) = scalar 1 := rfl
    rw [e, gp_scalar_left, op_scalar_left]
  | w :: ws, h, hY => by
    obtain ⟨h1, h2, h3⟩ := orthogonal_cons q1 h
    have e : outerProd (w :: ws) = op w (outerProd ws) := rfl
    have h4 : L w (outerProd ws) = 0 := by
      rw [← orthogonal_outer q1 h3]; exact lcont_orthogonal q1 h1 h3.1 h2
    have h5 : op w (outerProd ws) = G w (outerProd ws) := by rw [gp_vector q1 h1, h4, zero_add]
    have ih := gp_orthogonal_list h3 fun v hv => hY v (by simp [hv])
    rw [e, h5, gp_assoc, ih, gp_vector q1 h1, lcont_op_involute q1 h1, h4, hY w (by simp), op_zero_left,
      op_zero_right, add_zero, zero_add, ← h5, op_assoc']

/-- Products of orthogonal blades are outer products. -/
theorem gp_perp (hn : n ≤ 63) {A B : MV ℝ} {U V : Submodule ℝ 𝔼} (hA : Spans A U) (hB : Spans B V) (h : U ≤ Vᗮ) :
    G A B = op A B := by
  obtain ⟨xs, ho, h1, h2⟩ := exists_orthogonal hn U
  have h3 := spans_outer (c := 1) one_ne_zero h2
  rw [h1] at h3
  obtain ⟨c, -, rfl⟩ := hA.unique hn h3
  rw [one_smul, prod_smul_left, op_smul_left, gp_orthogonal_list ho]
  intro w hw
  obtain ⟨x, hx, rfl⟩ := List.mem_map.mp hw
  exact hB.perp hn (h (h1 ▸ Submodule.subset_span hx))

theorem gp_grades {r s : Nat} {A B : MV ℝ} (hA : Homogeneous r A) (hB : Homogeneous s B) {b : Word}
    (hb : G A B b ≠ 0) : gradeOf b ≤ r + s := by
  revert b
  refine homog_induction (p := fun A => ∀ {b : Word}, G A B b ≠ 0 → gradeOf b ≤ r + s) hA ?_ ?_ ?_
  · intro b hb; rw [prod_zero_left] at hb; exact absurd rfl hb
  · intro A A' h1 h2 b hb
    rw [prod_add_left, Finsupp.add_apply] at hb
    by_cases h : G A B b = 0
    · rw [h, zero_add] at hb; exact h2 hb
    · exact h1 h
  · intro l x hl
    refine homog_induction (p := fun B => ∀ {b : Word}, G (Finsupp.single l x) B b ≠ 0 → gradeOf b ≤ r + s) hB ?_ ?_ ?_
    · intro b hb; rw [prod_zero_right] at hb; exact absurd rfl hb
    · intro A A' h1 h2 b hb
      rw [prod_add_right, Finsupp.add_apply] at hb
      by_cases h : G (Finsupp.single l x) A b = 0
      · rw [h, zero_add] at hb; exact h2 hb
      · exact h1 h
    · intro m y hm b hb
      unfold orthProd at hb
      rw [bilin_single, orthMul_gp] at hb
      have := Finsupp.single_apply_ne_zero.mp hb
      rw [this.1, gradeOf_eq]
      dsimp only
      have := ones_xor_add_two_and l m
      omega

/-- A subspace is the sum of a part and its complement. -/
theorem split_perp {U W : Submodule ℝ 𝔼} (h : W ≤ U) : (U ⊓ Wᗮ) ⊔ W = U := by
  rw [sup_comm, inf_comm]
  exact Submodule.sup_orthogonal_inf_of_hasOrthogonalProjection h

theorem finrank_perp {U W : Submodule ℝ 𝔼} (h : W ≤ U) :
    Module.finrank ℝ (U ⊓ Wᗮ : Submodule ℝ 𝔼) + Module.finrank ℝ W = Module.finrank ℝ U := by
  have h1 := Submodule.finrank_sup_add_finrank_inf_eq (U ⊓ Wᗮ) W
  rw [split_perp h] at h1
  have h2 : U ⊓ Wᗮ ⊓ W = ⊥ := by
    rw [eq_bot_iff, inf_assoc, inf_comm Wᗮ W, Submodule.inf_orthogonal_eq_bot]
    exact inf_le_right
  rw [h2, finrank_bot, add_zero] at h1
  exact h1.symm

/-- The geometric product of blades: its part of the largest grade spans the sum of the two subspaces less what they
have in common. -/
theorem delta (hn : n ≤ 63) {A B : MV ℝ} {U V : Submodule ℝ 𝔼} (hA : Spans A U) (hB : Spans B V) :
    ∃ g : ℕ, g + 2 * Module.finrank ℝ (U ⊓ V : Submodule ℝ 𝔼) = Module.finrank ℝ U + Module.finrank ℝ V ∧
      (∀ b, G A B b ≠ 0 → gradeOf b ≤ g) ∧ Spans (gradePart (g : ℤ) (G A B)) ((U ⊔ V) ⊓ (U ⊓ V)ᗮ) := by
  have hWU : U ⊓ V ≤ U := inf_le_left
  have hWV : U ⊓ V ≤ V := inf_le_right
  generalize hW : U ⊓ V = W at *
  obtain ⟨A', hA'⟩ := exists_spans hn (U ⊓ Wᗮ)
  obtain ⟨B', hB'⟩ := exists_spans hn (V ⊓ Wᗮ)
  obtain ⟨C, hC⟩ := exists_spans hn W
  have e1 : U ⊓ Wᗮ ⊓ W = ⊥ := by
    rw [eq_bot_iff, inf_assoc, inf_comm Wᗮ W, Submodule.inf_orthogonal_eq_bot]
    exact inf_le_right
  have e2 : W ⊓ (V ⊓ Wᗮ) = ⊥ := by
    rw [eq_bot_iff, inf_comm V, ← inf_assoc, Submodule.inf_orthogonal_eq_bot]
    exact inf_le_left
  have e3 : U ⊓ Wᗮ ⊓ (V ⊓ Wᗮ) = ⊥ := by
    rw [eq_bot_iff, ← Submodule.inf_orthogonal_eq_bot W, ← hW]
    exact le_inf (le_inf (inf_le_left.trans inf_le_left) (inf_le_right.trans inf_le_left)) (inf_le_left.trans inf_le_right)
  have hAC := hA'.op hn hC e1
  have hCB := hC.op hn hB' e2
  rw [split_perp hWU] at hAC
  rw [sup_comm, split_perp hWV] at hCB
  obtain ⟨α, hα, eA⟩ := hA.unique hn hAC
  obtain ⟨β, hβ, eB⟩ := hB.unique hn hCB
  obtain ⟨κ, hκ, eC⟩ := hC.square hn
  rw [← gp_perp hn hA' hC inf_le_right] at eA
  rw [← gp_perp hn hC hB' (by
    refine (Submodule.le_orthogonal_orthogonal W).trans (Submodule.orthogonal_le inf_le_right))] at eB
  have eG : G A B = (α * β * κ) • G A' B' := by
    rw [eA, eB, prod_smul_left, prod_smul_right, gp_assoc, ← gp_assoc q1 C C, eC, gp_scalar_left, prod_smul_right,
      smul_smul, smul_smul]
  have h1 := finrank_perp hWU
  have h2 := finrank_perp hWV
  have hne : α * β * κ ≠ 0 := mul_ne_zero (mul_ne_zero hα hβ) hκ
  refine ⟨Module.finrank ℝ (U ⊓ Wᗮ : Submodule ℝ 𝔼) + Module.finrank ℝ (V ⊓ Wᗮ : Submodule ℝ 𝔼), by omega, ?_, ?_⟩
  · intro b hb
    rw [eG, Finsupp.smul_apply, smul_eq_mul] at hb
    exact gp_grades (hA'.homog hn) (hB'.homog hn) (right_ne_zero_of_mul hb)
  · rw [eG, gradePart_smul, ← op_gradePart _ (diagFactor_zero _) (hA'.homog hn) (hB'.homog hn)]
    have h3 := (hA'.op hn hB' e3).smul hne
    have e4 : U ⊓ Wᗮ ⊔ V ⊓ Wᗮ = (U ⊔ V) ⊓ Wᗮ := by
      refine le_antisymm (sup_le (inf_le_inf_right _ le_sup_left) (inf_le_inf_right _ le_sup_right)) ?_
      rintro x ⟨hx, hx'⟩
      obtain ⟨u, hu, v, hv, rfl⟩ := Submodule.mem_sup.mp hx
      rw [← split_perp hWU] at hu
      rw [← split_perp hWV] at hv
      obtain ⟨u1, hu1, w1, hw1, rfl⟩ := Submodule.mem_sup.mp hu
      obtain ⟨v1, hv1, w2, hw2, rfl⟩ := Submodule.mem_sup.mp hv
      have h5 : w1 + w2 ∈ Wᗮ := by
        have : w1 + w2 = (u1 + w1 + (v1 + w2)) - u1 - v1 := by abel
        rw [this]
        exact Submodule.sub_mem _ (Submodule.sub_mem _ hx' hu1.2) hv1.2
      have h6 : w1 + w2 = 0 := by
        have : w1 + w2 ∈ W ⊓ Wᗮ := ⟨Submodule.add_mem _ hw1 hw2, h5⟩
        rwa [Submodule.inf_orthogonal_eq_bot, Submodule.mem_bot] at this
      have : u1 + w1 + (v1 + w2) = u1 + v1 + (w1 + w2) := by abel
      rw [this, h6, add_zero]
      exact Submodule.add_mem_sup hu1 hv1
    rwa [e4] at h3

/-! ### Coordinates -/

theorem basis_vec (i : Fin n) : vec (EuclideanSpace.single i (1 : ℝ)) = Finsupp.single (bit i) 1 := by
  unfold vec vectorOf
  rw [Finset.sum_eq_single i]
  · simp only [EuclideanSpace.single_apply, if_true, one_smul]; rfl
  · intro j _ hj
    simp only [EuclideanSpace.single_apply, if_neg hj, zero_smul]
  · simp

theorem Spec.Spans.space (hn : n ≤ 63) {A : MV ℝ} {U : Submodule ℝ 𝔼} (hA : Spans A U) : A ∈ Spec.space ℝ n := by
  obtain ⟨c, xs, -, -, rfl, -⟩ := hA.outer
  refine Submodule.smul_mem _ _ (outer_mem_space ?_)
  intro v hv
  obtain ⟨x, -, rfl⟩ := List.mem_map.mp hv
  exact vectorOf_space _ (by omega)

theorem lcont_blade_op (hn : n ≤ 63) {x : 𝔼} (D : MV ℝ) (m : Nat) : ∀ (E : Word), ones E = m →
    (∀ i : Fin 64, E.getLsbD i = true → i.val < n) → (∀ i : Fin n, E.getLsbD i = true → x i = 0) →
    ∃ s : ℝ, s ≠ 0 ∧ L (Finsupp.single E 1) (op (vec x) D) = s • op (vec x) (L (Finsupp.single E 1) D) := by
  induction m with
  | zero =>
    intro E h _ _
    rw [ones_eq_zero] at h
    subst h
    have := lcont_one_left q1 (op (vec x) D)
    have h2 := lcont_one_left q1 D
    unfold scalar at this h2
    exact ⟨1, one_ne_zero, by rw [this, h2, one_smul]⟩
  | succ m ih =>
    intro E h hE hx
    have hne : E ≠ 0 := by rintro rfl; rw [ones_zero] at h; omega
    obtain ⟨i, hi, hlow⟩ := exists_low hne
    have hlow' : ∀ j < i.val, (bit i ^^^ E).getLsbD j = false := by
      intro j hj
      rw [BitVec.getLsbD_xor, hlow j hj, getLsbD_bit i j i.2]
      simp; omega
    have e : op (Finsupp.single (bit i) 1) (Finsupp.single (bit i ^^^ E) (1 : ℝ)) = Finsupp.single E 1 := by
      rw [op_single', par_bit_low hlow', if_pos (bit_and_xor hi), xor_xor_cancel]
      simp
    have h1 := ones_bit_xor hi
    have hsub : ∀ j < 64, (bit i ^^^ E).getLsbD j = true → E.getLsbD j = true := by
      intro j hj h2
      rw [BitVec.getLsbD_xor, getLsbD_bit i j i.2] at h2
      by_cases hji : j = i.val
      · rw [hji]; exact hi
      · simpa [hji] using h2
    obtain ⟨s, hs, ih⟩ := ih (bit i ^^^ E) (by omega)
      (fun j hj => hE j (hsub j j.2 hj)) (fun j hj => hx j (hsub j (by omega) hj))
    have hin := hE i hi
    have hv : Homogeneous 1 (Finsupp.single (bit i) (1 : ℝ)) := homog_bit i
    have h0 : vdot q1 (Finsupp.single (bit i) (1 : ℝ)) (vec x) = 0 := by
      have := basis_vec (⟨i, hin⟩ : Fin n)
      rw [← this, vdot_vec hn, EuclideanSpace.inner_single_left]
      simpa using hx ⟨i, hin⟩ hi
    refine ⟨-s, neg_ne_zero.mpr hs, ?_⟩
    rw [← e, lcont_op, ih, prod_smul_right, lcont_wedge q1 hv (vec_homog hn x), h0, zero_smul, zero_sub, lcont_op,
      smul_neg, neg_smul]

theorem lcont_blade_zero (E : Word) (D : MV ℝ) : ∃ s : ℝ, s ≠ 0 ∧ L (Finsupp.single E 1) D 0 = s * D E := by
  refine ⟨sg ℝ (par E E) * diagFactor q1 E, ?_, ?_⟩
  · refine mul_ne_zero ?_ ?_
    · exact left_ne_zero_of_mul (sg_mul_self (K := ℝ) (par E E) ▸ one_ne_zero)
    · unfold diagFactor; simp
  · induction D using mv_induction with
    | h0 => rw [prod_zero_right]; simp
    | hadd A B hA hB => rw [prod_add_right, Finsupp.add_apply, hA, hB, Finsupp.add_apply, mul_add]
    | hs b a =>
      rw [lcont_single, one_mul]
      by_cases h : E = b
      · subst h
        rw [if_pos (by simp), show E ^^^ E = 0 by simp, Finsupp.single_eq_same, Finsupp.single_eq_same, mul_comm]
      · rw [Finsupp.single_eq_of_ne (Ne.symm (fun h0 => h (xor_eq_zero.mp h0))), Finsupp.single_eq_of_ne h, mul_zero]

/-- A vector of the subspace whose coordinates vanish where the blade has a component is zero. -/
theorem Spec.Spans.coordinates (hn : n ≤ 63) {D : MV ℝ} {S : Submodule ℝ 𝔼} (hD : Spans D S) {E : Word} (hE : D E ≠ 0)
    {x : 𝔼} (hx : x ∈ S) (h : ∀ i : Fin n, E.getLsbD i = true → x i = 0) : x = 0 := by
  have hm : ∀ i : Fin 64, E.getLsbD i = true → i.val < n := mem_space.mp (hD.space hn) E hE
  obtain ⟨s, hs, h1⟩ := lcont_blade_op hn D _ E rfl hm h
  rw [hD.inside hn hx, prod_zero_right] at h1
  have h2 := (smul_eq_zero.mp h1.symm).resolve_left hs
  have hg : ones E = Module.finrank ℝ S := by rw [← gradeOf_eq]; exact hD.homog hn E hE
  have h3 : L (Finsupp.single E 1) D = scalar (L (Finsupp.single E 1) D 0) := by
    have := lcont_same q1 (homog_single (K := ℝ) 1 hg) (hD.homog hn)
    rw [this, scalar_zero_apply]
  obtain ⟨t, ht, h4⟩ := lcont_blade_zero E D
  rw [h3, op_scalar_right, h4] at h2
  exact vec_injective hn ((smul_eq_zero.mp h2).resolve_left (mul_ne_zero ht hE))

/-- The projections of the basis vectors of a component of the blade span the subspace. -/
theorem Spec.Spans.factors (hn : n ≤ 63) {D : MV ℝ} {S : Submodule ℝ 𝔼} (hD : Spans D S) {E : Word} (hE : D E ≠ 0) :
    Submodule.span ℝ ((fun i : Fin n => S.starProjection (EuclideanSpace.single i 1)) '' {i | E.getLsbD i = true}) = S := by
  set T := Submodule.span ℝ ((fun i : Fin n => S.starProjection (EuclideanSpace.single i 1)) '' {i | E.getLsbD i = true})
    with hT
  have hTS : T ≤ S := by
    rw [hT, Submodule.span_le]
    rintro _ ⟨i, -, rfl⟩
    exact Submodule.starProjection_apply_mem S _
  have h1 : Tᗮ ⊓ S = ⊥ := by
    rw [Submodule.eq_bot_iff]
    rintro x ⟨hx, hxS⟩
    refine hD.coordinates hn hE hxS fun i hi => ?_
    have h2 : inner ℝ (S.starProjection (EuclideanSpace.single i 1)) x = 0 :=
      (Submodule.mem_orthogonal T x).mp hx _ (Submodule.subset_span ⟨i, hi, rfl⟩)
    have h3 : inner ℝ (EuclideanSpace.single i (1 : ℝ) - S.starProjection (EuclideanSpace.single i 1)) x = 0 :=
      (Submodule.mem_orthogonal' S _).mp (Submodule.sub_starProjection_mem_orthogonal _) x hxS
    rw [inner_sub_left, h2, sub_zero, EuclideanSpace.inner_single_left] at h3
    simpa using h3
  have h2 := Submodule.sup_orthogonal_inf_of_hasOrthogonalProjection hTS
  rwa [h1, sup_bot_eq] at h2

theorem finrank_top_eq : Module.finrank ℝ (⊤ : Submodule ℝ 𝔼) = n := by
  rw [finrank_top]; simp

/-- The pseudoscalar spans the whole space. -/
theorem pseudoscalar_spans (hn : n ≤ 63) : Spans (Finsupp.single (full n) 1) (⊤ : Submodule ℝ 𝔼) := by
  obtain ⟨C, hC⟩ := exists_spans hn (⊤ : Submodule ℝ 𝔼)
  have h1 : ∀ b, C b ≠ 0 → b = full n := by
    intro b hb
    have h2 := hC.homog hn b hb
    rw [finrank_top_eq] at h2
    have h3 := mem_space.mp (hC.space hn) b hb
    refine vecs_inj (Finset.eq_of_subset_of_card_le ?_ ?_)
    · intro i hi
      rw [mem_vecs] at hi ⊢
      rw [getLsbD_full n i i.2]; simpa using h3 i hi
    · unfold gradeOf at h2
      rw [h2]
      have : (vecs (full n)).card = ones (full n) := (ones_eq_card _).symm
      rw [this, vecs_full n (by omega)]
  have h4 : C = C (full n) • Finsupp.single (full n) 1 := by
    ext b
    rw [Finsupp.smul_apply, smul_eq_mul]
    by_cases hb : b = full n
    · rw [hb, Finsupp.single_eq_same, mul_one]
    · rw [Finsupp.single_eq_of_ne hb, mul_zero]
      by_contra h; exact hb (h1 b h)
  have h5 : C (full n) ≠ 0 := by
    intro h0; rw [h0, zero_smul] at h4; exact hC.ne h4
  have h6 := hC.smul (inv_ne_zero h5)
  rwa [h4, smul_smul, Finsupp.smul_apply, Finsupp.single_eq_same, smul_eq_mul, mul_one, inv_mul_cancel₀ h5, one_smul] at h6

end GATL
