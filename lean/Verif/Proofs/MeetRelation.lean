import Verif.Proofs.Meet
import Verif.Proofs.Wick
import Verif.Props.Inner

/-!
# The relation between the meet and the join
-/

namespace GATL

open Spec Props

variable {n : Nat}

local notation "q1" => (fun _ => (1 : ℝ) : Fin 64 → ℝ)
local notation "L" => orthProd (diagFactor q1) GradedProduct.lcont
local notation "R" => orthProd (diagFactor q1) GradedProduct.rcont
local notation "G" => orthProd (diagFactor q1) GradedProduct.gp
local notation "𝔼" => EuclideanSpace ℝ (Fin n)

theorem reverse_scalar_real (c : ℝ) : reverse (scalar c : MV ℝ) = scalar c := by
  unfold scalar
  rw [reverse_single, par_zero_left]
  simp

theorem reverse_op (A B : MV ℝ) : reverse (op A B) = op (reverse B) (reverse A) :=
  (C12_op A B).1

theorem lcont_gp_single (a b : Word) (x y : ℝ) : L (Finsupp.single a x) (Finsupp.single b y) =
    if a &&& b = a then G (Finsupp.single a x) (Finsupp.single b y) else 0 := by
  rw [lcont_single, gp_single]
  split_ifs with h
  · rw [h]
  · simp

theorem rcont_gp_single (a b : Word) (x y : ℝ) : R (Finsupp.single a x) (Finsupp.single b y) =
    if a &&& b = b then G (Finsupp.single a x) (Finsupp.single b y) else 0 := by
  rw [rcont_single, gp_single]
  split_ifs with h
  · rw [h]
  · simp

theorem mixed_mask {a b c : Word} : (b &&& c = c ∧ a &&& (b ^^^ c) = a) ↔ (a &&& b = a ∧ (a ^^^ b) &&& c = c) := by
  constructor <;> rintro ⟨h1, h2⟩ <;> constructor <;> ext i <;>
    have h1 := congrArg (fun w : Word => w.getLsbD i) h1 <;> have h2 := congrArg (fun w : Word => w.getLsbD i) h2 <;>
    simp only [BitVec.getLsbD_and, BitVec.getLsbD_xor] at h1 h2 ⊢ <;>
    cases ha : a.getLsbD i <;> cases hb : b.getLsbD i <;> cases hc : c.getLsbD i <;> simp_all

/-- The contractions associate: `X ⌋ (A ⌊ M) = (X ⌋ A) ⌊ M`. -/
theorem lcont_rcont (X A M : MV ℝ) : L X (R A M) = R (L X A) M := by
  induction X using mv_induction with
  | h0 => simp only [prod_zero_left]
  | hadd X X' h h' => simp only [prod_add_left, h, h']
  | hs a x =>
    induction A using mv_induction with
    | h0 => simp only [prod_zero_left, prod_zero_right]
    | hadd A A' h h' => simp only [prod_add_left, prod_add_right, h, h']
    | hs b y =>
      induction M using mv_induction with
      | h0 => simp only [prod_zero_right]
      | hadd M M' h h' => simp only [prod_add_right, h, h']
      | hs c z =>
        rw [rcont_gp_single, lcont_gp_single]
        have e1 : L (Finsupp.single a x) (if b &&& c = c then G (Finsupp.single b y) (Finsupp.single c z) else 0) =
            if b &&& c = c ∧ a &&& (b ^^^ c) = a then G (Finsupp.single a x) (G (Finsupp.single b y) (Finsupp.single c z))
            else 0 := by
          by_cases h : b &&& c = c
          · rw [if_pos h]
            conv_lhs => rw [gp_single, lcont_gp_single, ← gp_single]
            simp only [h, true_and]
          · rw [if_neg h, if_neg (fun h' => h h'.1), prod_zero_right]
        have e2 : R (if a &&& b = a then G (Finsupp.single a x) (Finsupp.single b y) else 0) (Finsupp.single c z) =
            if a &&& b = a ∧ (a ^^^ b) &&& c = c then G (G (Finsupp.single a x) (Finsupp.single b y)) (Finsupp.single c z)
            else 0 := by
          by_cases h : a &&& b = a
          · rw [if_pos h]
            conv_lhs => rw [gp_single, rcont_gp_single, ← gp_single]
            simp only [h, true_and]
          · rw [if_neg h, if_neg (fun h' => h h'.1), prod_zero_left]
        rw [e1, e2, gp_assoc]
        simp only [mixed_mask]

theorem inside_list (hn : n ≤ 63) {J : MV ℝ} {S : Submodule ℝ 𝔼} (hJ : Spans J S) (Y : MV ℝ) {xs : List 𝔼}
    (h : ∀ x ∈ xs, x ∈ S) : L (L (outerProd (xs.map vec)) Y) J = op (outerProd (xs.map vec)) (L Y J) := by
  induction xs with
  | nil =>
    have e : outerProd (([] : List 𝔼).map vec) = scalar 1 := rfl
    rw [e, lcont_scalar_one, op_scalar_left, one_smul]
  | cons x xs ih =>
    have e : outerProd ((x :: xs).map vec) = op (vec x) (outerProd (xs.map vec)) := rfl
    rw [e, lcont_op, lcont_inside q1 (vec_homog hn x) (hJ.inside hn (h x (by simp))),
      ih (fun y hy => h y (by simp [hy])), op_assoc']

/-- A blade inside another comes back from its dual. -/
theorem recover (hn : n ≤ 63) {B J : MV ℝ} {V S : Submodule ℝ 𝔼} (hB : Spans B V) (hJ : Spans J S) (h : V ≤ S) {κ : ℝ}
    (h0 : κ ≠ 0) (hκ : G J J = scalar κ) : L (L B (κ⁻¹ • J)) J = B := by
  obtain ⟨c, xs, -, h1, rfl, -⟩ := hB.outer
  have h2 : L J J = scalar κ := by
    rw [lcont_same q1 (hJ.homog hn) (hJ.homog hn), hκ, scalar_zero_apply]
  rw [prod_smul_left, prod_smul_left, inside_list hn hJ, prod_smul_left, h2]
  · have : κ⁻¹ • (scalar κ : MV ℝ) = scalar 1 := by
      unfold scalar
      rw [Finsupp.smul_single, smul_eq_mul, inv_mul_cancel₀ h0]
    rw [this, op_scalar_right, one_smul]
  · intro x hx
    refine h ?_
    rw [← h1]
    exact Submodule.subset_span hx

theorem perp_list (hn : n ≤ 63) {B : MV ℝ} {V : Submodule ℝ 𝔼} (hB : Spans B V) (Y : MV ℝ) {xs : List 𝔼}
    (h : ∀ x ∈ xs, x ∈ Vᗮ) : L (outerProd (xs.map vec)) (op Y B) = op (L (outerProd (xs.map vec)) Y) B := by
  induction xs with
  | nil =>
    have e : outerProd (([] : List 𝔼).map vec) = scalar 1 := rfl
    rw [e, lcont_scalar_one, lcont_scalar_one]
  | cons x xs ih =>
    have e : outerProd ((x :: xs).map vec) = op (vec x) (outerProd (xs.map vec)) := rfl
    rw [e, lcont_op, lcont_op, ih (fun y hy => h y (by simp [hy])), lcont_op_involute q1 (vec_homog hn x),
      hB.perp hn (h x (by simp)), op_zero_right, add_zero]

/-- The join from the meet that comes from it. -/
theorem relation (hn : n ≤ 63) {A B J j m : MV ℝ} {U V : Submodule ℝ 𝔼} (hA : Spans A U) (hB : Spans B V)
    (hJ : Spans J (U ⊔ V)) (hj : inv (orthProd (diagFactor q1)) J = some j)
    (hm : inv (orthProd (diagFactor q1)) (L (L B j) A) = some m) : op (R A m) B = J := by
  obtain ⟨j', h1, hM⟩ := meet_of_join hn hA hB hJ
  rw [hj] at h1; cases h1
  obtain ⟨m', h2, h3⟩ := join_of_meet hn hA hB hM
  rw [hm] at h2; cases h2
  obtain ⟨c, hc, h4⟩ := h3.unique hn hJ
  obtain ⟨κ, hκ0, hκ, hk⟩ := hJ.inverse hn
  rw [hj] at hk; cases hk
  obtain ⟨ν, hν0, hν, hk⟩ := hM.inverse hn
  rw [hm] at hk; cases hk
  have hX : Spans (L B (κ⁻¹ • J)) ((U ⊔ V) ⊓ Vᗮ) := by
    refine hB.lcont hn (hJ.smul (inv_ne_zero hκ0)) ?_
    rw [eq_bot_iff, ← Submodule.inf_orthogonal_eq_bot (U ⊔ V)]
    exact inf_le_inf_right _ le_sup_right
  have h5 : L (L B (κ⁻¹ • J)) (op (R A (ν⁻¹ • L (L B (κ⁻¹ • J)) A)) B) = B := by
    have h6 : L (L B (κ⁻¹ • J)) (R A (ν⁻¹ • L (L B (κ⁻¹ • J)) A)) = scalar 1 := by
      rw [lcont_rcont, prod_smul_right, rcont_reverse]
      generalize L (L B (κ⁻¹ • J)) A = M at *
      rw [reverse_homog (hM.homog hn), prod_smul_left, prod_smul_right, smul_smul, ← mul_pow, neg_one_mul, neg_neg, one_pow, one_smul,
        lcont_same q1 (hM.homog hn) (hM.homog hn), hν, scalar_zero_apply]
      rw [reverse_scalar_real]
      unfold scalar
      rw [Finsupp.smul_single, smul_eq_mul, inv_mul_cancel₀ hν0]
    obtain ⟨x, xs, -, h7, h8, -⟩ := hX.outer
    have h9 : ∀ x ∈ xs, x ∈ Vᗮ := by
      intro y hy
      have : y ∈ (U ⊔ V) ⊓ Vᗮ := by rw [← h7]; exact Submodule.subset_span hy
      exact this.2
    have h10 : ∀ Y, L (L B (κ⁻¹ • J)) (op Y B) = op (L (L B (κ⁻¹ • J)) Y) B := by
      intro Y
      rw [h8, prod_smul_left, prod_smul_left, perp_list hn hB Y h9, op_smul_left]
    rw [h10, h6, op_scalar_left, one_smul]
  have h6 : L (L B (κ⁻¹ • J)) (c • J) = c • B := by
    rw [prod_smul_right, recover hn hB hJ le_sup_right hκ0 hκ]
  rw [h4, h6] at h5
  have h7 : c = 1 := by
    by_contra h
    have : (c - 1) • B = 0 := by rw [sub_smul, h5, one_smul, sub_self]
    rcases smul_eq_zero.mp this with h8 | h8
    · exact h (by linarith)
    · exact hB.ne h8
  rw [h4, h7, one_smul]

theorem perp_right (hn : n ≤ 63) {B X : MV ℝ} {V S : Submodule ℝ 𝔼} (hB : Spans B V) (hX : Spans X S) (h : S ≤ Vᗮ)
    (Y : MV ℝ) : R (op B Y) X = op B (R Y X) := by
  obtain ⟨c, xs, -, h1, h2, -⟩ := (hX.reverse hn).outer
  have h3 : ∀ x ∈ xs, x ∈ Vᗮ := by
    intro x hx
    refine h ?_
    rw [← h1]
    exact Submodule.subset_span hx
  rw [rcont_reverse, rcont_reverse, reverse_op, h2, prod_smul_left, perp_list hn (hB.reverse hn) _ h3, prod_smul_left,
    ← op_smul_left, reverse_op, reverse_reverse]

theorem rcont_self (hn : n ≤ 63) {M m : MV ℝ} {W : Submodule ℝ 𝔼} (hM : Spans M W)
    (hm : inv (orthProd (diagFactor q1)) M = some m) : R M m = scalar 1 := by
  obtain ⟨ν, hν0, hν, hk⟩ := hM.inverse hn
  rw [hm] at hk; cases hk
  rw [prod_smul_right, rcont_reverse, reverse_homog (hM.homog hn), prod_smul_left, prod_smul_right, smul_smul, ← mul_pow,
    neg_one_mul, neg_neg, one_pow, one_smul, lcont_same q1 (hM.homog hn) (hM.homog hn), hν, scalar_zero_apply]
  rw [reverse_scalar_real]
  unfold scalar
  rw [Finsupp.smul_single, smul_eq_mul, inv_mul_cancel₀ hν0]

theorem rcont_scalar_one (X : MV ℝ) : R X (scalar 1) = X := by
  rw [rcont_reverse]
  rw [reverse_scalar_real, lcont_scalar_one, reverse_reverse]

/-- A blade is its quotient by a blade inside it times that blade. -/
theorem quotient_op (hn : n ≤ 63) {A M m : MV ℝ} {U W : Submodule ℝ 𝔼} (hA : Spans A U) (hM : Spans M W) (h : W ≤ U)
    (hm : inv (orthProd (diagFactor q1)) M = some m) : op (R A m) M = A := by
  obtain ⟨ν, hν0, hν, hk⟩ := hM.inverse hn
  have hm' : Spans m W := by rw [hm] at hk; cases hk; exact hM.smul (inv_ne_zero hν0)
  have h1 := hA.rcont hn hm' (by
    rw [eq_bot_iff, ← Submodule.inf_orthogonal_eq_bot U]; exact inf_le_inf_right _ h)
  have h2 := h1.op hn hM (by
    rw [eq_bot_iff, inf_assoc, inf_comm Wᗮ W, Submodule.inf_orthogonal_eq_bot]; exact inf_le_right)
  rw [split_perp h] at h2
  obtain ⟨c, hc, h3⟩ := h2.unique hn hA
  have h4 : R (op (R A m) M) m = R A m := by
    rw [perp_right hn h1 hm', rcont_self hn hM hm, op_scalar_right, one_smul]
    exact (Submodule.le_orthogonal_orthogonal W).trans (Submodule.orthogonal_le inf_le_right)
  rw [h3, prod_smul_left] at h4
  have h7 : c = 1 := by
    by_contra h
    have : (c - 1) • R A m = 0 := by rw [sub_smul, h4, one_smul, sub_self]
    rcases smul_eq_zero.mp this with h8 | h8
    · exact h (by linarith)
    · exact h1.ne h8
  rw [h3, h7, one_smul]

/-- The other order of the operands. -/
theorem relation_swap (hn : n ≤ 63) {A B M m : MV ℝ} {U V : Submodule ℝ 𝔼} (hA : Spans A U) (hB : Spans B V)
    (hM : Spans M (U ⊓ V)) (hm : inv (orthProd (diagFactor q1)) M = some m) :
    op (R A m) B = (-1 : ℝ) ^ ((Module.finrank ℝ (U ⊔ V : Submodule ℝ 𝔼) - Module.finrank ℝ U) *
      (Module.finrank ℝ (U ⊔ V : Submodule ℝ 𝔼) - Module.finrank ℝ V)) • op (R B m) A := by
  obtain ⟨ν, hν0, -, hk⟩ := hM.inverse hn
  have hm' : Spans m (U ⊓ V) := by rw [hm] at hk; cases hk; exact hM.smul (inv_ne_zero hν0)
  have e : ∀ {S : Submodule ℝ 𝔼}, U ⊓ V ≤ S → U ⊓ V ⊓ Sᗮ = ⊥ := by
    intro S h
    rw [eq_bot_iff, ← Submodule.inf_orthogonal_eq_bot S]; exact inf_le_inf_right _ h
  have hY := (hA.rcont hn hm' (e inf_le_left)).homog hn
  have hZ := (hB.rcont hn hm' (e inf_le_right)).homog hn
  have hdim := Submodule.finrank_sup_add_finrank_inf_eq U V
  have h1 := finrank_perp (inf_le_left : U ⊓ V ≤ U)
  have h2 := finrank_perp (inf_le_right : U ⊓ V ≤ V)
  have e1 : Module.finrank ℝ (U ⊔ V : Submodule ℝ 𝔼) - Module.finrank ℝ U =
      Module.finrank ℝ (V ⊓ (U ⊓ V)ᗮ : Submodule ℝ 𝔼) := by omega
  have e2 : Module.finrank ℝ (U ⊔ V : Submodule ℝ 𝔼) - Module.finrank ℝ V =
      Module.finrank ℝ (U ⊓ (U ⊓ V)ᗮ : Submodule ℝ 𝔼) := by omega
  conv_lhs => rw [← quotient_op hn hB hM inf_le_right hm, ← op_assoc', op_graded_comm hY hZ, op_smul_left, op_assoc',
    quotient_op hn hA hM inf_le_left hm]
  rw [e1, e2, mul_comm]

end GATL
