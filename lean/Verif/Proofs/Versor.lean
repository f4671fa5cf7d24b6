import Verif.Proofs.Regressive
import Verif.Model.Multivector

/-! Helper lemmas: versors and the orthogonal transformations they generate. -/

namespace GATL
open Spec

section ring
variable {K : Type*} [CommRing K] (q : Fin 64 → K)

/-- lowest vector of a blade factors out -/
theorem exists_low {b : Word} (hb : b ≠ 0) :
    ∃ i : Fin 64, b.getLsbD i = true ∧ ∀ j < i.val, b.getLsbD j = false := by
  have hex : ∃ i : Nat, b.getLsbD i = true := by
    by_contra h
    push Not at h
    exact hb (word_ext fun i _ => by simpa using h i)
  classical
  refine ⟨⟨Nat.find hex, ?_⟩, Nat.find_spec hex, fun j hj => by simpa using Nat.find_min hex hj⟩
  by_contra h
  have := Nat.find_spec hex
  rw [BitVec.getLsbD_of_ge _ _ (by omega)] at this
  exact absurd this (by simp)

theorem par_bit_low {b : Word} {i : Fin 64} (h : ∀ j < i.val, b.getLsbD j = false) :
    par (bit i) b = 0 := by
  rw [par_bit_left i i.2]
  refine Finset.sum_eq_zero fun j hj => ?_
  unfold bz; rw [h j (Finset.mem_range.mp hj)]; rfl

theorem ones_bit_xor {b : Word} {i : Fin 64} (h : b.getLsbD i = true) :
    ones (bit i ^^^ b) + 1 = ones b := by
  have h1 := ones_xor_add_two_and (bit i) b
  rw [(bit_and_eq i b).mpr h, ones_bit] at h1
  omega

theorem bit_and_xor {b : Word} {i : Fin 64} (h : b.getLsbD i = true) :
    bit i &&& (bit i ^^^ b) = 0 := by
  rw [bit_and_zero, BitVec.getLsbD_xor, getLsbD_bit i i i.2, h]; simp

/-- a non-scalar basis blade is a basis vector times a blade of lower grade, for the geometric
product as well as for the outer product -/
theorem blade_split {b : Word} (hb : b ≠ 0) :
    ∃ i : Fin 64, ∃ b' : Word, ones b' + 1 = ones b ∧
      orthProd (diagFactor q) .gp (Finsupp.single (bit i) 1) (Finsupp.single b' (1 : K))
        = Finsupp.single b 1 ∧
      op (Finsupp.single (bit i) 1) (Finsupp.single b' (1 : K)) = Finsupp.single b 1 := by
  obtain ⟨i, hi, hlow⟩ := exists_low hb
  have hlow' : ∀ j < i.val, (bit i ^^^ b).getLsbD j = false := by
    intro j hj
    rw [BitVec.getLsbD_xor, hlow j hj, getLsbD_bit i j i.2]
    simp; omega
  refine ⟨i, bit i ^^^ b, ones_bit_xor hi, ?_, ?_⟩
  · rw [gp_single, par_bit_low hlow', bit_and_xor hi, diagFactor_zero, xor_xor_cancel]
    simp
  · rw [op_single', par_bit_low hlow', if_pos (bit_and_xor hi), xor_xor_cancel]
    simp

theorem homog_bit (i : Fin 64) : Homogeneous 1 (Finsupp.single (bit i) (1 : K)) :=
  homog_single _ (ones_bit i)

/-- induction: multivectors are generated from `1` by sums, scalings and products with vectors -/
theorem vec_induction {p : MV K → Prop} (A : MV K) (h0 : p 0) (hadd : ∀ A B, p A → p B → p (A + B))
    (hsmul : ∀ (a : K) A, p A → p (a • A)) (h1 : p (scalar 1))
    (hmul : ∀ a B, Homogeneous 1 a → p B → p (orthProd (diagFactor q) .gp a B)) : p A := by
  have hb : ∀ m : Nat, ∀ b : Word, ones b = m → p (Finsupp.single b (1 : K)) := by
    intro m
    induction m with
    | zero => intro b hb; rw [ones_eq_zero] at hb; subst hb; exact h1
    | succ m ih =>
      intro b hb
      have hne : b ≠ 0 := by rintro rfl; rw [ones_zero] at hb; omega
      obtain ⟨i, b', hb', hgp, -⟩ := blade_split q hne
      rw [← hgp]
      exact hmul _ _ (homog_bit i) (ih b' (by omega))
  induction A using mv_induction with
  | h0 => exact h0
  | hadd A B hA hB => exact hadd A B hA hB
  | hs b a =>
    have : (Finsupp.single b a : MV K) = a • Finsupp.single b 1 := by
      rw [Finsupp.smul_single, smul_eq_mul, mul_one]
    rw [this]; exact hsmul _ _ (hb _ b rfl)

theorem op_vec_comm {a x : MV K} (ha : Homogeneous 1 a) (hx : Homogeneous 1 x) :
    op a x = - op x a := by
  rw [← neg_one_smul K]
  refine bilin_comm ha hx _ _ (-1) fun L R hL hR => ?_
  obtain ⟨i, rfl⟩ := ones_eq_one hL
  obtain ⟨j, rfl⟩ := ones_eq_one hR
  rw [ext_form, ext_form, extMul_snd, extMul_snd, BitVec.or_comm, BitVec.and_comm]
  by_cases h : bit j &&& bit i = 0
  · rw [if_pos h, if_pos h]
    have := par_swap (bit i) (bit j)
    rw [BitVec.and_comm, h, gr_bit, gr_bit, gr_zero] at this
    generalize par (bit i) (bit j) = x at *
    generalize par (bit j) (bit i) = y at *
    have h2 : x = 1 + y := by revert x y; decide
    rw [h2, sg_add, sg_one]
  · rw [if_neg h, if_neg h, mul_zero]

theorem lcont_vec_vec {a x : MV K} (ha : Homogeneous 1 a) (hx : Homogeneous 1 x) :
    orthProd (diagFactor q) .lcont a x = scalar (orthProd (diagFactor q) .lcont a x 0) := by
  have h : Homogeneous 0 (orthProd (diagFactor q) .lcont a x) := by
    refine bilin_homog ha hx _ fun L R hL hR h => ?_
    obtain ⟨i, rfl⟩ := ones_eq_one hL
    obtain ⟨j, rfl⟩ := ones_eq_one hR
    unfold orthMul at h ⊢
    dsimp only at h ⊢
    by_contra hne
    apply h
    have : areValidGrades .lcont (ones (bit i)) (ones (bit j)) (ones (bit i ^^^ bit j)) = false := by
      simp only [areValidGrades, decide_eq_false_iff_not]
      rw [ones_bit, ones_bit]
      omega
    rw [this]; simp
  ext b
  unfold scalar
  by_cases hb : b = 0
  · subst hb; rw [Finsupp.single_eq_same]
  · rw [Finsupp.single_eq_of_ne hb]
    by_contra hne
    have := h b hne
    rw [gradeOf_eq, ones_eq_zero] at this
    exact hb this

/-- contraction of a vector onto a product whose first factor is a vector -/
theorem lcont_vec_mul {a x : MV K} (ha : Homogeneous 1 a) (hx : Homogeneous 1 x) (B : MV K) :
    orthProd (diagFactor q) .lcont a (orthProd (diagFactor q) .gp x B)
      = orthProd (diagFactor q) .lcont a x 0 • B
        - orthProd (diagFactor q) .gp x (orthProd (diagFactor q) .lcont a B) := by
  rw [gp_vector q hx B, gp_vector q hx (orthProd (diagFactor q) .lcont a B), prod_add_right,
    lcont_derivation q ha hx B, ← lcont_op, ← lcont_op, op_vec_comm ha hx, prod_neg_left]
  have : op (orthProd (diagFactor q) .lcont a x) B = orthProd (diagFactor q) .lcont a x 0 • B := by
    rw [lcont_vec_vec q ha hx]
    have h0 := lcont_vec_vec q ha hx
    generalize orthProd (diagFactor q) .lcont a x 0 = c at *
    have : (scalar c : MV K) 0 = c := by unfold scalar; rw [Finsupp.single_eq_same]
    rw [this]
    have hs : (scalar c : MV K) = c • Finsupp.single 0 1 := by
      unfold scalar; rw [Finsupp.smul_single, smul_eq_mul, mul_one]
    rw [hs, op_smul_left, op_eq_gp_zero, Cl.gp_one_left]
  rw [this, pow_one, neg_one_smul]
  abel

theorem lcont_one {a : MV K} (ha : Homogeneous 1 a) :
    orthProd (diagFactor q) .lcont a (scalar 1) = 0 := by
  refine homog_induction (p := fun a => orthProd (diagFactor q) .lcont a (scalar 1) = 0) ha ?_ ?_ ?_
  · rw [prod_zero_left]
  · intro A B h h'; rw [prod_add_left, h, h', add_zero]
  · intro l x hl
    unfold scalar
    rw [lcont_single, if_neg, mul_zero, Finsupp.single_zero]
    intro h
    rw [BitVec.and_comm] at h
    have h' : (0 : Word) = l := by rw [← h]; exact (BitVec.zero_and).symm
    rw [← h', ones_zero] at hl
    omega

/-- a transformation that is an automorphism of the geometric product generated by an isometry -/
structure Iso (F : MV K →ₗ[K] MV K) : Prop where
  mul : ∀ A B, F (orthProd (diagFactor q) .gp A B) = orthProd (diagFactor q) .gp (F A) (F B)
  one : F (scalar 1) = scalar 1
  vec : ∀ a, Homogeneous 1 a → Homogeneous 1 (F a)
  form : ∀ a x, Homogeneous 1 a → Homogeneous 1 x →
    orthProd (diagFactor q) .lcont (F a) (F x) 0 = orthProd (diagFactor q) .lcont a x 0

namespace Iso
variable {q} {F G : MV K →ₗ[K] MV K}

theorem comp (hF : Iso q F) (hG : Iso q G) : Iso q (F ∘ₗ G) where
  mul A B := by simp only [LinearMap.comp_apply, hG.mul, hF.mul]
  one := by simp only [LinearMap.comp_apply, hG.one, hF.one]
  vec a ha := hF.vec _ (hG.vec a ha)
  form a x ha hx := by
    simp only [LinearMap.comp_apply]
    rw [hF.form _ _ (hG.vec a ha) (hG.vec x hx), hG.form a x ha hx]

theorem id : Iso q (LinearMap.id : MV K →ₗ[K] MV K) where
  mul _ _ := rfl
  one := rfl
  vec _ h := h
  form _ _ _ _ := rfl

theorem lcont_vec (hF : Iso q F) {a : MV K} (ha : Homogeneous 1 a) (B : MV K) :
    F (orthProd (diagFactor q) .lcont a B) = orthProd (diagFactor q) .lcont (F a) (F B) := by
  refine vec_induction q (p := fun B => F (orthProd (diagFactor q) .lcont a B)
    = orthProd (diagFactor q) .lcont (F a) (F B)) B ?_ ?_ ?_ ?_ ?_
  · rw [prod_zero_right, map_zero, prod_zero_right]
  · intro A B h h'; rw [prod_add_right, map_add, map_add, prod_add_right, h, h']
  · intro c A h; rw [prod_smul_right, map_smul, map_smul, prod_smul_right, h]
  · rw [lcont_one q ha, hF.one, lcont_one q (hF.vec a ha), map_zero]
  · intro x B hx hB
    rw [lcont_vec_mul q ha hx, map_sub, map_smul, hF.mul, hF.mul,
      lcont_vec_mul q (hF.vec a ha) (hF.vec x hx), hF.form a x ha hx, hB]

theorem op_vec (hF : Iso q F) {a : MV K} (ha : Homogeneous 1 a) (B : MV K) :
    F (op a B) = op (F a) (F B) := by
  have h1 := gp_vector q ha B
  have h2 := gp_vector q (hF.vec a ha) (F B)
  have h3 := congrArg F h1
  rw [hF.mul, map_add, hF.lcont_vec ha, h2] at h3
  exact (add_left_cancel h3).symm

theorem op_blade (hF : Iso q F) : ∀ m : Nat, ∀ b : Word, ones b = m → ∀ B : MV K,
    F (op (Finsupp.single b 1) B) = op (F (Finsupp.single b 1)) (F B) := by
  intro m
  induction m with
  | zero =>
    intro b hb B
    rw [ones_eq_zero] at hb; subst hb
    have h1 : F (Finsupp.single 0 1) = Finsupp.single 0 1 := hF.one
    rw [h1, op_eq_gp_zero, op_eq_gp_zero, Cl.gp_one_left, Cl.gp_one_left]
  | succ m ih =>
    intro b hb B
    have hne : b ≠ 0 := by rintro rfl; rw [ones_zero] at hb; omega
    obtain ⟨i, b', hb', -, hop⟩ := blade_split q hne
    have assoc : ∀ A B C : MV K, op (op A B) C = op A (op B C) := by
      intro A B C; simp only [op_eq_gp_zero]; exact gp_assoc _ _ _ _
    rw [← hop, assoc, hF.op_vec (homog_bit i), hF.op_vec (homog_bit i), ih b' (by omega), assoc]

theorem op (hF : Iso q F) (A B : MV K) : F (op A B) = GATL.op (F A) (F B) := by
  induction A using mv_induction with
  | h0 => rw [op_zero_left, map_zero, op_zero_left]
  | hadd A A' h h' => rw [op_add_left, map_add, map_add, op_add_left, h, h']
  | hs b a =>
    have : (Finsupp.single b a : MV K) = a • Finsupp.single b 1 := by
      rw [Finsupp.smul_single, smul_eq_mul, mul_one]
    rw [this, op_smul_left, map_smul, map_smul, op_smul_left, hF.op_blade _ b rfl]

theorem op_homog {r s : Nat} {A B : MV K} (hA : Homogeneous r A) (hB : Homogeneous s B) :
    Homogeneous (r + s) (GATL.op A B) := by
  refine bilin_homog hA hB _ fun L R hL hR h => ?_
  rw [ext_form] at h
  rw [extMul_snd]
  have h0 : L &&& R = 0 := by
    by_contra hne; rw [if_neg hne] at h; exact h rfl
  have := ones_or_add_and L R
  rw [h0, ones_zero] at this
  omega

theorem homog_blade (hF : Iso q F) : ∀ m : Nat, ∀ b : Word, ones b = m →
    Homogeneous m (F (Finsupp.single b 1)) := by
  intro m
  induction m with
  | zero =>
    intro b hb
    rw [ones_eq_zero] at hb; subst hb
    have h1 : F (Finsupp.single 0 1) = Finsupp.single 0 1 := hF.one
    rw [h1]; exact homog_single _ ones_zero
  | succ m ih =>
    intro b hb
    have hne : b ≠ 0 := by rintro rfl; rw [ones_zero] at hb; omega
    obtain ⟨i, b', hb', -, hop⟩ := blade_split q hne
    rw [← hop, hF.op, Nat.add_comm]
    exact op_homog (hF.vec _ (homog_bit i)) (ih b' (by omega))

theorem homog (hF : Iso q F) {k : Nat} {A : MV K} (hA : Homogeneous k A) : Homogeneous k (F A) := by
  refine homog_induction (p := fun A => Homogeneous k (F A)) hA ?_ ?_ ?_
  · rw [map_zero]; exact homog_zero k
  · intro A B h h'; rw [map_add]; exact homog_add h h'
  · intro b a hb
    have : (Finsupp.single b a : MV K) = a • Finsupp.single b 1 := by
      rw [Finsupp.smul_single, smul_eq_mul, mul_one]
    rw [this, map_smul]
    exact homog_smul a (hF.homog_blade k b hb)

theorem gradePart_of_homog {k : Nat} {A : MV K} (hA : Homogeneous k A) (j : Int) :
    Spec.gradePart j A = if (k : Int) = j then A else 0 := by
  refine homog_induction (p := fun A => Spec.gradePart j A = if (k : Int) = j then A else 0) hA ?_ ?_ ?_
  · rw [gradePart_zero]; simp
  · intro A B h h'; rw [gradePart_add, h, h']; split <;> simp
  · intro b a hb; rw [gradePart_single, hb]

theorem gradePart (hF : Iso q F) (k : Int) (A : MV K) :
    F (gradePart k A) = Spec.gradePart k (F A) := by
  induction A using mv_induction with
  | h0 => rw [gradePart_zero, map_zero, gradePart_zero]
  | hadd A B h h' => rw [gradePart_add, map_add, map_add, gradePart_add, h, h']
  | hs b a =>
    have h1 : Homogeneous (ones b) (Finsupp.single b a : MV K) := homog_single _ rfl
    rw [gradePart_of_homog h1, gradePart_of_homog (hF.homog h1)]
    split
    · rfl
    · exact map_zero F

/-- an isometry preserves every graded product -/
theorem prod (hF : Iso q F) (g : GradedProduct) (A B : MV K) :
    F (orthProd (diagFactor q) g A B) = orthProd (diagFactor q) g (F A) (F B) := by
  -- reduce to homogeneous operands
  induction A using mv_induction with
  | h0 => rw [prod_zero_left, map_zero, prod_zero_left]
  | hadd A A' h h' => rw [prod_add_left, map_add, map_add, prod_add_left, h, h']
  | hs l a =>
    induction B using mv_induction with
    | h0 => rw [prod_zero_right, map_zero, prod_zero_right]
    | hadd A A' h h' => rw [prod_add_right, map_add, map_add, prod_add_right, h, h']
    | hs r b =>
      have hA : Homogeneous (ones l) (Finsupp.single l a : MV K) := homog_single _ rfl
      have hB : Homogeneous (ones r) (Finsupp.single r b : MV K) := homog_single _ rfl
      generalize ones l = lg at hA
      generalize ones r = rg at hB
      by_cases hgp : g = .gp
      · subst hgp; exact hF.mul _ _
      · have hk : ∃ k : Int, ∀ t : Nat, areValidGrades g lg rg t = true ↔ (t : Int) = k := by
          cases g with
          | gp => exact absurd rfl hgp
          | lcont => exact ⟨rg - lg, fun t => by simp only [areValidGrades, decide_eq_true_eq]; omega⟩
          | rcont => exact ⟨lg - rg, fun t => by simp only [areValidGrades, decide_eq_true_eq]; omega⟩
          | dot =>
            refine ⟨|(lg : Int) - rg|, fun t => ?_⟩
            simp only [areValidGrades]
            split <;> rw [decide_eq_true_eq]
            · rw [abs_of_nonpos (by omega)]; omega
            · rw [abs_of_nonneg (by omega)]; omega
          | hip =>
            by_cases h0 : lg = 0 ∨ rg = 0
            · refine ⟨-1, fun t => ?_⟩
              have : (decide ((lg : Int) = 0) || decide ((rg : Int) = 0)) = true := by
                rcases h0 with h0 | h0 <;> simp [h0]
              simp only [areValidGrades, this, if_true]
              constructor
              · intro h; exact absurd h (by simp)
              · intro h; omega
            · refine ⟨|(lg : Int) - rg|, fun t => ?_⟩
              have : (decide ((lg : Int) = 0) || decide ((rg : Int) = 0)) = false := by
                rw [not_or] at h0
                simp [h0.1, h0.2]
              simp only [areValidGrades, this, if_false, Bool.false_eq_true]
              split <;> rw [decide_eq_true_eq]
              · rw [abs_of_nonpos (by omega)]; omega
              · rw [abs_of_nonneg (by omega)]; omega
          | sp => exact ⟨0, fun t => by simp only [areValidGrades, decide_eq_true_eq]⟩
        obtain ⟨k, hk⟩ := hk
        rw [orthMul_gradePart _ g hA hB k hk, hF.gradePart, hF.mul,
          orthMul_gradePart _ g (hF.homog hA) (hF.homog hB) k hk]

theorem scalar_fixed (hF : Iso q F) (c : K) : F (scalar c) = scalar c := by
  have hs : (scalar c : MV K) = c • scalar 1 := by
    unfold scalar; rw [Finsupp.smul_single, smul_eq_mul, mul_one]
  rw [hs, map_smul, hF.one]

theorem sp_scalar (f : Word → K) (A B : MV K) :
    orthProd f .sp A B = scalar (orthProd f .gp A B 0) := by
  classical
  refine bilinear_ext (F := fun A B => orthProd f .sp A B)
    (G := fun A B => scalar (orthProd f .gp A B 0)) ?_ ?_ ?_ ?_ ?_ ?_ ?_ ?_ ?_ A B <;>
    intros <;> (try unfold scalar) <;> try simp only [prod_zero_left, prod_zero_right, prod_add_left,
      prod_add_right, Finsupp.add_apply, Finsupp.single_add, Finsupp.zero_apply, Finsupp.single_zero]
  rename_i l r a b
  rw [sp_single, gp_single, Finsupp.single_apply]
  congr 1
  by_cases h : l = r
  · subst h; rw [if_pos rfl, if_pos (show l ^^^ l = 0 from BitVec.xor_self), BitVec.and_self]
  · rw [if_neg h, if_neg (fun h' => h (xor_eq_zero.mp h')), mul_zero]

theorem involute_vec {a : MV K} (ha : Homogeneous 1 a) : involute a = -a := by
  ext b
  rw [involute_apply, Finsupp.neg_apply]
  by_cases h : a b = 0
  · rw [h]; simp
  · have := ha b h
    rw [gradeOf_eq] at this
    rw [this]; simp

theorem reverse_vec {a : MV K} (ha : Homogeneous 1 a) : reverse a = a := by
  ext b
  rw [reverse_apply]
  by_cases h : a b = 0
  · rw [h]; simp
  · have := ha b h
    rw [gradeOf_eq] at this
    rw [this]; simp

theorem homog_neg {k : Nat} {A : MV K} (hA : Homogeneous k A) : Homogeneous k (-A) := by
  rw [← neg_one_smul K]; exact homog_smul _ hA

theorem homog_sub {k : Nat} {A B : MV K} (hA : Homogeneous k A) (hB : Homogeneous k B) :
    Homogeneous k (A - B) := by
  rw [sub_eq_add_neg]; exact homog_add hA (homog_neg hB)

/-- grade involution is an isometry -/
theorem involute : Iso q (⟨⟨GATL.involute, involute_add⟩, involute_smul⟩ : MV K →ₗ[K] MV K) where
  mul A B := involute_gp _ A B
  one := by
    change GATL.involute (Finsupp.single 0 1) = Finsupp.single 0 1
    rw [involute_single, gr_zero, sg_zero, mul_one]
  vec a ha := by
    change Homogeneous 1 (GATL.involute a)
    rw [involute_vec ha]; exact homog_neg ha
  form a x ha hx := by
    change orthProd (diagFactor q) .lcont (GATL.involute a) (GATL.involute x) 0 = _
    rw [involute_vec ha, involute_vec hx, prod_neg_left, prod_neg_right, neg_neg]

end Iso

/-- the symmetric bilinear form of two vectors -/
noncomputable def vdot (a x : MV K) : K := orthProd (diagFactor q) .lcont a x 0

theorem gp_vec_vec {a x : MV K} (ha : Homogeneous 1 a) (hx : Homogeneous 1 x) :
    orthProd (diagFactor q) .gp a x = scalar (vdot q a x) + op a x := by
  rw [gp_vector q ha]; unfold vdot
  congr 1
  exact lcont_vec_vec q ha hx

theorem vdot_comm {a x : MV K} (ha : Homogeneous 1 a) (hx : Homogeneous 1 x) :
    vdot q a x = vdot q x a := by
  have e : ∀ a x : MV K, Homogeneous 1 a → Homogeneous 1 x →
      scalar (vdot q a x) = orthProd (diagFactor q) .sp a x := by
    intro a x ha hx
    have h1 := orthMul_gradePart (diagFactor q) .sp ha hx 0 (fun t => by
      simp only [areValidGrades, decide_eq_true_eq])
    have h2 := orthMul_gradePart (diagFactor q) .lcont ha hx 0 (fun t => by
      simp only [areValidGrades, decide_eq_true_eq]; omega)
    rw [h1, ← h2]; exact (lcont_vec_vec q ha hx).symm
  have h : scalar (vdot q a x) = scalar (vdot q x a) := by
    rw [e a x ha hx, e x a hx ha, sp_comm]
  have := congrArg (fun A : MV K => A 0) h
  simpa [scalar] using this

theorem gp_vec_swap {a x : MV K} (ha : Homogeneous 1 a) (hx : Homogeneous 1 x) :
    orthProd (diagFactor q) .gp a x
      = scalar (2 * vdot q a x) - orthProd (diagFactor q) .gp x a := by
  rw [gp_vec_vec q ha hx, gp_vec_vec q hx ha, op_vec_comm ha hx, vdot_comm q hx ha]
  unfold scalar
  rw [two_mul, Finsupp.single_add]
  abel

theorem op_vec_self {a : MV K} (ha : Homogeneous 1 a) : op a a = 0 := by
  have h1 := gp_vec_vec (0 : Fin 64 → K) ha ha
  obtain ⟨c, hc⟩ := vec_sq_homog (0 : Fin 64 → K) ha
  have h2 : Homogeneous 0 (op a a) := by
    have : op a a = Finsupp.single 0 (c - vdot 0 a a) := by
      rw [Finsupp.single_sub, ← hc, h1]; unfold scalar; abel
    rw [this]; exact homog_single _ ones_zero
  have h3 := Iso.op_homog ha ha
  ext b
  by_contra hb
  have e1 := h2 b hb
  have e2 := h3 b hb
  omega

theorem gp_vec_self {a : MV K} (ha : Homogeneous 1 a) :
    orthProd (diagFactor q) .gp a a = scalar (vdot q a a) := by
  rw [gp_vec_vec q ha ha, op_vec_self ha, add_zero]

theorem gp_scalar_left (c : K) (A : MV K) : orthProd (diagFactor q) .gp (scalar c) A = c • A := by
  have hs : (scalar c : MV K) = c • Finsupp.single 0 1 := by
    unfold scalar; rw [Finsupp.smul_single, smul_eq_mul, mul_one]
  rw [hs, prod_smul_left, Cl.gp_one_left]

theorem gp_scalar_right (c : K) (A : MV K) : orthProd (diagFactor q) .gp A (scalar c) = c • A := by
  have hs : (scalar c : MV K) = c • Finsupp.single 0 1 := by
    unfold scalar; rw [Finsupp.smul_single, smul_eq_mul, mul_one]
  rw [hs, prod_smul_right, Cl.gp_one_right]

theorem vdot_smul_left (c : K) (a x : MV K) : vdot q (c • a) x = c * vdot q a x := by
  unfold vdot; rw [prod_smul_left]; rfl
theorem vdot_smul_right (c : K) (a x : MV K) : vdot q a (c • x) = c * vdot q a x := by
  unfold vdot; rw [prod_smul_right]; rfl
theorem vdot_sub_left (a b x : MV K) : vdot q (a - b) x = vdot q a x - vdot q b x := by
  unfold vdot; rw [prod_sub_left]; rfl
theorem vdot_sub_right (a b x : MV K) : vdot q x (a - b) = vdot q x a - vdot q x b := by
  unfold vdot; rw [prod_sub_right]; rfl

theorem realFactor_eq : (fun b => ((realFactor b : Int) : K)) = diagFactor (fun _ => (1 : K)) := by
  funext b
  unfold realFactor diagFactor
  simp

theorem realProd_scalar (A : MV K) (s : K) : realProd .gp A (Finsupp.single 0 s) = s • A := by
  unfold realProd; rw [realFactor_eq]; exact gp_scalar_right _ s A

end ring

section field
set_option linter.unusedSectionVars false
variable {K : Type*} [Field K] [DecidableEq K] (q : Fin 64 → K)

theorem rnormSqr_vec {a : MV K} (ha : Homogeneous 1 a) : rnormSqr (orthProd (diagFactor q)) a = vdot q a a := by
  unfold rnormSqr
  rw [Iso.reverse_vec ha, Iso.sp_scalar, gp_vec_self q ha]
  simp [scalar]

theorem rnormSqr_of {V : MV K} {c : K} (h : orthProd (diagFactor q) .gp V (reverse V) = scalar c) :
    rnormSqr (orthProd (diagFactor q)) V = c := by
  unfold rnormSqr
  rw [Iso.sp_scalar, h]; simp [scalar]

theorem inv_of {V : MV K} {c : K} (h : orthProd (diagFactor q) .gp V (reverse V) = scalar c) (hc : c ≠ 0) :
    inv (orthProd (diagFactor q)) V = some (c⁻¹ • reverse V) := by
  unfold inv invScalar
  rw [rnormSqr_of q h, if_neg hc, Option.map_some, realProd_scalar]

/-- `v A v⁻¹` for a vector `v` -/
noncomputable def conjVec (v : MV K) : MV K →ₗ[K] MV K :=
  (vdot q v v)⁻¹ • ((bilin (orthMul (diagFactor q) .gp)).flip v ∘ₗ (bilin (orthMul (diagFactor q) .gp)) v)

theorem conjVec_apply (v A : MV K) :
    conjVec q v A = (vdot q v v)⁻¹ • orthProd (diagFactor q) .gp (orthProd (diagFactor q) .gp v A) v := rfl

theorem conjVec_vec {v x : MV K} (hv : Homogeneous 1 v) (hx : Homogeneous 1 x)
    (h : vdot q v v ≠ 0) :
    conjVec q v x = (2 * vdot q v x * (vdot q v v)⁻¹) • v - x := by
  rw [conjVec_apply, gp_vec_swap q hv hx, prod_sub_left, gp_scalar_left, gp_assoc, gp_vec_self q hv,
    gp_scalar_right, smul_sub, smul_smul, smul_smul, inv_mul_cancel₀ h, one_smul, mul_comm]

theorem conjVec_iso {v : MV K} (hv : Homogeneous 1 v) (h : vdot q v v ≠ 0) : Iso q (conjVec q v) where
  mul A B := by
    simp only [conjVec_apply, prod_smul_left, prod_smul_right]
    congr 1
    have e : orthProd (diagFactor q) .gp (orthProd (diagFactor q) .gp (orthProd (diagFactor q) .gp v A) v) (orthProd (diagFactor q) .gp (orthProd (diagFactor q) .gp v B) v)
        = vdot q v v • orthProd (diagFactor q) .gp (orthProd (diagFactor q) .gp v (orthProd (diagFactor q) .gp A B)) v := by
      have h1 : ∀ X Y : MV K, orthProd (diagFactor q) .gp (orthProd (diagFactor q) .gp X v) (orthProd (diagFactor q) .gp v Y) = vdot q v v • orthProd (diagFactor q) .gp X Y := by
        intro X Y
        rw [gp_assoc, ← gp_assoc q v v Y, gp_vec_self q hv, gp_scalar_left, prod_smul_right]
      calc _ = orthProd (diagFactor q) .gp (orthProd (diagFactor q) .gp (orthProd (diagFactor q) .gp v A) v) (orthProd (diagFactor q) .gp v (orthProd (diagFactor q) .gp B v)) := by rw [gp_assoc q v B v]
        _ = _ := by rw [h1, gp_assoc, gp_assoc, gp_assoc]
    rw [e, smul_smul, inv_mul_cancel₀ h, one_smul]
  one := by
    rw [conjVec_apply, gp_scalar_right, one_smul, gp_vec_self q hv]
    unfold scalar
    rw [Finsupp.smul_single, smul_eq_mul, inv_mul_cancel₀ h]
  vec x hx := by
    rw [conjVec_vec q hv hx h]; exact Iso.homog_sub (homog_smul _ hv) hx
  form a x ha hx := by
    change vdot q _ _ = vdot q _ _
    rw [conjVec_vec q hv hx h, conjVec_vec q hv ha h]
    simp only [vdot_sub_left, vdot_sub_right, vdot_smul_left, vdot_smul_right]
    rw [vdot_comm q ha hv]
    field_simp
    ring

/-- product of a list of vectors -/
noncomputable def versorProd (vs : List (MV K)) : MV K := vs.foldr (orthProd (diagFactor q) .gp) (scalar 1)

theorem reverse_one : reverse (scalar (1 : K)) = scalar 1 := by
  unfold scalar
  have : par 0 0 = 0 := par_zero_right 0
  rw [reverse_single, this, sg_zero, mul_one]

theorem versor_norm (vs : List (MV K)) (hv : ∀ v ∈ vs, Homogeneous 1 v) :
    orthProd (diagFactor q) .gp (versorProd q vs) (reverse (versorProd q vs)) = scalar (vs.map fun v => vdot q v v).prod ∧
    orthProd (diagFactor q) .gp (reverse (versorProd q vs)) (versorProd q vs) = scalar (vs.map fun v => vdot q v v).prod := by
  induction vs with
  | nil =>
    have : versorProd q [] = scalar (1 : K) := rfl
    rw [this, reverse_one, gp_scalar_left, one_smul]; simp
  | cons v vs ih =>
    have hh := hv v (by simp)
    obtain ⟨i1, i2⟩ := ih fun w hw => hv w (by simp [hw])
    have e : versorProd q (v :: vs) = orthProd (diagFactor q) .gp v (versorProd q vs) := rfl
    rw [e, reverse_gp, Iso.reverse_vec hh, List.map_cons, List.prod_cons]
    generalize versorProd q vs = V at *
    constructor
    · rw [gp_assoc, ← gp_assoc q V, i1, gp_scalar_left, prod_smul_right, gp_vec_self q hh]
      unfold scalar; rw [Finsupp.smul_single, smul_eq_mul, mul_comm]
    · rw [gp_assoc, ← gp_assoc q v v, gp_vec_self q hh, gp_scalar_left, prod_smul_right, i2]
      unfold scalar; rw [Finsupp.smul_single, smul_eq_mul]

/-- conjugation by a product of vectors -/
noncomputable def conjList (vs : List (MV K)) : MV K →ₗ[K] MV K :=
  vs.foldr (fun v F => conjVec q v ∘ₗ F) LinearMap.id

theorem conjList_iso (vs : List (MV K)) (hv : ∀ v ∈ vs, Homogeneous 1 v ∧ vdot q v v ≠ 0) :
    Iso q (conjList q vs) := by
  induction vs with
  | nil => exact Iso.id
  | cons v vs ih =>
    exact (conjVec_iso q (hv v (by simp)).1 (hv v (by simp)).2).comp
      (ih fun w hw => hv w (by simp [hw]))

theorem conjList_apply (vs : List (MV K)) (hv : ∀ v ∈ vs, Homogeneous 1 v) (A : MV K) :
    conjList q vs A = (vs.map fun v => vdot q v v).prod⁻¹ •
      orthProd (diagFactor q) .gp (orthProd (diagFactor q) .gp (versorProd q vs) A) (reverse (versorProd q vs)) := by
  induction vs generalizing A with
  | nil =>
    have : versorProd q [] = scalar (1 : K) := rfl
    rw [this, reverse_one, gp_scalar_left, gp_scalar_right]
    simp [conjList]
  | cons v vs ih =>
    have e : versorProd q (v :: vs) = orthProd (diagFactor q) .gp v (versorProd q vs) := rfl
    have hh := hv v (by simp)
    rw [e, reverse_gp, Iso.reverse_vec hh]
    have ih' := ih (fun w hw => hv w (by simp [hw])) A
    change conjVec q v (conjList q vs A) = _
    rw [ih', conjVec_apply]
    generalize versorProd q vs = V at *
    simp only [prod_smul_left, prod_smul_right, smul_smul, List.map_cons, List.prod_cons, mul_inv]
    simp only [gp_assoc]

theorem versor_ne {vs : List (MV K)} (hv : ∀ v ∈ vs, vdot q v v ≠ 0) :
    (vs.map fun v => vdot q v v).prod ≠ 0 := by
  intro h
  rw [List.prod_eq_zero_iff, List.mem_map] at h
  obtain ⟨v, hm, h0⟩ := h
  exact hv v hm h0

theorem applyEven_eq (vs : List (MV K)) (hv : ∀ v ∈ vs, Homogeneous 1 v ∧ vdot q v v ≠ 0) (A : MV K) :
    applyEvenVersor (orthProd (diagFactor q)) (versorProd q vs) A = some (conjList q vs A) := by
  unfold applyEvenVersor
  rw [inv_of q (versor_norm q vs fun v h => (hv v h).1).1 (versor_ne q fun v h => (hv v h).2),
    Option.map_some, conjList_apply q vs (fun v h => (hv v h).1), prod_smul_right]

theorem applyOdd_eq (vs : List (MV K)) (hv : ∀ v ∈ vs, Homogeneous 1 v ∧ vdot q v v ≠ 0) (A : MV K) :
    applyOddVersor (orthProd (diagFactor q)) (versorProd q vs) A = some (conjList q vs (involute A)) := by
  rw [← applyEven_eq q vs hv]; rfl

theorem versorProd_append (vs ws : List (MV K)) :
    versorProd q (vs ++ ws) = orthProd (diagFactor q) .gp (versorProd q vs) (versorProd q ws) := by
  induction vs with
  | nil =>
    have : versorProd q [] = scalar (1 : K) := rfl
    rw [this, gp_scalar_left, one_smul]; rfl
  | cons v vs ih =>
    have e : ∀ vs, versorProd q (v :: vs) = orthProd (diagFactor q) .gp v (versorProd q vs) := fun _ => rfl
    rw [List.cons_append, e, e, ih, gp_assoc]

theorem conjList_append (vs ws : List (MV K)) (A : MV K) :
    conjList q (vs ++ ws) A = conjList q vs (conjList q ws A) := by
  induction vs with
  | nil => rfl
  | cons v vs ih =>
    change conjVec q v (conjList q (vs ++ ws) A) = conjVec q v (conjList q vs (conjList q ws A))
    rw [ih]

/-- involution commutes with isometries -/
theorem Iso.comm_involute {F : MV K →ₗ[K] MV K} (hF : Iso q F) (A : MV K) :
    GATL.involute (F A) = F (GATL.involute A) := by
  induction A using mv_induction with
  | h0 => rw [map_zero, involute_zero, map_zero]
  | hadd A B h h' => rw [map_add, involute_add, involute_add, map_add, h, h']
  | hs b a =>
    have h1 : Homogeneous (ones b) (Finsupp.single b a : MV K) := homog_single _ rfl
    have h2 := hF.homog h1
    have e : ∀ {k : Nat} {A : MV K}, Homogeneous k A → GATL.involute A = (-1 : K) ^ k • A := by
      intro k A hA
      ext b
      rw [involute_apply, Finsupp.smul_apply, smul_eq_mul]
      by_cases h : A b = 0
      · rw [h]; simp
      · have := hA b h
        rw [gradeOf_eq] at this; rw [this]
    rw [e h1, e h2, map_smul]

end field

end GATL
