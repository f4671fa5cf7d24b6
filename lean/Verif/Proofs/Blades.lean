import Mathlib.LinearAlgebra.LinearIndependent.Lemmas
import Verif.Proofs.Project

/-!
# Products with blades

Helper lemmas: vectors inside and orthogonal to a blade, the square of a blade.
-/

namespace GATL

open Spec

section ring
variable {K : Type*} [CommRing K] (q : Fin 64 → K)

local notation "L" => orthProd (diagFactor q) GradedProduct.lcont
local notation "G" => orthProd (diagFactor q) GradedProduct.gp
local notation "S" => orthProd (diagFactor q) GradedProduct.sp

theorem gp_swap {a v : MV K} (ha : Homogeneous 1 a) (hv : Homogeneous 1 v) (B : MV K) :
    G a (G v B) = (2 * vdot q a v) • B - G v (G a B) := by
  rw [← gp_assoc, gp_vec_swap q ha hv, prod_sub_left, gp_scalar_left, gp_assoc]

theorem op_gp {a : MV K} (ha : Homogeneous 1 a) (B : MV K) : op a B = G a B - L a B := by
  rw [gp_vector q ha, add_sub_cancel_left]

theorem lcont_gp {a v : MV K} (ha : Homogeneous 1 a) (hv : Homogeneous 1 v) (B : MV K) :
    L a (G v B) = vdot q a v • B - G v (L a B) := lcont_vec_mul q ha hv B

theorem gp_one (B : MV K) : G (scalar 1) B = B := by rw [gp_scalar_left, one_smul]

/-- A vector on the right. -/
theorem gp_vec_right {a : MV K} (ha : Homogeneous 1 a) (A : MV K) :
    G A a = op a (involute A) - L a (involute A) := by
  induction A using vec_induction q with
  | h0 => simp only [involute_zero, prod_zero_left, prod_zero_right, op_zero_right, sub_zero]
  | hadd A B h1 h2 => simp only [involute_add, prod_add_left, prod_add_right, op_add_right, h1, h2]; abel
  | hsmul c A h1 => simp only [involute_smul, prod_smul_left, prod_smul_right, op_smul_right, h1, smul_sub]
  | h1 => rw [involute_one, gp_one, op_scalar_right, one_smul, lcont_one q ha, sub_zero]
  | hmul v B hv ih =>
    rw [gp_assoc, ih, involute_gp, Iso.involute_vec hv, prod_neg_left, ← neg_one_smul K (G v (involute B)),
      op_smul_right, prod_smul_right, op_gp q ha, op_gp q ha, lcont_gp q ha hv, gp_swap q ha hv]
    simp only [prod_sub_right, smul_sub, mul_smul, neg_smul, one_smul, two_smul]
    abel

/-- Contraction by a vector inside `X`. -/
theorem gp_inside {a X : MV K} (ha : Homogeneous 1 a) (h : op a X = 0) (Y : MV K) :
    G (L a Y) X = op a (G Y X) := by
  induction Y using vec_induction q with
  | h0 => simp only [prod_zero_left, prod_zero_right, op_zero_right]
  | hadd A B h1 h2 => simp only [prod_add_left, prod_add_right, op_add_right, h1, h2]
  | hsmul c A h1 => simp only [prod_smul_left, prod_smul_right, op_smul_right, h1]
  | h1 => rw [lcont_one q ha, prod_zero_left, gp_one, h]
  | hmul v B hv ih =>
    rw [lcont_gp q ha hv, prod_sub_left, prod_smul_left, gp_assoc, ih, gp_assoc, op_gp q ha, op_gp q ha,
      lcont_gp q ha hv, gp_swap q ha hv]
    simp only [prod_sub_right, mul_smul, two_smul]
    abel

theorem gp_op_inside {v X : MV K} (hv : Homogeneous 1 v) (h : op v X = 0) (B : MV K) :
    G (op v B) X = L v (G B X) := by
  rw [op_gp q hv, prod_sub_left, gp_inside q hv h, gp_assoc, gp_vector q hv, add_sub_cancel_right]

theorem lcont_one_left (B : MV K) : L (scalar 1) B = B := by
  have := lcont_scalar (diagFactor q) (diagFactor_zero q) 1 B
  rw [one_smul] at this
  exact this

theorem blade_gp {X : MV K} : ∀ {vs : List (MV K)}, (∀ v ∈ vs, Homogeneous 1 v) → (∀ v ∈ vs, op v X = 0) →
    G (outerProd vs) X = L (outerProd vs) X
  | [], _, _ => by
    have : outerProd ([] : List (MV K)) = scalar 1 := rfl
    rw [this, gp_one, lcont_one_left]
  | v :: vs, h1, h2 => by
    have : outerProd (v :: vs) = op v (outerProd vs) := rfl
    rw [this, gp_op_inside q (h1 v (by simp)) (h2 v (by simp)), lcont_op,
      blade_gp (fun w hw => h1 w (by simp [hw])) (fun w hw => h2 w (by simp [hw]))]

theorem homog_scalar {A : MV K} (h : Homogeneous 0 A) : A = scalar (A 0) := by
  ext b
  unfold scalar
  by_cases hb : b = 0
  · subst hb; rw [Finsupp.single_eq_same]
  · rw [Finsupp.single_eq_of_ne hb]
    by_contra hne
    have := h b hne
    rw [gradeOf_eq, ones_eq_zero] at this
    exact hb this

theorem lcont_same {m : Nat} {A B : MV K} (hA : Homogeneous m A) (hB : Homogeneous m B) :
    L A B = scalar (G A B 0) := by
  have h := orthMul_gradePart (diagFactor q) .lcont hA hB 0 (fun t => by
    simp only [areValidGrades, decide_eq_true_eq]; omega)
  have h2 : Homogeneous 0 (L A B) := by rw [h]; exact gradePart_homog 0 _
  rw [homog_scalar h2, h]
  congr 1

/-- The square of a blade is a scalar. -/
theorem blade_square {vs : List (MV K)} (h : ∀ v ∈ vs, Homogeneous 1 v) :
    ∃ κ : K, G (outerProd vs) (outerProd vs) = scalar κ := by
  refine ⟨_, (blade_gp q h (outer_inside h)).trans (lcont_same q (outer_homog h) (outer_homog h))⟩

theorem involute_homog {m : Nat} {A : MV K} (hA : Homogeneous m A) : involute A = (-1 : K) ^ m • A := by
  ext b
  rw [involute_apply, Finsupp.smul_apply, smul_eq_mul]
  by_cases h : A b = 0
  · rw [h]; ring
  · have := hA b h
    rw [gradeOf_eq] at this
    rw [this]

/-- A vector inside. -/
theorem comm_inside {m : Nat} {X P : MV K} (hX : Homogeneous m X) (hP : Homogeneous 1 P) (h : op P X = 0) :
    G X P = (-(-1 : K) ^ m) • G P X := by
  rw [gp_vec_right q hP, involute_homog hX, op_smul_right, prod_smul_right, h, gp_vector q hP, h, add_zero, smul_zero,
    zero_sub, neg_smul]

/-- A vector orthogonal to all. -/
theorem comm_outside {m : Nat} {X R : MV K} (hX : Homogeneous m X) (hR : Homogeneous 1 R) (h : L R X = 0) :
    G X R = ((-1 : K) ^ m) • G R X := by
  rw [gp_vec_right q hR, involute_homog hX, op_smul_right, prod_smul_right, h, gp_vector q hR, h, zero_add, smul_zero,
    sub_zero]

/-- `X n X` for `n = P + R`. -/
theorem sandwich {m : Nat} {X P R : MV K} {κ : K} (hX : Homogeneous m X) (hP : Homogeneous 1 P) (hR : Homogeneous 1 R)
    (h1 : op P X = 0) (h2 : L R X = 0) (hκ : G X X = scalar κ) :
    G (G X (P + R)) X = ((-1 : K) ^ m * κ) • (R - P) := by
  rw [prod_add_right, comm_inside q hX hP h1, comm_outside q hX hR h2, prod_add_left, prod_smul_left, prod_smul_left,
    gp_assoc, gp_assoc, hκ, gp_scalar_right, gp_scalar_right, smul_sub, mul_smul, mul_smul, neg_smul]
  abel

theorem scalar_zero_apply (c : K) : (scalar c : MV K) 0 = c := by unfold scalar; rw [Finsupp.single_eq_same]

/-- The square of `n ⌋ X` for `n = P + R`. -/
theorem contraction_square {m : Nat} {X P R : MV K} {κ : K} (hX : Homogeneous m X) (hP : Homogeneous 1 P)
    (h1 : op P X = 0) (h2 : L R X = 0) (hκ : G X X = scalar κ) :
    S (L (P + R) X) (L (P + R) X) = scalar (-(-1 : K) ^ m * κ * vdot q P P) := by
  have e : L (P + R) X = G P X := by rw [prod_add_left, h2, add_zero, gp_vector q hP, h1, add_zero]
  rw [e, Iso.sp_scalar]
  congr 1
  rw [gp_assoc, ← gp_assoc q X, comm_inside q hX hP h1, prod_smul_left, prod_smul_right, gp_assoc, hκ, gp_scalar_right,
    prod_smul_right, gp_vec_self q hP, Finsupp.smul_apply, Finsupp.smul_apply, scalar_zero_apply, smul_eq_mul, smul_eq_mul]
  ring

/-- Contraction by a vector orthogonal to all factors. -/
theorem lcont_outer {r : MV K} (hr : Homogeneous 1 r) : ∀ {vs : List (MV K)}, (∀ v ∈ vs, Homogeneous 1 v) →
    (∀ v ∈ vs, vdot q r v = 0) → L r (outerProd vs) = 0
  | [], _, _ => lcont_one q hr
  | v :: vs, h1, h2 => by
    have : outerProd (v :: vs) = op v (outerProd vs) := rfl
    rw [this, lcont_wedge q hr (h1 v (by simp)), h2 v (by simp), zero_smul, zero_sub,
      lcont_outer hr (fun w hw => h1 w (by simp [hw])) (fun w hw => h2 w (by simp [hw])), op_zero_right, neg_zero]

omit q in
theorem op_assoc'' (A B C : MV K) : op (op A B) C = op A (op B C) := op_assoc' A B C

omit q in
theorem op_exchange {v w : MV K} (hv : Homogeneous 1 v) (hw : Homogeneous 1 w) (B : MV K) :
    op v (op w B) = -op w (op v B) := by
  rw [← op_assoc', op_vec_comm hv hw, ← op_assoc', ← neg_one_smul K, op_smul_left, neg_one_smul]

omit q in
/-- Multiples of `v` do not matter inside an outer product with `v`. -/
theorem op_shift {v : MV K} (hv : Homogeneous 1 v) : ∀ {us ds : List (MV K)}, (∀ u ∈ us, Homogeneous 1 u) →
    (∀ d ∈ ds, Homogeneous 1 d) → List.Forall₂ (fun u d => ∃ β : K, u = d + β • v) us ds →
    op v (outerProd us) = op v (outerProd ds)
  | [], _, _, _, .nil => rfl
  | u :: us, d :: ds, h1, h2, .cons ⟨β, e⟩ h => by
    have e1 : outerProd (u :: us) = op u (outerProd us) := rfl
    have e2 : outerProd (d :: ds) = op d (outerProd ds) := rfl
    have ih := op_shift hv (fun w hw => h1 w (by simp [hw])) (fun w hw => h2 w (by simp [hw])) h
    rw [e1, e2, op_exchange hv (h1 u (by simp)), ih, op_exchange hv (h2 d (by simp)), e, op_add_left, op_smul_left,
      ← op_assoc' v v, op_vec_self hv, op_zero_left, smul_zero, add_zero]

/-- Adding a part along a vector that is orthogonal to everything does not change the square. -/
theorem square_shift {m : Nat} {n o U D : MV K} (hn : Homogeneous 1 n) (ho : Homogeneous 1 o) (hU : Homogeneous m U)
    (h0 : vdot q n n = 0) (h1 : vdot q o n = -1) (hLU : L n U = 0) (hLD : L o D = 0) (h : op n U = op n D) :
    S U U = S D D := by
  have e : D = U + op n (L o U) := by
    have h2 := congrArg (L o) h
    rw [lcont_wedge q ho hn, lcont_wedge q ho hn, hLD, op_zero_right, sub_zero, h1, neg_one_smul, neg_one_smul] at h2
    rw [← neg_neg D, ← h2]; abel
  have hz : L n (L o U) = 0 := by
    rw [← lcont_op, op_vec_comm hn ho, prod_neg_left, lcont_op, hLU, prod_zero_right, neg_zero]
  have hs : ∀ W, L n W = 0 → S (op n (L o U)) W = 0 := by
    intro W hW
    have : op n (L o U) = op (involute (L o U)) n := by
      rw [op_vec_right hn, involute_involute]
    rw [this, sp_op, hW, prod_zero_right]
  have hw : L n (op n (L o U)) = 0 := by
    rw [lcont_wedge q hn hn, h0, hz, zero_smul, op_zero_right, sub_zero]
  rw [e, prod_add_left, prod_add_right, prod_add_right, hs U hLU, hs _ hw, sp_comm (diagFactor q) U (op n (L o U)), hs U hLU]
  simp only [add_zero]

end ring

section field
variable {K : Type*} [Field K] [DecidableEq K] (q : Fin 64 → K)

local notation "L" => orthProd (diagFactor q) GradedProduct.lcont
local notation "G" => orthProd (diagFactor q) GradedProduct.gp
local notation "S" => orthProd (diagFactor q) GradedProduct.sp

omit [DecidableEq K] in
theorem inside_mem {V : Submodule K (MV K)} {ws : List (MV K)} (a : MV K) (h : ∀ w ∈ ws, w ∈ V) : inside q ws a ∈ V := by
  unfold inside
  refine list_sum_mem fun w hw => ?_
  rw [List.mem_map] at hw
  obtain ⟨x, hx, rfl⟩ := hw
  exact Submodule.smul_mem _ _ (h x hx)

/-- Gram-Schmidt in a subspace of vectors without isotropic vectors. -/
theorem gram_schmidt_in {V : Submodule K (MV K)} (hV : ∀ v ∈ V, Homogeneous 1 v) (hd : ∀ v ∈ V, vdot q v v = 0 → v = 0) :
    ∀ {k : Nat} (v : Fin k → MV K), (∀ i, v i ∈ V) → LinearIndependent K v →
      ∃ ws, Orthogonal q ws ∧ (∀ w ∈ ws, vdot q w w ≠ 0) ∧ (∀ w ∈ ws, w ∈ Submodule.span K (Set.range v)) ∧
        versorProd q ws = outerProd (List.ofFn v)
  | 0, v, _, _ => ⟨[], ⟨by simp, by simp⟩, by simp, by simp,
      by rw [List.ofFn_zero, versorProd, outerProd, List.foldr_nil, List.foldr_nil]⟩
  | k + 1, v, h, hi => by
    rw [linearIndependent_finSucc] at hi
    obtain ⟨ws, hw, hn, hs, he⟩ := gram_schmidt_in hV hd (Fin.tail v) (fun i => h _) hi.1
    have e : outerProd (List.ofFn v) = op (v 0) (outerProd (List.ofFn (Fin.tail v))) := by rw [List.ofFn_succ]; rfl
    have hle : Submodule.span K (Set.range (Fin.tail v)) ≤ Submodule.span K (Set.range v) := by
      refine Submodule.span_mono ?_
      rintro _ ⟨i, rfl⟩
      exact ⟨i.succ, rfl⟩
    have hp := inside_mem q (v 0) hs
    have hp' : inside q ws (v 0) ∈ V := Submodule.span_le.mpr (by rintro _ ⟨i, rfl⟩; exact h _) hp
    have hr' : v 0 - inside q ws (v 0) ∈ V := Submodule.sub_mem _ (h 0) hp'
    have hr := hV _ hr'
    have hin : ∀ w ∈ ws, op w (versorProd q ws) = 0 := by
      rw [orthogonal_outer _ hw]; exact outer_inside hw.1
    have ho : ∀ w ∈ ws, vdot q (v 0 - inside q ws (v 0)) w = 0 := by
      intro w hm
      rw [vdot_sub_left, inside_rest _ hw hn (v 0) w hm, sub_self]
    refine ⟨(v 0 - inside q ws (v 0)) :: ws, ⟨?_, ?_⟩, ?_, ?_, ?_⟩
    · intro w hm
      rcases List.mem_cons.mp hm with rfl | hm
      · exact hr
      · exact hw.1 w hm
    · rw [List.pairwise_cons]; exact ⟨ho, hw.2⟩
    · intro w hm
      rcases List.mem_cons.mp hm with rfl | hm
      · intro h1
        have h2 := hd _ hr' h1
        rw [sub_eq_zero] at h2
        exact hi.2 (h2 ▸ hp)
      · exact hn w hm
    · intro w hm
      rcases List.mem_cons.mp hm with rfl | hm
      · exact Submodule.sub_mem _ (Submodule.subset_span ⟨0, rfl⟩) (hle hp)
      · exact hle (hs w hm)
    · have e1 : versorProd q ((v 0 - inside q ws (v 0)) :: ws) = G (v 0 - inside q ws (v 0)) (versorProd q ws) := rfl
      rw [e1, gp_vector _ hr, lcont_orthogonal _ hr hw.1 ho, zero_add, e, ← he]
      have := inside_op q (v 0) (versorProd q ws) hin
      have e2 : v 0 = inside q ws (v 0) + (v 0 - inside q ws (v 0)) := by rw [add_sub_cancel]
      conv_rhs => rw [e2, op_add_left, this, zero_add]

/-- The square of a blade of independent vectors does not vanish. -/
theorem blade_square_ne {V : Submodule K (MV K)} (hV : ∀ v ∈ V, Homogeneous 1 v) (hd : ∀ v ∈ V, vdot q v v = 0 → v = 0)
    {k : Nat} {v : Fin k → MV K} (hv : ∀ i, v i ∈ V) (hi : LinearIndependent K v) :
    ∃ κ, κ ≠ 0 ∧ G (outerProd (List.ofFn v)) (outerProd (List.ofFn v)) = scalar κ := by
  obtain ⟨ws, hw, hn, -, he⟩ := gram_schmidt_in q hV hd v hv hi
  have h1 := (versor_norm q ws hw.1).1
  have hH : Homogeneous ws.length (versorProd q ws) := by
    rw [orthogonal_outer q hw]; exact outer_homog hw.1
  rw [reverse_homog hH, prod_smul_right, he] at h1
  generalize hs : (-1 : K) ^ (ws.length * (ws.length - 1) / 2) = s at *
  have hss : s * s = 1 := by rw [← hs, ← mul_pow]; simp
  refine ⟨s * (ws.map fun v => vdot q v v).prod, ?_, ?_⟩
  · refine mul_ne_zero (fun h => ?_) (versor_ne q hn)
    rw [h] at hss; simp at hss
  · have := congrArg (s • ·) h1
    rw [smul_smul, hss, one_smul] at this
    rw [this]
    unfold scalar
    rw [Finsupp.smul_single, smul_eq_mul]

end field

end GATL
