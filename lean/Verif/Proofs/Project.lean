import Mathlib.Algebra.Order.BigOperators.Ring.Finset
import Mathlib.Algebra.Order.Field.Basic
import Verif.Proofs.Versor
import Verif.Proofs.Wick
import Verif.Model.Spaces

/-!
# Blades, projections and orthogonal factors
-/

namespace GATL

open Spec

section ring
variable {K : Type*} [CommRing K] (q : Fin 64 → K)

local notation "L" => orthProd (diagFactor q) GradedProduct.lcont
local notation "G" => orthProd (diagFactor q) GradedProduct.gp

theorem lcont_wedge {a v : MV K} (ha : Homogeneous 1 a) (hv : Homogeneous 1 v) (B : MV K) :
    L a (op v B) = vdot q a v • B - op v (L a B) := by
  rw [lcont_derivation q ha hv, pow_one, neg_one_smul, lcont_vec_vec q ha hv, op_scalar_left, vdot,
    ← sub_eq_add_neg]

/-- induction: multivectors are generated from `1` by sums, scalings and outer products with vectors -/
theorem op_induction {p : MV K → Prop} (A : MV K) (h0 : p 0) (hadd : ∀ A B, p A → p B → p (A + B))
    (hsmul : ∀ (a : K) A, p A → p (a • A)) (h1 : p (scalar 1))
    (hop : ∀ a B, Homogeneous 1 a → p B → p (op a B)) : p A := by
  have hb : ∀ m : Nat, ∀ b : Word, ones b = m → p (Finsupp.single b (1 : K)) := by
    intro m
    induction m with
    | zero => intro b hb; rw [ones_eq_zero] at hb; subst hb; exact h1
    | succ m ih =>
      intro b hb
      have hne : b ≠ 0 := by rintro rfl; rw [ones_zero] at hb; omega
      obtain ⟨i, b', hb', -, hop'⟩ := blade_split (0 : Fin 64 → K) hne
      rw [← hop']
      exact hop _ _ (homog_bit i) (ih b' (by omega))
  induction A using mv_induction with
  | h0 => exact h0
  | hadd A B hA hB => exact hadd A B hA hB
  | hs b a =>
    have : (Finsupp.single b a : MV K) = a • Finsupp.single b 1 := by
      rw [Finsupp.smul_single, smul_eq_mul, mul_one]
    rw [this]; exact hsmul _ _ (hb _ b rfl)

/-- Contractions of contractions onto a blade that contains the vector. -/
theorem lcont_inside {a B : MV K} (ha : Homogeneous 1 a) (h : op a B = 0) (Y : MV K) :
    L (L a Y) B = op a (L Y B) := by
  induction Y using op_induction with
  | h0 => simp only [prod_zero_right, prod_zero_left, op_zero_right]
  | hadd A A' h1 h2 => simp only [prod_add_right, prod_add_left, op_add_right, h1, h2]
  | hsmul c A h1 => simp only [prod_smul_right, prod_smul_left, op_smul_right, h1]
  | h1 => rw [lcont_one q ha, prod_zero_left, lcont_scalar _ (diagFactor_zero q), one_smul, h]
  | hop v Z hv ih =>
    rw [lcont_wedge q ha hv, prod_sub_left, prod_smul_left, lcont_op, lcont_op, ih,
      lcont_wedge q hv ha, vdot_comm q hv ha, sub_sub_cancel]

theorem involute_one : involute (scalar (1 : K)) = scalar 1 := by
  unfold scalar
  rw [involute_single, gr_zero, sg_zero, one_mul]

/-- The outer product with a vector commutes up to the grade involution. -/
theorem op_vec_right {a : MV K} (ha : Homogeneous 1 a) (A : MV K) : op A a = op a (involute A) := by
  induction A using op_induction with
  | h0 => simp only [involute_zero, op_zero_right, op_zero_left]
  | hadd A A' h1 h2 => simp only [involute_add, op_add_right, op_add_left, h1, h2]
  | hsmul c A h1 => simp only [involute_smul, op_smul_right, op_smul_left, h1]
  | h1 =>
    rw [involute_one, op_scalar_left, op_scalar_right]
  | hop v Z hv ih =>
    rw [op_assoc', ih, ← op_assoc', op_vec_comm hv ha, op_eq_gp_zero v, involute_gp, ← op_eq_gp_zero,
      Iso.involute_vec hv, ← neg_one_smul K (op a v), op_smul_left, op_assoc',
      ← neg_one_smul K v, op_smul_left, op_smul_right]

/-- The contraction by a vector of an outer product. -/
theorem lcont_op_involute {a : MV K} (ha : Homogeneous 1 a) (A B : MV K) :
    L a (op A B) = op (L a A) B + op (involute A) (L a B) := by
  induction A using op_induction with
  | h0 => simp only [prod_zero_right, op_zero_left, involute_zero, add_zero]
  | hadd A A' h1 h2 => simp only [prod_add_right, op_add_left, involute_add, h1, h2]; abel
  | hsmul c A h1 => simp only [prod_smul_right, op_smul_left, involute_smul, h1, smul_add]
  | h1 =>
    rw [lcont_one q ha, involute_one, op_scalar_left, op_scalar_left, one_smul, one_smul, op_zero_left, zero_add]
  | hop v Z hv ih =>
    rw [op_assoc', lcont_wedge q ha hv, ih, lcont_wedge q ha hv, op_eq_gp_zero v Z, involute_gp,
      ← op_eq_gp_zero, Iso.involute_vec hv]
    have e : ∀ X Y : MV K, op (X - Y) B = op X B - op Y B := fun X Y => by simp [op]
    rw [e, op_add_right, op_smul_left, ← op_assoc', ← neg_one_smul K v, op_smul_left, op_smul_left,
      op_assoc' v, neg_one_smul, op_assoc']
    abel

/-- Vectors that are orthogonal to each other. -/
def Orthogonal (ws : List (MV K)) : Prop :=
  (∀ w ∈ ws, Homogeneous 1 w) ∧ ws.Pairwise fun v w => vdot q v w = 0

theorem orthogonal_cons {w : MV K} {ws : List (MV K)} (h : Orthogonal q (w :: ws)) :
    Homogeneous 1 w ∧ (∀ v ∈ ws, vdot q w v = 0) ∧ Orthogonal q ws := by
  obtain ⟨h1, h2⟩ := h
  rw [List.pairwise_cons] at h2
  exact ⟨h1 w (by simp), h2.1, fun v hv => h1 v (by simp [hv]), h2.2⟩

/-- The outer product of a list of vectors. -/
noncomputable def outerProd (vs : List (MV K)) : MV K := vs.foldr op (scalar 1)

omit q in
theorem outer_homog : ∀ {vs : List (MV K)}, (∀ v ∈ vs, Homogeneous 1 v) → Homogeneous vs.length (outerProd vs)
  | [], _ => homog_single _ ones_zero
  | v :: vs, h => by
    have := Iso.op_homog (h v (by simp)) (outer_homog (vs := vs) fun w hw => h w (by simp [hw]))
    rw [List.length_cons, add_comm]; exact this

omit q in
/-- The factors of an outer product are inside. -/
theorem outer_inside : ∀ {vs : List (MV K)}, (∀ v ∈ vs, Homogeneous 1 v) → ∀ v ∈ vs, op v (outerProd vs) = 0
  | w :: ws, h, v, hm => by
    have hw := h w (by simp)
    have hv := h v hm
    have e' : outerProd (w :: ws) = op w (outerProd ws) := rfl
    rw [e', ← op_assoc']
    rcases List.mem_cons.mp hm with rfl | hm
    · rw [op_vec_self hv, op_zero_left]
    · rw [op_vec_comm hv hw, ← neg_one_smul K (op w v), op_smul_left, op_assoc',
        outer_inside (fun w hw => h w (by simp [hw])) v hm, op_zero_right, smul_zero]

theorem reverse_homog {k : Nat} {A : MV K} (hA : Homogeneous k A) :
    reverse A = (-1 : K) ^ (k * (k - 1) / 2) • A := by
  ext b
  rw [reverse_apply, Finsupp.smul_apply, smul_eq_mul]
  by_cases h : A b = 0
  · rw [h, mul_zero, mul_zero]
  · have := hA b h
    rw [gradeOf_eq] at this
    rw [this]

end ring

section field
set_option linter.unusedSectionVars false
variable {K : Type*} [Field K] [DecidableEq K] (q : Fin 64 → K)

local notation "L" => orthProd (diagFactor q) GradedProduct.lcont
local notation "G" => orthProd (diagFactor q) GradedProduct.gp

/-- A vector orthogonal to all factors. -/
theorem lcont_orthogonal {r : MV K} (hr : Homogeneous 1 r) : ∀ {ws : List (MV K)},
    (∀ w ∈ ws, Homogeneous 1 w) → (∀ w ∈ ws, vdot q r w = 0) → L r (versorProd q ws) = 0
  | [], _, _ => lcont_one q hr
  | w :: ws, h1, h2 => by
    have e : versorProd q (w :: ws) = G w (versorProd q ws) := rfl
    have h0 : orthProd (diagFactor q) .lcont r w 0 = 0 := h2 w (by simp)
    rw [e, lcont_vec_mul q hr (h1 w (by simp)), h0, zero_smul,
      lcont_orthogonal hr (fun v hv => h1 v (by simp [hv])) fun v hv => h2 v (by simp [hv]),
      prod_zero_right, sub_zero]

/-- Products of orthogonal vectors are outer products. -/
theorem orthogonal_outer : ∀ {ws : List (MV K)}, Orthogonal q ws → versorProd q ws = outerProd ws
  | [], _ => by rw [versorProd, outerProd, List.foldr_nil, List.foldr_nil]
  | w :: ws, h => by
    obtain ⟨h1, h2, h3⟩ := orthogonal_cons q h
    have e : versorProd q (w :: ws) = G w (versorProd q ws) := rfl
    have e' : outerProd (w :: ws) = op w (outerProd ws) := rfl
    rw [e, e', gp_vector q h1, lcont_orthogonal q h1 h3.1 h2, zero_add, orthogonal_outer h3]

/-- The inverse of a blade of orthogonal vectors is a multiple of the blade. -/
theorem blade_inv {ws : List (MV K)} (h : Orthogonal q ws) (hn : ∀ w ∈ ws, vdot q w w ≠ 0) :
    ∃ c : K, inv (orthProd (diagFactor q)) (versorProd q ws) = some (c • versorProd q ws) ∧
      c • L (versorProd q ws) (versorProd q ws) = scalar 1 := by
  obtain ⟨h1, h2⟩ := versor_norm q ws h.1
  have hne := versor_ne q hn
  have hH : Homogeneous ws.length (versorProd q ws) := by
    rw [orthogonal_outer q h]; exact outer_homog h.1
  have hr := reverse_homog hH
  generalize versorProd q ws = V at *
  generalize hd : (ws.map fun v => vdot q v v).prod = d at *
  generalize hs : (-1 : K) ^ (ws.length * (ws.length - 1) / 2) = s at *
  refine ⟨d⁻¹ * s, ?_, ?_⟩
  · rw [inv_of q h1 hne, hr, smul_smul]
  · have hL := orthMul_gradePart (diagFactor q) .lcont hH hH 0 (fun t => by
      simp only [areValidGrades, decide_eq_true_eq]; omega)
    rw [hr, prod_smul_left] at h2
    rw [hL, ← gradePart_smul, mul_smul, h2]
    have : d⁻¹ • (scalar d : MV K) = scalar 1 := by
      unfold scalar; rw [Finsupp.smul_single, smul_eq_mul, inv_mul_cancel₀ hne]
    rw [this]
    unfold scalar
    rw [gradePart_single, ones_zero]
    simp

/-- The part of a vector inside the span of orthogonal vectors. -/
noncomputable def inside (ws : List (MV K)) (a : MV K) : MV K :=
  (ws.map fun w => (vdot q a w / vdot q w w) • w).sum

theorem inside_homog (ws : List (MV K)) (a : MV K) (h : ∀ w ∈ ws, Homogeneous 1 w) :
    Homogeneous 1 (inside q ws a) := by
  induction ws with
  | nil => exact homog_zero 1
  | cons w ws ih =>
    simp only [inside, List.map_cons, List.sum_cons]
    exact homog_add (homog_smul _ (h w (by simp))) (ih fun v hv => h v (by simp [hv]))

theorem vdot_add_right (a b x : MV K) : vdot q x (a + b) = vdot q x a + vdot q x b := by
  unfold vdot; rw [prod_add_right]; rfl
theorem vdot_add_left (a b x : MV K) : vdot q (a + b) x = vdot q a x + vdot q b x := by
  unfold vdot; rw [prod_add_left]; rfl

theorem inside_op {ws : List (MV K)} (a B : MV K) (h : ∀ w ∈ ws, op w B = 0) : op (inside q ws a) B = 0 := by
  induction ws with
  | nil => exact op_zero_left B
  | cons w ws ih =>
    have : inside q (w :: ws) a = (vdot q a w / vdot q w w) • w + inside q ws a := by
      simp only [inside, List.map_cons, List.sum_cons]
    rw [this, op_add_left, op_smul_left, h w (by simp), ih fun v hv => h v (by simp [hv]), smul_zero,
      add_zero]

theorem inside_orthogonal {ws : List (MV K)} (a : MV K) {v : MV K} (hv : Homogeneous 1 v)
    (h : ∀ w ∈ ws, Homogeneous 1 w) (h0 : ∀ w ∈ ws, vdot q v w = 0) : vdot q (inside q ws a) v = 0 := by
  induction ws with
  | nil => simp [inside, vdot, prod_zero_left]
  | cons w ws ih =>
    have : inside q (w :: ws) a = (vdot q a w / vdot q w w) • w + inside q ws a := by
      simp only [inside, List.map_cons, List.sum_cons]
    rw [this, vdot_add_left, vdot_smul_left, vdot_comm q (h w (by simp)) hv, h0 w (by simp), mul_zero,
      ih (fun v hv => h v (by simp [hv])) fun v hv => h0 v (by simp [hv]), add_zero]

/-- The rest is orthogonal to all of them. -/
theorem inside_rest {ws : List (MV K)} (hw : Orthogonal q ws) (hn : ∀ w ∈ ws, vdot q w w ≠ 0) (a : MV K) :
    ∀ w ∈ ws, vdot q (inside q ws a) w = vdot q a w := by
  induction ws with
  | nil => simp
  | cons w ws ih =>
    obtain ⟨h1, h2, h3⟩ := orthogonal_cons q hw
    have e : inside q (w :: ws) a = (vdot q a w / vdot q w w) • w + inside q ws a := by
      simp only [inside, List.map_cons, List.sum_cons]
    intro v hv
    rw [e, vdot_add_left, vdot_smul_left]
    rcases List.mem_cons.mp hv with rfl | hv
    · rw [inside_orthogonal q a h1 h3.1 h2, add_zero, div_mul_cancel₀ _ (hn v (by simp))]
    · rw [h2 v hv, mul_zero, zero_add]
      exact ih h3 (fun w hw => hn w (by simp [hw])) v hv

/-- The projection onto a blade of orthogonal vectors. -/
structure Projection (B : MV K) (F : MV K → MV K) : Prop where
  add : ∀ A A', F (A + A') = F A + F A'
  smul : ∀ (c : K) A, F (c • A) = c • F A
  one : F (scalar 1) = scalar 1
  op : ∀ a A, Homogeneous 1 a → F (op a A) = op (F a) (F A)
  vec : ∀ a, Homogeneous 1 a → Homogeneous 1 (F a)
  inside : ∀ a, Homogeneous 1 a → GATL.op (F a) B = 0
  outside : ∀ a, Homogeneous 1 a → L (a - F a) B = 0
  fixed : ∀ a, Homogeneous 1 a → GATL.op a B = 0 → F a = a

theorem project_ok {ws : List (MV K)} (hw : Orthogonal q ws) (hn : ∀ w ∈ ws, vdot q w w ≠ 0) :
    ∃ F, Projection q (versorProd q ws) F ∧
      ∀ A, project (orthProd (diagFactor q)) A (versorProd q ws) = some (F A) := by
  obtain ⟨c, hc, h1⟩ := blade_inv q hw hn
  have hin : ∀ w ∈ ws, op w (versorProd q ws) = 0 := by
    rw [orthogonal_outer q hw]; exact outer_inside hw.1
  have hsplit : ∀ a, Homogeneous 1 a → ∃ p, Homogeneous 1 p ∧ op p (versorProd q ws) = 0 ∧
      L (a - p) (versorProd q ws) = 0 := by
    intro a ha
    have hp := inside_homog q ws a hw.1
    refine ⟨inside q ws a, hp, inside_op q a _ hin, ?_⟩
    refine lcont_orthogonal q (Iso.homog_sub ha hp) hw.1 fun w hm => ?_
    rw [vdot_sub_left, inside_rest q hw hn a w hm, sub_self]
  generalize versorProd q ws = V at *
  have hF : ∀ p, Homogeneous 1 p → op p V = 0 → c • L (L p V) V = p := by
    intro p hp h0
    rw [lcont_inside q hp h0, ← op_smul_right, h1, op_scalar_right, one_smul]
  have hG : ∀ r, L r V = 0 → c • L (L r V) V = 0 := by
    intro r h0; rw [h0, prod_zero_left, smul_zero]
  have hs : ∀ a p, L (a - p) V = 0 → L a V = L p V := by
    intro a p h0; rw [prod_sub_left] at h0; exact sub_eq_zero.mp h0
  have hv : ∀ a p, Homogeneous 1 p → op p V = 0 → L (a - p) V = 0 → c • L (L a V) V = p := by
    intro a p hp h0 h; rw [hs a p h]; exact hF p hp h0
  refine ⟨fun A => c • L (L A V) V, ⟨?_, ?_, ?_, ?_, ?_, ?_, ?_, hF⟩, ?_⟩
  · intro A A'; simp only [prod_add_left, smul_add]
  · intro b A; simp only [prod_smul_left, smul_comm b c]
  · beta_reduce
    rw [lcont_scalar _ (diagFactor_zero q), one_smul, h1]
  · intro a A ha
    obtain ⟨p, hp, h0, hr⟩ := hsplit a ha
    rw [hv a p hp h0 hr]
    have hrA : L (op (a - p) A) V = 0 := by
      have : op (a - p) A = op (involute A) (a - p) := by
        rw [op_vec_right (Iso.homog_sub ha hp), involute_involute]
      rw [this, lcont_op, hr, prod_zero_right]
    have e : op a A = op p A + op (a - p) A := by rw [← op_add_left, add_sub_cancel]
    rw [e, prod_add_left, hrA, add_zero, lcont_op, lcont_inside q hp h0, op_smul_right]
  · intro a ha
    obtain ⟨p, hp, h0, hr⟩ := hsplit a ha
    rw [hv a p hp h0 hr]; exact hp
  · intro a ha
    obtain ⟨p, hp, h0, hr⟩ := hsplit a ha
    rw [hv a p hp h0 hr]; exact h0
  · intro a ha
    obtain ⟨p, hp, h0, hr⟩ := hsplit a ha
    rw [hv a p hp h0 hr]; exact hr
  · intro A
    unfold project
    rw [hc, Option.map_some, prod_smul_right, prod_smul_left]

theorem Projection.idem {B : MV K} {F : MV K → MV K} (h : Projection q B F) (A : MV K) : F (F A) = F A := by
  have h0 : F 0 = 0 := by have := h.smul 0 0; simpa using this
  induction A using op_induction with
  | h0 => rw [h0, h0]
  | hadd A A' h1 h2 => rw [h.add, h.add, h1, h2]
  | hsmul c A h1 => rw [h.smul, h.smul, h1]
  | h1 => rw [h.one, h.one]
  | hop v Z hv ih => rw [h.op v Z hv, h.op _ _ (h.vec v hv), ih, h.fixed _ (h.vec v hv) (h.inside v hv)]

end field

section euclidean
variable {K : Type*} [Field K] [LinearOrder K] [IsStrictOrderedRing K]

theorem euclidean_definite {v : MV K} (hv : Homogeneous 1 v) (h : vdot (fun _ => (1 : K)) v v = 0) : v = 0 := by
  obtain ⟨c, rfl⟩ := homog_one hv
  have h1 := Cl.vec_sq (fun _ => (1 : K)) c
  have h2 := gp_vec_self (fun _ => (1 : K)) hv
  rw [h] at h2
  have h3 : (∑ i, (1 : K) * (c i * c i)) = 0 := by
    have := congrArg (fun A : MV K => A 0) ((h1.symm.trans h2 : _))
    rw [Cl.one_eq_blade] at this
    have e := Cl.single_eq (fun _ => (1 : K)) 0 (∑ i, (1 : K) * (c i * c i))
    have := congrArg (fun A : MV K => A 0) (e.trans (h1.symm.trans h2))
    simpa [scalar] using this
  have h4 : ∀ i, c i = 0 := by
    intro i
    have := (Finset.sum_eq_zero_iff_of_nonneg (fun i _ => by
      rw [one_mul]; exact mul_self_nonneg (c i))).mp h3 i (Finset.mem_univ i)
    simpa using this
  simp [h4]

/-- Gram-Schmidt: blades of Euclidean spaces are products of orthogonal vectors. -/
theorem gram_schmidt : ∀ vs : List (MV K), (∀ v ∈ vs, Homogeneous 1 v) → outerProd vs ≠ 0 →
    ∃ ws, Orthogonal (fun _ => (1 : K)) ws ∧ (∀ w ∈ ws, vdot (fun _ => (1 : K)) w w ≠ 0) ∧
      ws.length = vs.length ∧ versorProd (fun _ => (1 : K)) ws = outerProd vs
  | [], _, _ => ⟨[], ⟨by simp, by simp⟩, by simp, rfl,
      by rw [versorProd, outerProd, List.foldr_nil, List.foldr_nil]⟩
  | v :: vs, h, h0 => by
    have e : outerProd (v :: vs) = op v (outerProd vs) := rfl
    have hv := h v (by simp)
    obtain ⟨ws, hw, hn, hl, he⟩ := gram_schmidt vs (fun w hw => h w (by simp [hw])) (by
      intro h1; rw [e, h1, op_zero_right] at h0; exact h0 rfl)
    have hp := inside_homog (fun _ => (1 : K)) ws v hw.1
    have hr := Iso.homog_sub hv hp
    have hin : ∀ w ∈ ws, op w (versorProd (fun _ => (1 : K)) ws) = 0 := by
      rw [orthogonal_outer _ hw]; exact outer_inside hw.1
    have ho : ∀ w ∈ ws, vdot (fun _ => (1 : K)) (v - inside (fun _ => (1 : K)) ws v) w = 0 := by
      intro w hm
      rw [vdot_sub_left, inside_rest _ hw hn v w hm, sub_self]
    have he' : versorProd (fun _ => (1 : K)) ((v - inside (fun _ => (1 : K)) ws v) :: ws) = outerProd (v :: vs) := by
      have e1 : versorProd (fun _ => (1 : K)) ((v - inside (fun _ => (1 : K)) ws v) :: ws)
        = orthProd (diagFactor (fun _ => (1 : K))) .gp (v - inside (fun _ => (1 : K)) ws v)
          (versorProd (fun _ => (1 : K)) ws) := rfl
      rw [e1, gp_vector _ hr, lcont_orthogonal _ hr hw.1 ho, zero_add, e, ← he]
      have := inside_op (fun _ => (1 : K)) v (versorProd (fun _ => (1 : K)) ws) hin
      have e2 : v = inside (fun _ => (1 : K)) ws v + (v - inside (fun _ => (1 : K)) ws v) := by
        rw [add_sub_cancel]
      conv_rhs => rw [e2, op_add_left, this, zero_add]
    refine ⟨(v - inside (fun _ => (1 : K)) ws v) :: ws, ⟨?_, ?_⟩, ?_, ?_, he'⟩
    · intro w hm
      rcases List.mem_cons.mp hm with rfl | hm
      · exact hr
      · exact hw.1 w hm
    · rw [List.pairwise_cons]; exact ⟨ho, hw.2⟩
    · intro w hm
      rcases List.mem_cons.mp hm with rfl | hm
      · intro h1
        have h2 := euclidean_definite hr h1
        rw [h2] at he'
        have : versorProd (fun _ => (1 : K)) ((0 : MV K) :: ws)
          = orthProd (diagFactor (fun _ => (1 : K))) .gp 0 (versorProd (fun _ => (1 : K)) ws) := rfl
        rw [this, prod_zero_left] at he'
        exact h0 he'.symm
      · exact hn w hm
    · rw [List.length_cons, List.length_cons, hl]

end euclidean

end GATL
