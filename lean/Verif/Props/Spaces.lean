import Verif.Proofs.Project
import Verif.Proofs.GeneralProd
import Verif.Spec.Spaces
import Verif.Props.Vector
import Verif.Props.Lazy

/-!
# Models of geometry

**C39** (projections in Euclidean spaces), **C40** (translations in the homogeneous model), **C53** (flats
of the homogeneous model).
-/

namespace GATL.Props

open Spec

/-! ## C39 -/

section euclidean
variable {K : Type*} [Field K] [LinearOrder K] [IsStrictOrderedRing K] {n : Nat}

theorem euclidean_eq (hn : n ≤ 63) :
    (signedProd n 0 0 : Metric K) = orthProd (diagFactor (fun _ => (1 : K))) := by
  funext g A B
  unfold signedProd
  rw [signedFactor_cast n 0 0 (by omega)]
  congr 2
  funext i
  have : signature n 0 0 i = 1 := by
    unfold signature
    split_ifs <;> first | rfl | omega
  rw [this, Int.cast_one]

/-- **C39** Projection onto a blade `B ≠ 0` (an outer product of vectors) of a Euclidean space: for every
multivector `A`, `project(A, B)` is defined, projecting again changes nothing, and projection and
rejection add up to `A`. -/
theorem C39_project_reject (hn : n ≤ 63) {vs : List (MV K)} (hv : ∀ v ∈ vs, Homogeneous 1 v)
    (h0 : outerOf vs ≠ 0) (A : MV K) :
    ∃ X Y, project (signedProd n 0 0) A (outerOf vs) = some X ∧
      reject (signedProd n 0 0) A (outerOf vs) = some Y ∧ X + Y = A ∧
      project (signedProd n 0 0) X (outerOf vs) = some X ∧
      reject (signedProd n 0 0) Y (outerOf vs) = some Y := by
  rw [euclidean_eq hn]
  obtain ⟨ws, hw, hne, -, he⟩ := gram_schmidt vs hv h0
  obtain ⟨F, hF, hp⟩ := project_ok _ hw hne
  have he' : versorProd (fun _ => (1 : K)) ws = outerOf vs := he
  rw [he'] at hp
  have hs : F (A - F A) = 0 := by
    rw [sub_eq_add_neg, hF.add, ← neg_one_smul K (F A), hF.smul, hF.idem, neg_one_smul, add_neg_cancel]
  refine ⟨F A, A - F A, hp A, ?_, add_sub_cancel _ _, ?_, ?_⟩
  · unfold reject; rw [hp, Option.map_some]
  · rw [hp, hF.idem]
  · unfold reject; rw [hp, Option.map_some, hs, sub_zero]

/-- **C39** The projection of a vector is a vector in `B`, and its rejection is orthogonal to `B`. It is
the only decomposition of that kind. -/
theorem C39_vector (hn : n ≤ 63) {vs : List (MV K)} (hv : ∀ v ∈ vs, Homogeneous 1 v)
    (h0 : outerOf vs ≠ 0) {a : MV K} (ha : Homogeneous 1 a) :
    ∃ p r, project (signedProd n 0 0) a (outerOf vs) = some p ∧
      reject (signedProd n 0 0) a (outerOf vs) = some r ∧
      Homogeneous 1 p ∧ op p (outerOf vs) = 0 ∧ signedProd n 0 0 .lcont r (outerOf vs) = 0 ∧
      ∀ p', Homogeneous 1 p' → op p' (outerOf vs) = 0 →
        signedProd n 0 0 .lcont (a - p') (outerOf vs) = 0 → p' = p := by
  rw [euclidean_eq hn]
  obtain ⟨ws, hw, hne, -, he⟩ := gram_schmidt vs hv h0
  obtain ⟨F, hF, hp⟩ := project_ok _ hw hne
  have he' : versorProd (fun _ => (1 : K)) ws = outerOf vs := he
  rw [he'] at hp hF
  refine ⟨F a, a - F a, hp a, ?_, hF.vec a ha, hF.inside a ha, hF.outside a ha, ?_⟩
  · unfold reject; rw [hp, Option.map_some]
  · intro p' h1 h2 h3
    have hz : F (a - p') = 0 := by
      have := hp (a - p')
      unfold project at this
      rw [Option.map_eq_some_iff] at this
      obtain ⟨X, hX, hX'⟩ := this
      rw [← hX']
      obtain ⟨c, hc, -⟩ := blade_inv _ hw hne
      rw [he'] at hc
      cases hc.symm.trans hX
      rw [prod_smul_right, h3, smul_zero, prod_zero_left]
    have e : a = p' + (a - p') := by rw [add_sub_cancel]
    rw [e, hF.add, hz, add_zero, hF.fixed p' h1 h2]

/-- **C39** Projecting respects outer products. -/
theorem C39_op (hn : n ≤ 63) {vs : List (MV K)} (hv : ∀ v ∈ vs, Homogeneous 1 v)
    (h0 : outerOf vs ≠ 0) {a : MV K} (ha : Homogeneous 1 a) (A : MV K) :
    ∃ p X, project (signedProd n 0 0) a (outerOf vs) = some p ∧
      project (signedProd n 0 0) A (outerOf vs) = some X ∧
      project (signedProd n 0 0) (op a A) (outerOf vs) = some (op p X) := by
  rw [euclidean_eq hn]
  obtain ⟨ws, hw, hne, -, he⟩ := gram_schmidt vs hv h0
  obtain ⟨F, hF, hp⟩ := project_ok _ hw hne
  have he' : versorProd (fun _ => (1 : K)) ws = outerOf vs := he
  rw [he'] at hp
  exact ⟨F a, F A, hp a, hp A, by rw [hp, hF.op a A ha]⟩

-- the plane of `e1` and `e1 + 2 e2`
example : (∀ v ∈ [e ℚ 0, e ℚ 0 + 2 • e ℚ 1], Homogeneous 1 v) ∧ outerOf [e ℚ 0, e ℚ 0 + 2 • e ℚ 1] ≠ 0 := by
  have h0 : Homogeneous 1 (e ℚ 0) := homog_single _ (by decide +kernel)
  have h1 : Homogeneous 1 (e ℚ 1) := homog_single _ (by decide +kernel)
  have h2 : Homogeneous 1 (e ℚ 0 + 2 • e ℚ 1) :=
    homog_add h0 (by rw [← Nat.cast_smul_eq_nsmul ℚ]; exact homog_smul _ h1)
  refine ⟨by simp [h0, h2], ?_⟩
  have : outerOf [e ℚ 0, e ℚ 0 + 2 • e ℚ 1] = Finsupp.single 3 2 := by
    simp only [outerOf, List.foldr_cons, List.foldr_nil]
    rw [op_scalar_right, one_smul, op_add_right, op_vec_self h0, zero_add,
      ← Nat.cast_smul_eq_nsmul ℚ, op_smul_right]
    have hp := ev_op_low (K := ℚ) (A := (1 : Word) <<< 1) (v := 0)
      (by intro j hj; have : j = 0 := Nat.le_zero.mp hj; subst this; decide)
    have : op (e ℚ 0) (e ℚ 1) = Finsupp.single 3 1 := hp
    rw [this, Finsupp.smul_single]; norm_num
  rw [this]
  exact fun h => by simp at h

end euclidean

/-! ## C40 -/

section homogeneous
variable {K : Type*} [CommRing K] {D : Nat}

theorem homogeneous_eq (hD : D ≤ 62) :
    (HomogeneousModel.metric D : Metric K) = orthProd (diagFactor (fun _ => (1 : K))) := by
  funext g A B
  unfold HomogeneousModel.metric signedProd
  rw [signedFactor_cast (D + 1) 0 0 (by omega)]
  congr 2
  funext i
  have : signature (D + 1) 0 0 i = 1 := by
    unfold signature
    split_ifs <;> first | rfl | omega
  rw [this, Int.cast_one]

theorem e_homog (hD : D ≤ 63) : Homogeneous 1 (e K D) := homog_single _ (ones_bit ⟨D, by omega⟩)

/-- Contraction by a basis vector that does not occur. -/
theorem lcont_absent (q : Fin 64 → K) (hD : D ≤ 63) {A : MV K} (hA : A ∈ space K D) :
    orthProd (diagFactor q) .lcont (e K D) A = 0 := by
  refine space_eq_sum (p := fun A => orthProd (diagFactor q) .lcont (e K D) A = 0) hA ?_ ?_ ?_
  · rw [prod_zero_right]
  · intro A B h h'; rw [prod_add_right, h, h', add_zero]
  · intro b a hb
    have : ¬ (bit D &&& b = bit D) := by
      intro h
      rw [bit_and_eq ⟨D, by omega⟩] at h
      have := hb ⟨D, by omega⟩ h
      simp at this
    have h2 := lcont_single (diagFactor q) (bit D) b (1 : K) a
    rw [if_neg this, mul_zero, Finsupp.single_zero] at h2
    exact h2

theorem vdot_e (hD : D ≤ 63) (q : Fin 64 → K) : vdot q (e K D) (e K D) = q ⟨D, by omega⟩ := by
  have h := gp_vec_self q (e_homog (K := K) hD)
  have h2 : orthProd (diagFactor q) .gp (e K D) (e K D) = scalar (q ⟨D, by omega⟩) := by
    have h3 := gp_single (diagFactor q) (bit D) (bit D) (1 : K) 1
    have hp : par (bit (⟨D, by omega⟩ : Fin 64)) (bit (⟨D, by omega⟩ : Fin 64)) = 0 :=
      par_bit_low fun j hj => by
        rw [getLsbD_bit D j (by omega)]
        exact decide_eq_false (Nat.ne_of_lt hj)
    have hd := diagFactor_bit q ⟨D, by omega⟩
    dsimp only at hp hd
    rw [BitVec.xor_self, BitVec.and_self, hp, sg_zero, hd, one_mul, one_mul, one_mul] at h3
    exact h3
  have := congrArg (fun A : MV K => A 0) (h.symm.trans h2)
  simpa [scalar] using this

theorem vdot_absent (q : Fin 64 → K) (hD : D ≤ 63) {a : MV K} (h : a ∈ space K D) : vdot q (e K D) a = 0 := by
  unfold vdot; rw [lcont_absent q hD h]; rfl

theorem direction_space (hD : D ≤ 63) (x : Fin D → K) : direction x ∈ space K D :=
  vectorOf_space x (by omega)

theorem direction_homog (hD : D ≤ 63) (x : Fin D → K) : Homogeneous 1 (direction x) :=
  vectorOf_homog x (by omega)

/-- **C40** Translating a point. -/
theorem C40_point (hD : D ≤ 62) (d x : Fin D → K) :
    HomogeneousModel.translate D (direction d) (homogeneousPointAt x)
      = homogeneousPointAt (fun i => x i + d i) := by
  unfold HomogeneousModel.translate homogeneousPointAt
  have h := lcont_absent (fun _ => (1 : K)) (by omega) (direction_space (by omega) x)
  unfold direction at h
  rw [homogeneous_eq hD, prod_add_right, h, zero_add,
    lcont_vec_vec _ (e_homog (by omega)) (e_homog (by omega))]
  have := vdot_e (by omega : D ≤ 63) (fun _ => (1 : K))
  unfold vdot at this
  rw [this, op_scalar_right, one_smul]
  unfold direction vectorOf
  simp only [add_smul, Finset.sum_add_distrib]
  abel

/-- **C40** Translation respects outer products, so it acts on every flat. -/
theorem C40_op (hD : D ≤ 62) (d : Fin D → K) (A B : MV K) :
    HomogeneousModel.translate D (direction d) (op A B)
      = op (HomogeneousModel.translate D (direction d) A) (HomogeneousModel.translate D (direction d) B) := by
  have hd := direction_homog (by omega : D ≤ 63) d
  unfold HomogeneousModel.translate
  rw [homogeneous_eq hD, lcont_op_involute _ (e_homog (by omega))]
  simp only [op_add_left, op_add_right]
  generalize orthProd (diagFactor fun _ => (1 : K)) .lcont (e K D) A = A'
  generalize orthProd (diagFactor fun _ => (1 : K)) .lcont (e K D) B = B'
  have h1 : op A (op (direction d) B') = op (direction d) (op (involute A) B') := by
    rw [← op_assoc', op_vec_right hd, op_assoc']
  have h2 : op (op (direction d) A') (op (direction d) B') = 0 := by
    rw [op_assoc', ← op_assoc' A', op_vec_right hd, op_assoc', ← op_assoc', op_vec_self hd, op_zero_left]
  rw [h1, h2, op_assoc']
  abel

/-- **C40** Translations compose additively. -/
theorem C40_compose (hD : D ≤ 62) (d d' : Fin D → K) (A : MV K) :
    HomogeneousModel.translate D (direction d') (HomogeneousModel.translate D (direction d) A)
      = HomogeneousModel.translate D (direction fun i => d i + d' i) A := by
  have hd := direction_homog (by omega : D ≤ 63) d
  have he := e_homog (K := K) (by omega : D ≤ 63)
  have hs : direction (fun i => d i + d' i) = direction d + direction d' := by
    unfold direction vectorOf
    simp only [add_smul, Finset.sum_add_distrib]
  unfold HomogeneousModel.translate
  rw [homogeneous_eq hD, prod_add_right, lcont_wedge _ he hd,
    vdot_absent _ (by omega) (direction_space (by omega) d), zero_smul, ← lcont_op, op_vec_self he,
    prod_zero_left, op_zero_right, sub_zero, add_zero, hs, op_add_left, add_assoc]

/-- **C40** Translating by the zero vector is the identity. -/
theorem C40_zero (A : MV K) : HomogeneousModel.translate D (direction fun _ : Fin D => 0) A = A := by
  unfold HomogeneousModel.translate direction vectorOf
  simp [op_zero_left]

/-- **C40** Directions do not change. -/
theorem C40_direction (hD : D ≤ 62) (d : Fin D → K) {A : MV K} (hA : A ∈ space K D) :
    HomogeneousModel.translate D (direction d) A = A := by
  unfold HomogeneousModel.translate
  rw [homogeneous_eq hD, lcont_absent _ (by omega) hA, op_zero_right, add_zero]

theorem vectorOf_snoc (x : Fin D → K) (c : K) :
    vectorOf (Fin.snoc x c : Fin (D + 1) → K) = vectorOf x + c • e K D := by
  unfold vectorOf
  rw [Fin.sum_univ_castSucc]
  simp only [Fin.snoc_castSucc, Fin.snoc_last, Fin.val_castSucc, Fin.val_last]

end homogeneous

section objects
variable {D k : Nat} {τ : Expr.Types} {ρ : Env}

theorem const_reads_any {f : Bool} (v : Int) : CoordReads ρ f (constCoord v) v := by
  have h := const_reads (ρ := ρ) v
  unfold constCoord at h ⊢
  cases h with
  | symbolic _ _ hs hb hd => exact .symbolic _ _ hs hb hd

/-- **C40** `point(x...)` makes the point at `x`. -/
theorem C40_make_point {f : Bool} (hD : D ≤ 62) {coords : List Coord} {x : Fin D → ℝ}
    (h : List.Forall₂ (CoordReads ρ f) coords (List.ofFn x)) :
    ∃ M, homogeneousPoint D (k + 1) coords = some M ∧ Canonical M.expr ∧
      Reads ρ (D + 1) M.expr M.values M.bitsets (homogeneousPointAt x) := by
  have h1 := const_reads_any (ρ := ρ) (f := f) 1
  have := C46_vector_partial (k := k) (ρ := ρ) (f := f) (n := D + 1) (by omega) (by omega)
    (coords := coords ++ [constCoord 1]) (x := Fin.snoc x 1) (by
      rw [List.ofFn_succ']
      simp only [Fin.snoc_castSucc, Fin.snoc_last, List.concat_eq_append]
      norm_num at h1
      exact List.rel_append h (.cons h1 .nil))
  rwa [vectorOf_snoc, one_smul] at this

/-- **C40** `euclidean_vector(d...)` makes the direction `d`. -/
theorem C40_make_direction {f : Bool} (hD : D ≤ 62) {coords : List Coord} {d : Fin D → ℝ}
    (h : List.Forall₂ (CoordReads ρ f) coords (List.ofFn d)) :
    ∃ M, homogeneousVector D (k + 1) coords = some M ∧ Canonical M.expr ∧
      Reads ρ (D + 1) M.expr M.values M.bitsets (direction d) := by
  have h1 := const_reads_any (ρ := ρ) (f := f) 0
  have := C46_vector_partial (k := k) (ρ := ρ) (f := f) (n := D + 1) (by omega) (by omega)
    (coords := coords ++ [constCoord 0]) (x := Fin.snoc d 0) (by
      rw [List.ofFn_succ']
      simp only [Fin.snoc_castSucc, Fin.snoc_last, List.concat_eq_append]
      norm_num at h1
      exact List.rel_append h (.cons h1 .nil))
  rwa [vectorOf_snoc, zero_smul, add_zero] at this

/-- **C46** `euclidean_vector(d...)` of the conformal and the Minkowski model makes the direction `d`: no
component along the two added basis vectors. -/
theorem C46_conformal_direction_partial {f : Bool} (hD : D ≤ 61) {coords : List Coord} {d : Fin D → ℝ}
    (h : List.Forall₂ (CoordReads ρ f) coords (List.ofFn d)) :
    ∃ M, conformalVector D (k + 1) coords = some M ∧ Canonical M.expr ∧
      Reads ρ (D + 2) M.expr M.values M.bitsets (vectorOf d) := by
  have h1 := const_reads_any (ρ := ρ) (f := f) 0
  norm_num at h1
  have := C46_vector_partial (k := k) (ρ := ρ) (f := f) (n := D + 2) (by omega) (by omega)
    (coords := coords ++ [constCoord 0, constCoord 0]) (x := Fin.snoc (Fin.snoc d 0) 0) (by
      rw [List.ofFn_succ', List.concat_eq_append]
      simp only [Fin.snoc_castSucc, Fin.snoc_last]
      rw [List.ofFn_succ', List.concat_eq_append]
      simp only [Fin.snoc_castSucc, Fin.snoc_last, List.append_assoc, List.cons_append, List.nil_append]
      exact List.rel_append h (.cons h1 (.cons h1 .nil)))
  rwa [vectorOf_snoc, vectorOf_snoc, zero_smul, zero_smul, add_zero, add_zero] at this

/-- With two numbers. -/
example : ∃ M, conformalVector 2 1 [.native true 3, .native true 4] = some M ∧ Canonical M.expr ∧
    Reads ρ 4 M.expr M.values M.bitsets (vectorOf ![(3 : ℝ), 4]) :=
  C46_conformal_direction_partial (f := true) (by norm_num) (.cons (.native 3) (.cons (.native 4) .nil))

/-- The program of `translate` as it is written, `model/signed/homogeneous/translation.hpp:31-35`:
`flat + op(direction, lcont(ep, flat))`, with the direction, the flat and `ep` as inputs. -/
def translateProgram : Program :=
  .add (.input 1) (.op (.input 0) (.graded .lcont (.input 2) (.input 1)))

/-- **C40** The objects that `translate` computes, eagerly or lazily, stand for the translated flat. -/
theorem C40_objects (hD : D ≤ 61) {Md Mf Me o : Object} {d : Fin D → ℝ} {F : MV ℝ}
    (hd : Represents ρ (D + 1) Md (direction d)) (hF : Represents ρ (D + 1) Mf F)
    (he : Represents ρ (D + 1) Me (e ℝ D))
    (h : translateProgram.run (D + 1) 0 0 k τ ρ [Md, Mf, Me] = some o ∨
      translateProgram.runLazy (D + 1) 0 0 k τ ρ [Md, Mf, Me] = some o) :
    Represents ρ (D + 1) o (HomogeneousModel.translate D (direction d) F) := by
  have hA : List.Forall₂ (Represents ρ (D + 1 + 0 + 0)) [Md, Mf, Me] [direction d, F, e ℝ D] :=
    .cons hd (.cons hF (.cons he .nil))
  rcases h with h | h
  · exact C25_eager (D + 1) 0 0 (by omega) k _ _ hA translateProgram o h
  · exact C25_lazy (D + 1) 0 0 (by omega) k _ _ hA translateProgram o h

end objects

/-! ## C53 -/

section flats
variable {K : Type*} [CommRing K] {D : Nat}

theorem op_mem_space {n : Nat} {A B : MV K} (hA : A ∈ space K n) (hB : B ∈ space K n) :
    op A B ∈ space K n := by
  rw [op_eq_gp_zero]
  exact gp_mem_space _ hA hB

theorem outer_mem_space {n : Nat} {vs : List (MV K)} (h : ∀ v ∈ vs, v ∈ space K n) :
    outerOf vs ∈ space K n := by
  induction vs with
  | nil => exact single_mem_space _ (by simp)
  | cons v vs ih => exact op_mem_space (h v (by simp)) (ih fun w hw => h w (by simp [hw]))

/-- **C53** The direction of the flat through the point `x` with the directions `vs`. -/
theorem C53_direction (hD : D ≤ 62) (x : Fin D → K) {vs : List (MV K)} (hs : ∀ v ∈ vs, v ∈ space K D) :
    HomogeneousModel.flatDirection D (op (homogeneousPointAt x) (outerOf vs)) = outerOf vs := by
  have he := e_homog (K := K) (by omega : D ≤ 63)
  unfold HomogeneousModel.flatDirection
  have hx : Homogeneous 1 (homogeneousPointAt x) := homog_add (direction_homog (by omega : D ≤ 63) x) he
  have hd := vdot_absent (fun _ => (1 : K)) (by omega : D ≤ 63) (direction_space (by omega) x)
  rw [homogeneous_eq hD, lcont_wedge _ he hx, lcont_absent _ (by omega) (outer_mem_space hs), op_zero_right,
    sub_zero]
  have h1 : vdot (fun _ => (1 : K)) (e K D) (homogeneousPointAt x) = 1 := by
    have := vdot_e (by omega : D ≤ 63) (fun _ => (1 : K))
    unfold vdot at this hd ⊢
    unfold homogeneousPointAt
    unfold direction at hd
    rw [prod_add_right, Finsupp.add_apply, hd, this, zero_add]
  rw [h1, one_smul]

/-- **C53** The moment of the flat through the point `x` with the directions `vs`. -/
theorem C53_moment (hD : D ≤ 62) (x : Fin D → K) {vs : List (MV K)} (hs : ∀ v ∈ vs, v ∈ space K D) :
    HomogeneousModel.flatMoment D (op (homogeneousPointAt x) (outerOf vs)) = op (direction x) (outerOf vs) := by
  have he := e_homog (K := K) (by omega : D ≤ 63)
  unfold HomogeneousModel.flatMoment homogeneousPointAt
  have hd := op_mem_space (direction_space (by omega : D ≤ 63) x) (outer_mem_space hs)
  unfold direction at hd ⊢
  rw [homogeneous_eq hD, op_add_left, op_add_right, ← op_assoc' (e K D) (e K D), op_vec_self he, op_zero_left,
    add_zero, lcont_wedge _ he he, lcont_absent _ (by omega) hd, op_zero_right, sub_zero, vdot_e (by omega),
    one_smul]

end flats

section support
variable {K : Type*} [Field K] [LinearOrder K] [IsStrictOrderedRing K] {D : Nat}

/-- **C53** The support of the flat through the point `x` with the directions `vs`: the support vector is
the vector orthogonal to the flat that leads from the origin to it, and the unit support point is the
point of the flat there. -/
theorem C53_support (hD : D ≤ 62) (x : Fin D → K) {vs : List (MV K)} (hv : ∀ v ∈ vs, Homogeneous 1 v)
    (hs : ∀ v ∈ vs, v ∈ space K D) (h0 : outerOf vs ≠ 0) :
    ∃ s, HomogeneousModel.flatSupportVector D (op (homogeneousPointAt x) (outerOf vs)) = some s ∧
      HomogeneousModel.flatUnitSupportPoint D (op (homogeneousPointAt x) (outerOf vs)) = some (s + e K D) ∧
      Homogeneous 1 s ∧
      op (direction x - s) (outerOf vs) = 0 ∧
      HomogeneousModel.metric D .lcont s (outerOf vs) = 0 ∧
      op (s + e K D) (op (homogeneousPointAt x) (outerOf vs)) = 0 := by
  have h1 := C53_direction hD x hs
  have h2 := C53_moment hD x hs
  have he := e_homog (K := K) (by omega : D ≤ 63)
  have hx := direction_homog (by omega : D ≤ 63) x
  have hA := lcont_absent (fun _ => (1 : K)) (by omega : D ≤ 63) (outer_mem_space hs)
  unfold HomogeneousModel.flatDirection at h1
  unfold HomogeneousModel.flatMoment at h2
  unfold HomogeneousModel.flatSupportVector HomogeneousModel.flatUnitSupportPoint
  rw [h1, h2, homogeneous_eq hD]
  obtain ⟨ws, hw, hne, -, he'⟩ := gram_schmidt vs hv h0
  obtain ⟨F, hF, -⟩ := project_ok _ hw hne
  have hV := inv_of _ (versor_norm _ ws hw.1).1 (versor_ne _ hne)
  have hV' : orthProd (diagFactor fun _ => (1 : K)) .gp (versorProd (fun _ => 1) ws)
      ((List.map (fun v => vdot (fun _ => (1 : K)) v v) ws).prod⁻¹ • reverse (versorProd (fun _ => 1) ws))
      = scalar 1 := by
    rw [prod_smul_right, (versor_norm _ ws hw.1).1, scalar, scalar, Finsupp.smul_single, smul_eq_mul,
      inv_mul_cancel₀ (versor_ne _ hne)]
  have he'' : versorProd (fun _ => (1 : K)) ws = outerOf vs := he'
  rw [he''] at hV hV' hF
  rw [hV, Option.map_some, Option.map_some]
  generalize (List.map (fun v => vdot (fun _ => (1 : K)) v v) ws).prod⁻¹ • reverse (outerOf vs) = B' at hV'
  have hin := hF.inside _ hx
  have hout := hF.outside _ hx
  have hsv : Homogeneous 1 (direction x - F (direction x)) := Iso.homog_sub hx (hF.vec _ hx)
  have key : ∀ v : MV K, Homogeneous 1 v → orthProd (diagFactor fun _ => (1 : K)) .lcont v (outerOf vs) = 0 →
      orthProd (diagFactor fun _ => (1 : K)) .gp (op v (outerOf vs)) B' = v := by
    intro v hv hv0
    have := gp_vector (fun _ => (1 : K)) hv (outerOf vs)
    rw [hv0, zero_add] at this
    rw [← this, gp_assoc, hV', gp_scalar_right, one_smul]
  have hop : op (direction x) (outerOf vs) = op (direction x - F (direction x)) (outerOf vs) := by
    rw [sub_eq_add_neg, op_add_left, ← neg_one_smul K, op_smul_left, hin, smul_zero, add_zero]
  have hpt : op (homogeneousPointAt x) (outerOf vs)
      = op (direction x - F (direction x) + e K D) (outerOf vs) := by
    rw [op_add_left, ← hop, ← op_add_left]; rfl
  refine ⟨direction x - F (direction x), ?_, ?_, hsv, ?_, hout, ?_⟩
  · rw [hop, key _ hsv hout]
  · rw [hpt, key _ (homog_add hsv he) (by rw [prod_add_left, hout, hA, zero_add])]
  · rw [sub_sub_cancel, hin]
  · rw [hpt, ← op_assoc', op_vec_self (homog_add hsv he), op_zero_left]

-- the line through `(0, 1)` along the first axis of the plane
example : (∀ v ∈ [e ℚ 0], Homogeneous 1 v) ∧ (∀ v ∈ [e ℚ 0], v ∈ space ℚ 2) ∧ outerOf [e ℚ 0] ≠ 0 := by
  refine ⟨by
    simp only [List.mem_singleton, forall_eq]; exact homog_single _ (by decide +kernel), ?_, ?_⟩
  · simp only [List.mem_singleton, forall_eq]
    refine single_mem_space _ fun i hi => ?_
    have := (getLsbD_bit 0 i.val (by omega)).symm.trans hi
    simp only [decide_eq_true_eq] at this
    omega
  · simp only [outerOf, List.foldr_cons, List.foldr_nil]
    rw [op_scalar_right, one_smul]
    exact fun h => by simp [e] at h

end support

end GATL.Props
