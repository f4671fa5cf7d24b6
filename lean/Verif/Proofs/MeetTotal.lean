import Mathlib.LinearAlgebra.Dimension.OrzechProperty
import Verif.Proofs.MeetLoop

/-!
# When meet and join do not divide by zero
-/

namespace GATL

open Spec Props

variable {n : Nat}

local notation "q1" => (fun _ => (1 : ℝ) : Fin 64 → ℝ)
local notation "L" => orthProd (diagFactor q1) GradedProduct.lcont
local notation "𝔼" => EuclideanSpace ℝ (Fin n)

/-- Each vector of the list is outside the span of those before it. -/
def Fresh : Set 𝔼 → List 𝔼 → Prop
  | _, [] => True
  | done, x :: l => x ∉ Submodule.span ℝ done ∧ Fresh (insert x done) l

theorem fresh_of {ι : Type*} {f : ι → 𝔼} (hf : LinearIndependent ℝ f) : ∀ (l : List ι) (done : Set ι), l.Nodup →
    (∀ i ∈ l, i ∉ done) → Fresh (f '' done) (l.map f)
  | [], _, _, _ => trivial
  | i :: l, done, hnd, hd => by
    rw [List.nodup_cons] at hnd
    refine ⟨hf.notMem_span_image (hd i (by simp)), ?_⟩
    have := fresh_of hf l (insert i done) hnd.2 (by
      intro j hj
      rw [Set.mem_insert_iff, not_or]
      exact ⟨fun h => hnd.1 (h ▸ hj), hd j (by simp [hj])⟩)
    rwa [Set.image_insert_eq] at this

/-- The factors of a blade are independent. -/
theorem factors_independent (hn : n ≤ 63) {D : MV ℝ} {S : Submodule ℝ 𝔼} (hD : Spans D S) {E : Word} (hE : D E ≠ 0) :
    LinearIndependent ℝ fun i : {i : Fin n // E.getLsbD i = true} => S.starProjection (EuclideanSpace.single i.1 (1 : ℝ)) := by
  rw [linearIndependent_iff_card_eq_finrank_span]
  have h1 : Set.range (fun i : {i : Fin n // E.getLsbD i = true} => S.starProjection (EuclideanSpace.single i.1 (1 : ℝ))) =
      (fun i : Fin n => S.starProjection (EuclideanSpace.single i 1)) '' {i | E.getLsbD i = true} := by
    ext x
    constructor
    · rintro ⟨i, rfl⟩; exact ⟨i.1, i.2, rfl⟩
    · rintro ⟨i, hi, rfl⟩; exact ⟨⟨i, hi⟩, rfl⟩
  rw [h1, Set.finrank, hD.factors hn hE, ← hD.homog hn E hE, gradeOf_eq, ones_eq_card]
  have hm : ∀ i : Fin 64, E.getLsbD i = true → i.val < n := mem_space.mp (hD.space hn) E hE
  rw [Fintype.card_subtype]
  refine Finset.card_bij (fun i _ => (⟨i.val, by omega⟩ : Fin 64)) ?_ ?_ ?_
  · intro i hi
    rw [Finset.mem_filter] at hi
    exact mem_vecs.mpr hi.2
  · intro i _ j _ h
    have := congrArg Fin.val h
    exact Fin.ext this
  · intro j hj
    have hj := mem_vecs.mp hj
    exact ⟨⟨j.val, hm j hj⟩, by rw [Finset.mem_filter]; exact ⟨Finset.mem_univ _, hj⟩, rfl⟩

theorem sorted_fresh (hn : n ≤ 63) {D : MV ℝ} {S : Submodule ℝ 𝔼} (hD : Spans D S) {E : Word} (hE : D E ≠ 0)
    (hl : ∀ i ∈ (vecs E).sort (· ≤ ·), i.val < n) :
    Fresh ∅ (((vecs E).sort (· ≤ ·)).attach.map fun i => S.starProjection (EuclideanSpace.single (⟨i.1.val, hl i.1 i.2⟩ : Fin n)
      (1 : ℝ))) := by
  have h := fresh_of (factors_independent hn hD hE)
    (((vecs E).sort (· ≤ ·)).attach.map fun i =>
      ⟨⟨i.1.val, hl i.1 i.2⟩, mem_vecs.mp ((Finset.mem_sort _).mp i.2)⟩) ∅ ?_ (by simp)
  · rw [Set.image_empty, List.map_map] at h
    exact h
  · refine List.Nodup.map ?_ (List.nodup_attach.mpr (Finset.sort_nodup _ _))
    intro i j h
    have := congrArg (fun x => x.1.val) h
    exact Subtype.ext (Fin.ext this)

theorem outer_cons_ne (hn : n ≤ 63) {x : 𝔼} {xs : List 𝔼} (h : outerProd (xs.map vec) ≠ 0)
    (hx : x ∉ Submodule.span ℝ {y | y ∈ xs}) : outerProd ((x :: xs).map vec) ≠ 0 := by
  have h1 := spans_outer (c := 1) one_ne_zero h
  rw [one_smul] at h1
  exact (h1.cons hn hx).ne

theorem outer_append_ne (hn : n ≤ 63) {x : 𝔼} {xs : List 𝔼} (h : outerProd (xs.map vec) ≠ 0)
    (hx : x ∉ Submodule.span ℝ {y | y ∈ xs}) : outerProd ((xs ++ [x]).map vec) ≠ 0 := by
  have h1 := outer_cons_ne hn h hx
  have e : outerProd ((x :: xs).map vec) = op (vec x) (outerProd (xs.map vec)) := rfl
  rw [List.map_append, outer_append, List.map_singleton, outerProd_single,
    op_graded_comm (outer_homog (vecs_homog hn xs)) (vec_homog hn x), ← e]
  exact smul_ne_zero (pow_ne_zero _ (by norm_num)) h1

theorem inv_some (hn : n ≤ 63) {A : MV ℝ} {U : Submodule ℝ 𝔼} (h : Spans A U) : ∃ a, inv (orthProd (diagFactor q1)) A = some a := by
  obtain ⟨κ, -, -, hk⟩ := h.inverse hn
  exact ⟨_, hk⟩

section

variable {tol : ℝ} {A B D a d : MV ℝ}

/-- The projections of the loop, computed. -/
theorem meetStep_eq (hn : n ≤ 63) {U V : Submodule ℝ (EuclideanSpace ℝ (Fin n))} (hA : Spans A U)
    (hD : Spans D (U ⊓ V ⊔ (U ⊔ V)ᗮ))
    (ha : inv (orthProd (diagFactor q1)) A = some a) (hd : inv (orthProd (diagFactor q1)) D = some d)
    (gm gj : ℤ) (i : Fin n) (s : MeetState) :
    meetStep tol gm gj A a B D d (i + 1) (some s) =
      let p := vec ((U ⊓ V).starProjection (EuclideanSpace.single i 1))
      let r := vec ((U ⊔ V)ᗮ.starProjection (EuclideanSpace.single i 1))
      if isZeroValue tol p then rejectStep tol gj A B r s
      else if s.gradeMeet + 1 = gm then
        ((inv realProd (op s.meet p)).map fun m =>
          { s with meet := op s.meet p, gradeMeet := s.gradeMeet + 1, join := op (realProd .rcont A m) B }, false)
      else rejectStep tol gj A B r { s with meet := op s.meet p, gradeMeet := s.gradeMeet + 1 } := by
  have hN : (U ⊔ V)ᗮ ≤ Uᗮ := Submodule.orthogonal_le le_sup_left
  obtain ⟨κ, hκ0, hκ, hk⟩ := hA.inverse hn
  obtain ⟨ν, hν0, hν, hk'⟩ := hD.inverse hn
  rw [ha] at hk; cases hk
  rw [hd] at hk'; cases hk'
  unfold meetStep
  simp only [unitVector_eq, projectVector_eq hn hD hν0 hν, projectVector_eq hn hA hκ0 hκ, ← vec_sub,
    proj_part (inf_le_left : U ⊓ V ≤ U) hN]
  rw [proj_sup (perp_meet U V), add_sub_cancel_left]

end

theorem reject_total (hn : n ≤ 63) {tol : ℝ} (h0 : 0 ≤ tol) {A B : MV ℝ} {U V : Submodule ℝ 𝔼} (gj : ℤ) {s : MeetState}
    {ps rs : List 𝔼} (hs : MeetAt U V s ps rs) (hrs : outerProd (rs.map vec) ≠ 0) {r : 𝔼} (hr : r ∈ (U ⊔ V)ᗮ)
    (hsr : Sharp tol (vec r)) (h : r = 0 ∨ r ∉ Submodule.span ℝ {x | x ∈ rs}) :
    (r = 0 ∧ rejectStep tol gj A B (vec r) s = (some s, true)) ∨
    (∃ s', rejectStep tol gj A B (vec r) s = (some s', false)) ∨
    (∃ s', rejectStep tol gj A B (vec r) s = (some s', true) ∧ MeetAt U V s' ps (r :: rs) ∧
      outerProd ((r :: rs).map vec) ≠ 0) := by
  have hz := isZero_iff h0 hsr
  unfold rejectStep
  by_cases hr0 : r = 0
  · exact Or.inl ⟨hr0, by rw [if_pos (hz.mpr (by rw [hr0, vec_zero]))]⟩
  right
  have hne := outer_cons_ne hn hrs (h.resolve_left hr0)
  have hj : realProd .lcont (vec r) s.join = L (outerProd ((r :: rs).map vec)) (Finsupp.single (full n) 1) := by
    rw [real_eq, hs.join, List.map_cons]
    have e : outerProd (vec r :: rs.map vec) = op (vec r) (outerProd (rs.map vec)) := rfl
    rw [e, lcont_op]
  have h1 := spans_outer (c := 1) one_ne_zero hne
  rw [one_smul] at h1
  obtain ⟨j, hj'⟩ := inv_some hn (h1.lcont hn (pseudoscalar_spans hn) (by simp))
  simp only [if_neg (fun h => hr0 (vec_injective hn (hz.mp h))), hj]
  by_cases hg : s.gradeJoin - 1 = gj
  · left
    rw [if_pos hg, real_eq, hj']
    exact ⟨_, rfl⟩
  · right
    rw [if_neg hg]
    refine ⟨_, rfl, ⟨hs.meet, hs.ps_mem, hs.gradeMeet, rfl, ?_, ?_⟩, hne⟩
    · intro x hx
      rcases List.mem_cons.mp hx with rfl | hx
      · exact hr
      · exact hs.rs_mem x hx
    · simp only [hs.gradeJoin, List.length_cons]
      push_cast; ring

theorem insert_list (x : 𝔼) (xs : List 𝔼) : {y | y ∈ x :: xs} = insert x {y | y ∈ xs} := by ext; simp

/-- One common direction: the loop divides by nonzero blades only. -/
theorem loop_line (hn : n ≤ 63) {tol : ℝ} (h0 : 0 ≤ tol) {A B D a d : MV ℝ} {U V : Submodule ℝ 𝔼} (hA : Spans A U)
    (hD : Spans D (U ⊓ V ⊔ (U ⊔ V)ᗮ))
    (ha : inv (orthProd (diagFactor q1)) A = some a) (hd : inv (orthProd (diagFactor q1)) D = some d)
    (hsp : ∀ i : Fin n, Sharp tol (vec ((U ⊓ V).starProjection (EuclideanSpace.single i 1))))
    (hsr : ∀ i : Fin n, Sharp tol (vec ((U ⊔ V)ᗮ.starProjection (EuclideanSpace.single i 1)))) (gj : ℤ) :
    ∀ (l : List (Fin 64)) (hl : ∀ i ∈ l, i.val < n) {s : MeetState} {rs : List 𝔼} (_ : MeetAt U V s [] rs)
      (_ : outerProd (rs.map vec) ≠ 0)
      (_ : Fresh {x | x ∈ rs} (l.attach.map fun i => (U ⊓ V ⊔ (U ⊔ V)ᗮ).starProjection
        (EuclideanSpace.single (⟨i.1.val, hl i.1 i.2⟩ : Fin n) (1 : ℝ)))),
      (visit (meetStep tol 1 gj A a B D d) l (some s)).1 ≠ none := by
  intro l
  induction l with
  | nil => intro hl s rs _ _ _ h; cases h
  | cons i l ih =>
    intro hl s rs hs hrs hf
    have hi : i.val < n := hl i (by simp)
    rw [List.attach_cons, List.map_cons, List.map_map] at hf
    obtain ⟨hf1, hf2⟩ := hf
    dsimp only at hf1 hf2
    rw [proj_sup (perp_meet U V)] at hf1 hf2
    unfold visit
    rw [show i.val + 1 = (⟨i.val, hi⟩ : Fin n).val + 1 from rfl, meetStep_eq hn hA hD ha hd]
    dsimp only
    have hz := isZero_iff h0 (hsp ⟨i.val, hi⟩)
    have hr : (U ⊔ V)ᗮ.starProjection (EuclideanSpace.single (⟨i.val, hi⟩ : Fin n) (1 : ℝ)) ∈ (U ⊔ V)ᗮ :=
      Submodule.starProjection_apply_mem _ _
    have hsr' := hsr ⟨i.val, hi⟩
    generalize (U ⊔ V)ᗮ.starProjection (EuclideanSpace.single (⟨i.val, hi⟩ : Fin n) (1 : ℝ)) = r at *
    generalize (U ⊓ V).starProjection (EuclideanSpace.single (⟨i.val, hi⟩ : Fin n) (1 : ℝ)) = p at *
    by_cases hp : p = 0
    · rw [if_pos (hz.mpr (by rw [hp, vec_zero]))]
      rw [hp, zero_add] at hf1 hf2
      rcases reject_total (A := A) (B := B) hn h0 gj hs hrs hr hsr' (Or.inr hf1) with ⟨h1, -⟩ | ⟨s', h1⟩ | ⟨s', h1, h2, h3⟩
      · rw [h1] at hf1
        exact absurd (Submodule.zero_mem _) hf1
      · rw [h1]; simp
      · rw [h1]
        simp only [if_true]
        refine ih (fun j hj => hl j (List.mem_cons_of_mem _ hj)) h2 h3 ?_
        rw [insert_list]
        exact hf2
    · have hgm : s.gradeMeet + 1 = 1 := by rw [hs.gradeMeet]; simp
      rw [if_neg (fun h => hp (vec_injective hn (hz.mp h))), if_pos hgm]
      have h1 : op s.meet (vec p) = outerProd ([p].map vec) := by
        have e : s.meet = scalar 1 := hs.meet
        rw [e, op_scalar_left, one_smul]; exact (outerProd_single _).symm
      have hne : outerProd ([p].map vec) ≠ 0 := by
        intro h
        exact hp (vec_injective hn ((outerProd_single _).symm.trans h))
      have h2 := spans_outer (c := 1) one_ne_zero hne
      rw [one_smul] at h2
      obtain ⟨m, hm⟩ := inv_some hn h2
      rw [h1, real_eq, hm]
      simp

/-- The operands fill the space: the loop divides by nonzero blades only. -/
theorem loop_all (hn : n ≤ 63) {tol : ℝ} (h0 : 0 ≤ tol) {A B D a d : MV ℝ} {U V : Submodule ℝ 𝔼} (hA : Spans A U)
    (hD : Spans D (U ⊓ V ⊔ (U ⊔ V)ᗮ)) (hN : (U ⊔ V)ᗮ = ⊥)
    (ha : inv (orthProd (diagFactor q1)) A = some a) (hd : inv (orthProd (diagFactor q1)) D = some d)
    (hsp : ∀ i : Fin n, Sharp tol (vec ((U ⊓ V).starProjection (EuclideanSpace.single i 1)))) (gm gj : ℤ) :
    ∀ (l : List (Fin 64)) (hl : ∀ i ∈ l, i.val < n) {s : MeetState} {ps : List 𝔼} (_ : s.meet = outerProd (ps.map vec))
      (_ : outerProd (ps.map vec) ≠ 0)
      (_ : Fresh {x | x ∈ ps} (l.attach.map fun i => (U ⊓ V ⊔ (U ⊔ V)ᗮ).starProjection
        (EuclideanSpace.single (⟨i.1.val, hl i.1 i.2⟩ : Fin n) (1 : ℝ)))),
      (visit (meetStep tol gm gj A a B D d) l (some s)).1 ≠ none := by
  intro l
  induction l with
  | nil => intro hl s ps _ _ _ h; cases h
  | cons i l ih =>
    intro hl s ps hs hps hf
    have hi : i.val < n := hl i (by simp)
    rw [List.attach_cons, List.map_cons, List.map_map] at hf
    obtain ⟨hf1, hf2⟩ := hf
    dsimp only at hf1 hf2
    rw [proj_sup (perp_meet U V)] at hf1 hf2
    unfold visit
    rw [show i.val + 1 = (⟨i.val, hi⟩ : Fin n).val + 1 from rfl, meetStep_eq hn hA hD ha hd]
    dsimp only
    have hz := isZero_iff h0 (hsp ⟨i.val, hi⟩)
    have hr : (U ⊔ V)ᗮ.starProjection (EuclideanSpace.single (⟨i.val, hi⟩ : Fin n) (1 : ℝ)) = 0 := by
      rw [← Submodule.mem_bot ℝ, ← hN]
      exact Submodule.starProjection_apply_mem _ _
    rw [hr, vec_zero]
    rw [hr, add_zero] at hf1 hf2
    generalize (U ⊓ V).starProjection (EuclideanSpace.single (⟨i.val, hi⟩ : Fin n) (1 : ℝ)) = p at *
    have hp : p ≠ 0 := by
      rintro rfl
      exact hf1 (Submodule.zero_mem _)
    have hz0 : isZeroValue tol (0 : MV ℝ) = true := (isZero_iff h0 (fun _ => Or.inl rfl)).mpr rfl
    have hne := outer_append_ne hn hps hf1
    have hm : op s.meet (vec p) = outerProd ((ps ++ [p]).map vec) := by
      rw [hs, List.map_append, outer_append, List.map_singleton, outerProd_single]
    rw [if_neg (fun h => hp (vec_injective hn (hz.mp h))), hm]
    by_cases hg : s.gradeMeet + 1 = gm
    · rw [if_pos hg]
      have h2 := spans_outer (c := 1) one_ne_zero hne
      rw [one_smul] at h2
      obtain ⟨m, hm⟩ := inv_some hn h2
      rw [real_eq, hm]
      simp
    · rw [if_neg hg]
      unfold rejectStep
      rw [if_pos hz0]
      simp only [if_true]
      refine ih (fun j hj => hl j (List.mem_cons_of_mem _ hj)) rfl hne ?_
      have e : {x | x ∈ ps ++ [p]} = insert p {x | x ∈ ps} := by ext; simp [or_comm]
      rw [e]
      exact hf2

/-- No division by zero when the intersection is at most a line or the operands fill the space. -/
theorem impl_total (hn : n ≤ 63) {tol dtol : ℝ} {bs : MV ℝ → List Word} (hbs : ∀ X b, X b ≠ 0 → b ∈ bs X)
    {A B : MV ℝ} {U V : Submodule ℝ 𝔼} (hA : Spans A U) (hB : Spans B V)
    (ht : Visible tol dtol A B (orthProd (diagFactor q1) .gp A B) U V)
    (h : Module.finrank ℝ (U ⊓ V : Submodule ℝ 𝔼) ≤ 1 ∨ U ⊔ V = ⊤) (extra : Bool) :
    meetAndJoinImpl n tol dtol bs extra A (Module.finrank ℝ U) B (Module.finrank ℝ V) ≠ none := by
  obtain ⟨h1, h2⟩ := impl_eq hn hbs hA hB ht extra
  by_cases hW : U ⊓ V = ⊥
  · rw [h1 hW]; exact Option.some_ne_none _
  obtain ⟨D, d, a, E, hD, hE, ha, hd, h3⟩ := h2 hW
  have hl : ∀ i ∈ (vecs E).sort (· ≤ ·), i.val < n := by
    intro i hi
    exact mem_space.mp (hD.space hn) _ hE i (mem_vecs.mp ((Finset.mem_sort _).mp hi))
  have hf := sorted_fresh hn hD hE hl
  have e : (∅ : Set 𝔼) = {x | x ∈ ([] : List 𝔼)} := by simp
  have hne : outerProd (([] : List 𝔼).map vec) ≠ 0 := (scalar_spans (n := n) (c := (1 : ℝ)) one_ne_zero).ne
  rw [e] at hf
  rw [h3, Ne, Option.map_eq_none_iff]
  rcases h with h | h
  · have hw : Module.finrank ℝ (U ⊓ V : Submodule ℝ 𝔼) = 1 := by
      have : Module.finrank ℝ (U ⊓ V : Submodule ℝ 𝔼) ≠ 0 := by rwa [Ne, Submodule.finrank_eq_zero]
      omega
    rw [hw]
    exact loop_line hn ht.pos hA hD ha hd ht.inside ht.outside _ _ hl (starting U V) hne hf
  · exact loop_all hn ht.pos hA hD (by rw [h, Submodule.top_orthogonal_eq_bot]) ha hd ht.inside _ _ _ hl rfl hne hf

end GATL
