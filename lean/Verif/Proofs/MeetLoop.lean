import Verif.Proofs.MeetRelation

/-!
# The loop of meet and join
-/

namespace GATL

open Spec Props

variable {n : Nat}

local notation "q1" => (fun _ => (1 : ℝ) : Fin 64 → ℝ)
local notation "L" => orthProd (diagFactor q1) GradedProduct.lcont
local notation "R" => orthProd (diagFactor q1) GradedProduct.rcont
local notation "G" => orthProd (diagFactor q1) GradedProduct.gp
local notation "𝔼" => EuclideanSpace ℝ (Fin n)

/-! ### The loop of `meet_and_join` -/

/-- What the loop must find: blades of the intersection and of the sum, related to each other. -/
structure Found (A B : MV ℝ) (U V : Submodule ℝ 𝔼) (M J : MV ℝ) : Prop where
  meet : Spans M (U ⊓ V)
  join : Spans J (U ⊔ V)
  related : ∃ m, inv (orthProd (diagFactor q1)) M = some m ∧ op (R A m) B = J

/-- What the loop has reached. -/
structure MeetAt (U V : Submodule ℝ 𝔼) (s : MeetState) (ps rs : List 𝔼) : Prop where
  meet : s.meet = outerProd (ps.map vec)
  ps_mem : ∀ x ∈ ps, x ∈ U ⊓ V
  gradeMeet : s.gradeMeet = ps.length
  join : s.join = L (outerProd (rs.map vec)) (Finsupp.single (full n) 1)
  rs_mem : ∀ x ∈ rs, x ∈ (U ⊔ V)ᗮ
  gradeJoin : s.gradeJoin = n - (rs.length : ℤ)

theorem finrank_compl (S : Submodule ℝ 𝔼) : Module.finrank ℝ S + Module.finrank ℝ Sᗮ = n := by
  rw [Submodule.finrank_add_finrank_orthogonal]; simp

/-- The rejection: the loop goes on, or ends with the meet and the join. -/
theorem reject_spec (hn : n ≤ 63) {tol : ℝ} (h0 : 0 ≤ tol) {A B : MV ℝ} {U V : Submodule ℝ 𝔼} (hA : Spans A U) (hB : Spans B V) {s : MeetState} {ps rs : List 𝔼}
    (hs : MeetAt U V s ps rs) {r : 𝔼} (hr : r ∈ (U ⊔ V)ᗮ) (hsr : Sharp tol (vec r))
    {s' : MeetState} {go : Bool}
    (h : rejectStep tol (Module.finrank ℝ (U ⊔ V : Submodule ℝ 𝔼)) A B (vec r) s = (some s', go)) :
    if go then ∃ rs', MeetAt U V s' ps rs' else Found A B U V s'.meet s'.join := by
  unfold rejectStep at h
  by_cases hz : isZeroValue tol (vec r) = true
  · rw [if_pos hz] at h
    obtain ⟨h1, rfl⟩ := Prod.mk.inj h
    cases h1
    exact ⟨rs, hs⟩
  rw [if_neg hz] at h
  have hj : realProd .lcont (vec r) s.join = L (outerProd ((r :: rs).map vec)) (Finsupp.single (full n) 1) := by
    rw [real_eq, hs.join, List.map_cons]
    have e : outerProd (vec r :: rs.map vec) = op (vec r) (outerProd (rs.map vec)) := rfl
    rw [e, lcont_op]
  have hm : ∀ x ∈ r :: rs, x ∈ (U ⊔ V)ᗮ := by
    intro x hx
    rcases List.mem_cons.mp hx with rfl | hx
    · exact hr
    · exact hs.rs_mem x hx
  simp only [hj] at h
  split_ifs at h with hg
  · obtain ⟨h1, rfl⟩ := Prod.mk.inj h
    rw [Option.map_eq_some_iff] at h1
    obtain ⟨j, hj1, rfl⟩ := h1
    rw [real_eq] at hj1 ⊢
    have hne : outerProd ((r :: rs).map vec) ≠ 0 := by
      intro h0
      rw [h0, prod_zero_left, inv_zero] at hj1
      cases hj1
    have hl : (r :: rs).length = Module.finrank ℝ ((U ⊔ V)ᗮ : Submodule ℝ 𝔼) := by
      have := finrank_compl (U ⊔ V)
      rw [hs.gradeJoin] at hg
      simp only [List.length_cons]
      omega
    have h2 := (spans_full hn hm hl hne).lcont hn (pseudoscalar_spans hn) (by simp)
    rw [top_inf_eq, Submodule.orthogonal_orthogonal] at h2
    obtain ⟨j', h3, h4⟩ := meet_of_join hn hA hB h2
    rw [h3] at hj1
    cases hj1
    obtain ⟨μ, -, -, hμ⟩ := h4.inverse hn
    exact ⟨h4, h2, _, hμ, relation hn hA hB h2 h3 hμ⟩
  · obtain ⟨h1, rfl⟩ := Prod.mk.inj h
    cases h1
    refine ⟨r :: rs, hs.meet, hs.ps_mem, hs.gradeMeet, rfl, hm, ?_⟩
    simp only [hs.gradeJoin, List.length_cons]
    push_cast; ring

/-- One turn of the loop. -/
theorem meetStep_spec (hn : n ≤ 63) {tol : ℝ} (h0 : 0 ≤ tol) {A B D : MV ℝ} {U V : Submodule ℝ 𝔼} (hA : Spans A U) (hB : Spans B V)
    (hD : Spans D (U ⊓ V ⊔ (U ⊔ V)ᗮ)) {a d : MV ℝ}
    (ha : inv (orthProd (diagFactor q1)) A = some a) (hd : inv (orthProd (diagFactor q1)) D = some d)
    (hsp : ∀ i : Fin n, Sharp tol (vec ((U ⊓ V).starProjection (EuclideanSpace.single i 1))))
    (hsr : ∀ i : Fin n, Sharp tol (vec ((U ⊔ V)ᗮ.starProjection (EuclideanSpace.single i 1))))
    (i : Fin n) {s : MeetState} {ps rs : List 𝔼} (hs : MeetAt U V s ps rs)
    {s' : MeetState} {go : Bool}
    (h : meetStep tol (Module.finrank ℝ (U ⊓ V : Submodule ℝ 𝔼)) (Module.finrank ℝ (U ⊔ V : Submodule ℝ 𝔼)) A a B D d (i + 1)
      (some s) = (some s', go)) :
    if go then ∃ ps' rs', MeetAt U V s' ps' rs' ∧
        ((U ⊓ V).starProjection (EuclideanSpace.single i 1) ≠ 0 →
          ps'.length = ps.length + 1 ∧ ps'.length ≠ Module.finrank ℝ (U ⊓ V : Submodule ℝ 𝔼)) ∧
        ((U ⊓ V).starProjection (EuclideanSpace.single i 1) = 0 → ps'.length = ps.length)
      else Found A B U V s'.meet s'.join := by
  have hN : (U ⊔ V)ᗮ ≤ Uᗮ := Submodule.orthogonal_le le_sup_left
  have hNW : (U ⊔ V)ᗮ ≤ (U ⊓ V)ᗮ := hN.trans (Submodule.orthogonal_le inf_le_left)
  obtain ⟨κ, hκ0, hκ, hk⟩ := hA.inverse hn
  obtain ⟨ν, hν0, hν, hk'⟩ := hD.inverse hn
  rw [ha] at hk; cases hk
  rw [hd] at hk'; cases hk'
  unfold meetStep at h
  simp only [unitVector_eq, projectVector_eq hn hD hν0 hν, projectVector_eq hn hA hκ0 hκ, ← vec_sub,
    proj_part (inf_le_left : U ⊓ V ≤ U) hN] at h
  rw [proj_sup hNW, add_sub_cancel_left] at h
  have hr : (U ⊔ V)ᗮ.starProjection (EuclideanSpace.single i 1) ∈ (U ⊔ V)ᗮ := Submodule.starProjection_apply_mem _ _
  have hp : (U ⊓ V).starProjection (EuclideanSpace.single i 1) ∈ U ⊓ V := Submodule.starProjection_apply_mem _ _
  have hz := isZero_iff h0 (hsp i)
  have hsr := hsr i
  have hsp := hsp i
  generalize (U ⊔ V)ᗮ.starProjection (EuclideanSpace.single i (1 : ℝ)) = r at *
  generalize (U ⊓ V).starProjection (EuclideanSpace.single i (1 : ℝ)) = p at *
  by_cases h1 : p = 0
  · rw [if_pos (hz.mpr (by rw [h1, vec_zero]))] at h
    have h2 := reject_spec hn h0 hA hB hs hr hsr h
    cases go
    · exact h2
    · obtain ⟨rs', h3⟩ := h2
      exact ⟨ps, rs', h3, fun h => absurd h1 h, fun _ => rfl⟩
  rw [if_neg (fun h => h1 (vec_injective hn (hz.mp h)))] at h
  have hm : op s.meet (vec p) = outerProd ((ps ++ [p]).map vec) := by
    rw [hs.meet, List.map_append, outer_append, List.map_cons, List.map_nil, outerProd_single]
  have hmem : ∀ x ∈ ps ++ [p], x ∈ U ⊓ V := by
    intro x hx
    rcases List.mem_append.mp hx with hx | hx
    · exact hs.ps_mem x hx
    · rw [List.mem_singleton.mp hx]; exact hp
  simp only [hm] at h
  split_ifs at h with hg
  · obtain ⟨h2, rfl⟩ := Prod.mk.inj h
    rw [Option.map_eq_some_iff] at h2
    obtain ⟨m, hm1, rfl⟩ := h2
    rw [real_eq] at hm1 ⊢
    have hne : outerProd ((ps ++ [p]).map vec) ≠ 0 := by
      intro h0
      rw [h0, inv_zero] at hm1
      cases hm1
    have hl : (ps ++ [p]).length = Module.finrank ℝ (U ⊓ V : Submodule ℝ 𝔼) := by
      rw [hs.gradeMeet] at hg
      rw [List.length_append, List.length_singleton]
      exact_mod_cast hg
    have h2 := spans_full hn hmem hl hne
    obtain ⟨m', h3, h4⟩ := join_of_meet hn hA hB h2
    rw [h3] at hm1
    cases hm1
    exact ⟨h2, h4, _, h3, rfl⟩
  · have hs' : MeetAt U V { s with meet := outerProd ((ps ++ [p]).map vec), gradeMeet := s.gradeMeet + 1 } (ps ++ [p]) rs := by
      refine ⟨rfl, hmem, ?_, hs.join, hs.rs_mem, hs.gradeJoin⟩
      simp only [hs.gradeMeet, List.length_append, List.length_singleton]
      push_cast; ring
    have h2 := reject_spec hn h0 hA hB hs' hr hsr h
    cases go
    · exact h2
    · obtain ⟨rs', h3⟩ := h2
      refine ⟨ps ++ [p], rs', h3, fun _ => ⟨by simp, fun h4 => hg ?_⟩, fun h => absurd h h1⟩
      rw [hs.gradeMeet, ← h4]
      simp

/-- The loop. -/
theorem meetLoop_spec (hn : n ≤ 63) {tol : ℝ} (h0 : 0 ≤ tol) {A B D : MV ℝ} {U V : Submodule ℝ 𝔼} (hA : Spans A U) (hB : Spans B V)
    (hD : Spans D (U ⊓ V ⊔ (U ⊔ V)ᗮ)) {a d : MV ℝ}
    (ha : inv (orthProd (diagFactor q1)) A = some a) (hd : inv (orthProd (diagFactor q1)) D = some d)
    (hsp : ∀ i : Fin n, Sharp tol (vec ((U ⊓ V).starProjection (EuclideanSpace.single i 1))))
    (hsr : ∀ i : Fin n, Sharp tol (vec ((U ⊔ V)ᗮ.starProjection (EuclideanSpace.single i 1)))) :
    ∀ (l : List (Fin 64)) (hl : ∀ i ∈ l, i.val < n) {s : MeetState} {ps rs : List 𝔼} (_ : MeetAt U V s ps rs)
      (_ : ps.length < Module.finrank ℝ (U ⊓ V : Submodule ℝ 𝔼)) {s' : MeetState} {go : Bool},
      visit (meetStep tol (Module.finrank ℝ (U ⊓ V : Submodule ℝ 𝔼)) (Module.finrank ℝ (U ⊔ V : Submodule ℝ 𝔼)) A a B D d) l
        (some s) = (some s', go) →
      (Found A B U V s'.meet s'.join) ∨
        ∃ xs : List 𝔼, (∀ i (hi : i ∈ l), (U ⊓ V).starProjection (EuclideanSpace.single ⟨i.val, hl i hi⟩ 1) ≠ 0 →
            (U ⊓ V).starProjection (EuclideanSpace.single ⟨i.val, hl i hi⟩ 1) ∈ xs) ∧
          ps.length + xs.length < Module.finrank ℝ (U ⊓ V : Submodule ℝ 𝔼) := by
  intro l
  induction l with
  | nil => intro _ s ps rs _ hlt s' go _; exact Or.inr ⟨[], by simp, by simpa using hlt⟩
  | cons i l ih =>
    intro hl s ps rs hs hlt s' go h
    have hi : i.val < n := hl i (by simp)
    unfold visit at h
    generalize hr : meetStep tol (Module.finrank ℝ (U ⊓ V : Submodule ℝ 𝔼)) (Module.finrank ℝ (U ⊔ V : Submodule ℝ 𝔼)) A a B D
      d (i.val + 1) (some s) = r at h
    obtain ⟨o, g⟩ := r
    cases o with
    | none =>
      exfalso
      cases g
      · simp at h
      · have : ∀ (l : List (Fin 64)), (visit (meetStep tol (Module.finrank ℝ (U ⊓ V : Submodule ℝ 𝔼))
            (Module.finrank ℝ (U ⊔ V : Submodule ℝ 𝔼)) A a B D d) l none).1 = none := by
          intro l
          cases l with
          | nil => rfl
          | cons j l => simp [visit, meetStep]
        have h2 := this l
        simp only [if_true] at h
        rw [h] at h2
        cases h2
    | some s1 =>
      have h1 := meetStep_spec hn h0 hA hB hD ha hd hsp hsr ⟨i.val, hi⟩ hs hr
      cases g
      · simp only [Bool.false_eq_true, if_false, Prod.mk.injEq, Option.some.injEq] at h
        obtain ⟨rfl, -⟩ := h
        exact Or.inl h1
      · simp only [if_true] at h h1
        obtain ⟨ps', rs', h2, h3, h4⟩ := h1
        have hlt' : ps'.length < Module.finrank ℝ (U ⊓ V : Submodule ℝ 𝔼) := by
          by_cases hp : (U ⊓ V).starProjection (EuclideanSpace.single (⟨i.val, hi⟩ : Fin n) (1 : ℝ)) = 0
          · rw [h4 hp]; exact hlt
          · have := h3 hp; omega
        rcases ih (fun j hj => hl j (List.mem_cons_of_mem _ hj)) h2 hlt' h
          with h5 | ⟨xs, h5, h6⟩
        · exact Or.inl h5
        · right
          by_cases hp : (U ⊓ V).starProjection (EuclideanSpace.single (⟨i.val, hi⟩ : Fin n) (1 : ℝ)) = 0
          · refine ⟨xs, ?_, by rw [h4 hp] at h6; exact h6⟩
            intro j hj hne
            rcases List.mem_cons.mp hj with rfl | hj
            · exact absurd hp hne
            · exact h5 j hj hne
          · refine ⟨(U ⊓ V).starProjection (EuclideanSpace.single (⟨i.val, hi⟩ : Fin n) (1 : ℝ)) :: xs, ?_,
              by have := h3 hp; rw [List.length_cons]; omega⟩
            intro j hj hne
            rcases List.mem_cons.mp hj with rfl | hj
            · exact List.mem_cons_self
            · exact List.mem_cons_of_mem _ (h5 j hj hne)

/-! ### The whole of `meet_and_join` -/

theorem sharp_gradePart {tol : ℝ} {A : MV ℝ} (h : Sharp tol A) (k : ℤ) : Sharp tol (gradePart k A) := by
  intro b
  unfold gradePart
  rw [Finsupp.filter_apply]
  split_ifs
  · exact h b
  · exact Or.inl rfl

theorem complement_delta (U V : Submodule ℝ 𝔼) : ((U ⊔ V) ⊓ (U ⊓ V)ᗮ)ᗮ = U ⊓ V ⊔ (U ⊔ V)ᗮ := by
  have : (U ⊔ V) ⊓ (U ⊓ V)ᗮ = (U ⊓ V ⊔ (U ⊔ V)ᗮ)ᗮ := by
    rw [← Submodule.inf_orthogonal, Submodule.orthogonal_orthogonal, inf_comm]
  rw [this, Submodule.orthogonal_orthogonal]

theorem perp_meet (U V : Submodule ℝ 𝔼) : (U ⊔ V)ᗮ ≤ (U ⊓ V)ᗮ :=
  Submodule.orthogonal_le (inf_le_left.trans le_sup_left)

theorem scalar_spans {c : ℝ} (hc : c ≠ 0) : Spans (scalar c : MV ℝ) (⊥ : Submodule ℝ 𝔼) := by
  refine ⟨?_, c, [], by simp, ?_⟩
  · intro h
    have := Finsupp.single_eq_zero.mp h
    exact hc this
  · show (scalar c : MV ℝ) = c • scalar 1
    unfold scalar
    rw [Finsupp.smul_single, smul_eq_mul, mul_one]

/-- The body of `_meet_and_join_impl` with the products computed. -/
theorem impl_eq (hn : n ≤ 63) {tol dtol : ℝ} {bs : MV ℝ → List Word} (hbs : ∀ X b, X b ≠ 0 → b ∈ bs X)
    {A B : MV ℝ} {U V : Submodule ℝ 𝔼} (hA : Spans A U) (hB : Spans B V) (ht : Visible tol dtol A B (G A B) U V) (extra : Bool) :
    let k : ℤ := ((Module.finrank ℝ (U ⊔ V : Submodule ℝ 𝔼) : ℤ) - Module.finrank ℝ U) *
      ((Module.finrank ℝ (U ⊔ V : Submodule ℝ 𝔼) : ℤ) - Module.finrank ℝ V)
    (U ⊓ V = ⊥ → meetAndJoinImpl n tol dtol bs extra A (Module.finrank ℝ U) B (Module.finrank ℝ V) =
      some (signChange extra k (scalar 1, op A B))) ∧
    (U ⊓ V ≠ ⊥ → ∃ (D d a : MV ℝ) (E : Word), Spans D (U ⊓ V ⊔ (U ⊔ V)ᗮ) ∧ D E ≠ 0 ∧
      inv (orthProd (diagFactor q1)) A = some a ∧ inv (orthProd (diagFactor q1)) D = some d ∧
      meetAndJoinImpl n tol dtol bs extra A (Module.finrank ℝ U) B (Module.finrank ℝ V) =
        (visit (meetStep tol (Module.finrank ℝ (U ⊓ V : Submodule ℝ 𝔼)) (Module.finrank ℝ (U ⊔ V : Submodule ℝ 𝔼)) A a B D d)
          ((vecs E).sort (· ≤ ·)) (some ⟨scalar 1, 0, Finsupp.single (full n) 1, n⟩)).1.map
            fun s => signChange extra k (s.meet, s.join)) := by
  intro k
  obtain ⟨g, hg, hle, hsp⟩ := delta hn hA hB
  have hdv := deltaValue_of ht.dpos ht.product hle hsp.ne
  have hgv := gradeValue_of (k := g) ht.pos (sharp_gradePart ht.product' (g : ℤ))
    (by
      have := hsp.homog hn
      intro b hb
      unfold gradePart at hb
      rw [Finsupp.filter_apply] at hb
      by_contra h
      rw [if_neg (by exact_mod_cast h)] at hb
      exact hb rfl) hsp.ne
  have hdim := Submodule.finrank_sup_add_finrank_inf_eq U V
  have hgm : ((Module.finrank ℝ U : ℤ) + Module.finrank ℝ V - g) / 2 = Module.finrank ℝ (U ⊓ V : Submodule ℝ 𝔼) := by omega
  have hgj : ((Module.finrank ℝ U : ℤ) + Module.finrank ℝ V + g) / 2 = Module.finrank ℝ (U ⊔ V : Submodule ℝ 𝔼) := by omega
  have hu : ¬ ((Module.finrank ℝ U : ℤ) = -2 ∨ (Module.finrank ℝ V : ℤ) = -2) := by omega
  constructor
  · intro hW
    have hw : Module.finrank ℝ (U ⊓ V : Submodule ℝ 𝔼) = 0 := by rw [hW]; simp
    unfold meetAndJoinImpl
    simp only [if_neg hu, hdv, hgv, hgm, hgj]
    rw [if_neg (by push_cast; omega)]
    have : gradePart (g : ℤ) (G A B) = op A B := by
      rw [op_gradePart (diagFactor q1) (by unfold diagFactor; simp) (hA.homog hn) (hB.homog hn)]
      congr 1
      omega
    rw [this]; rfl
  · intro hW
    have hw : Module.finrank ℝ (U ⊓ V : Submodule ℝ 𝔼) ≠ 0 := by rwa [Ne, Submodule.finrank_eq_zero]
    obtain ⟨κ, h0, -, hI⟩ := (pseudoscalar_spans hn).inverse hn
    have hI' : dual (orthProd (diagFactor q1)) (Finsupp.single (full n) 1) (gradePart (g : ℤ) (G A B)) =
        some (L (gradePart (g : ℤ) (G A B)) (κ⁻¹ • Finsupp.single (full n) 1)) := by
      unfold dual; rw [hI]; rfl
    have hD := hsp.lcont hn ((pseudoscalar_spans hn).smul (inv_ne_zero h0)) (by simp)
    rw [top_inf_eq, complement_delta] at hD
    generalize L (gradePart (g : ℤ) (G A B)) (κ⁻¹ • Finsupp.single (full n) 1) = D at hD hI'
    obtain ⟨δ, -, -, hd⟩ := hD.inverse hn
    obtain ⟨α, -, -, ha⟩ := hA.inverse hn
    have hE : D (largestComponent (bs D) D) ≠ 0 := by
      obtain ⟨b, hb⟩ := Finsupp.ne_iff.mp hD.ne
      exact largest_ne ⟨b, hbs D b hb, hb⟩
    refine ⟨D, δ⁻¹ • D, α⁻¹ • A, largestComponent (bs D) D, hD, hE, ha, hd, ?_⟩
    have hlt : ∀ i ∈ vecs (largestComponent (bs D) D), i.val < 63 := by
      intro i hi
      have := mem_space.mp (hD.space hn) _ hE i (mem_vecs.mp hi)
      omega
    have hps : pseudoscalarBlade n = some (full n) := by
      unfold pseudoscalarBlade
      rw [firstCombination_eq n (by omega)]
    unfold meetAndJoinImpl
    simp only [if_neg hu, hdv, hgv, hgm, hgj]
    rw [if_pos (by push_cast; omega)]
    simp only [hps, real_eq, hI', hd, ha, Option.bind_eq_bind, Option.bind_some, C34_for_each_basis_vector _ _ _ hlt]
    rw [Option.map_eq_bind]
    rfl

theorem starting (U V : Submodule ℝ 𝔼) : MeetAt U V ⟨scalar 1, 0, Finsupp.single (full n) 1, n⟩ [] [] :=
  ⟨rfl, by simp, rfl, (lcont_scalar_one _).symm, by simp, by simp⟩

theorem impl_found (hn : n ≤ 63) {tol dtol : ℝ} {bs : MV ℝ → List Word} (hbs : ∀ X b, X b ≠ 0 → b ∈ bs X)
    {A B : MV ℝ} {U V : Submodule ℝ 𝔼} (hA : Spans A U) (hB : Spans B V) (ht : Visible tol dtol A B (G A B) U V) (extra : Bool)
    {r : MV ℝ × MV ℝ} (h : meetAndJoinImpl n tol dtol bs extra A (Module.finrank ℝ U) B (Module.finrank ℝ V) = some r) :
    ∃ M J, Found A B U V M J ∧ r = signChange extra
      (((Module.finrank ℝ (U ⊔ V : Submodule ℝ 𝔼) : ℤ) - Module.finrank ℝ U) *
        ((Module.finrank ℝ (U ⊔ V : Submodule ℝ 𝔼) : ℤ) - Module.finrank ℝ V)) (M, J) := by
  obtain ⟨h1, h2⟩ := impl_eq hn hbs hA hB ht extra
  by_cases hW : U ⊓ V = ⊥
  · rw [h1 hW] at h
    have h1 : inv (orthProd (diagFactor q1)) (scalar 1 : MV ℝ) = some (scalar 1) := by
      obtain ⟨κ, -, hκ, hk⟩ := (scalar_spans (n := n) (c := (1 : ℝ)) one_ne_zero).inverse hn
      rw [gp_scalar_left, one_smul] at hκ
      have : κ = 1 := by
        have := congrArg (fun X : MV ℝ => X 0) hκ
        simpa [scalar] using this.symm
      rw [hk, this, inv_one, one_smul]
    refine ⟨_, _, ⟨hW ▸ scalar_spans one_ne_zero, hA.op hn hB hW, scalar 1, h1, ?_⟩, (Option.some.inj h).symm⟩
    rw [rcont_scalar_one]
  · obtain ⟨D, d, a, E, hD, hE, ha, hd, h3⟩ := h2 hW
    rw [h3, Option.map_eq_some_iff] at h
    obtain ⟨s, h4, h5⟩ := h
    have hl : ∀ i ∈ (vecs E).sort (· ≤ ·), i.val < n := by
      intro i hi
      exact mem_space.mp (hD.space hn) _ hE i (mem_vecs.mp ((Finset.mem_sort _).mp hi))
    have hpos : ([] : List 𝔼).length < Module.finrank ℝ (U ⊓ V : Submodule ℝ 𝔼) := by
      rw [List.length_nil]
      exact Nat.pos_of_ne_zero (by rwa [Ne, Submodule.finrank_eq_zero])
    rcases meetLoop_spec hn ht.pos hA hB hD ha hd ht.inside ht.outside _ hl (starting U V) hpos (Prod.ext h4 rfl) with h6 | h6
    · exact ⟨_, _, h6, h5.symm⟩
    · exfalso
      obtain ⟨xs, h7, h8⟩ := h6
      rw [List.length_nil, zero_add] at h8
      have h9 : U ⊓ V ≤ Submodule.span ℝ {x | x ∈ xs} := by
        have h10 := hD.factors hn hE
        have h11 : U ⊓ V ≤ (Submodule.span ℝ ((fun i : Fin n => (U ⊓ V ⊔ (U ⊔ V)ᗮ).starProjection (EuclideanSpace.single i 1))
            '' {i | E.getLsbD i = true})).map ((U ⊓ V).starProjection : 𝔼 →ₗ[ℝ] 𝔼) := by
          rw [h10]
          intro x hx
          exact ⟨x, Submodule.mem_sup_left hx, Submodule.starProjection_eq_self_iff.mpr hx⟩
        refine h11.trans ?_
        rw [Submodule.map_span, Submodule.span_le]
        rintro _ ⟨_, ⟨i, hi, rfl⟩, rfl⟩
        show (U ⊓ V).starProjection ((U ⊓ V ⊔ (U ⊔ V)ᗮ).starProjection (EuclideanSpace.single i 1)) ∈ Submodule.span ℝ _
        rw [proj_part (le_refl _) (perp_meet U V)]
        by_cases h0 : (U ⊓ V).starProjection (EuclideanSpace.single i (1 : ℝ)) = 0
        · rw [h0]; exact Submodule.zero_mem _
        · refine Submodule.subset_span (h7 ⟨i.val, by omega⟩ ?_ h0)
          rw [Finset.mem_sort]
          exact mem_vecs.mpr hi
      have h10 := Submodule.finrank_mono h9
      have h11 : Module.finrank ℝ (Submodule.span ℝ {x | x ∈ xs}) ≤ xs.length := by
        classical
        have : {x | x ∈ xs} = (xs.toFinset : Set 𝔼) := by ext; simp
        rw [this]
        exact (finrank_span_finset_le_card _).trans (List.toFinset_card_le _)
      omega

end GATL
