import Verif.Proofs.MeetTotal

/-!
# The fast join
-/

namespace GATL

open Spec Props

variable {n : Nat}

local notation "q1" => (fun _ => (1 : ℝ) : Fin 64 → ℝ)
local notation "L" => orthProd (diagFactor q1) GradedProduct.lcont
local notation "G" => orthProd (diagFactor q1) GradedProduct.gp
local notation "𝔼" => EuclideanSpace ℝ (Fin n)

theorem vec_of_homog {Y : MV ℝ} (h1 : Homogeneous 1 Y) (hs : Y ∈ Spec.space ℝ n) (hn : n ≤ 63) : ∃ x : 𝔼, Y = vec x := by
  refine ⟨WithLp.toLp 2 fun j : Fin n => Y (bit j), ?_⟩
  ext b
  unfold vec vectorOf
  rw [Finsupp.finsetSum_apply]
  have ht : ∀ j : Fin n, ((WithLp.toLp 2 fun j : Fin n => Y (bit j)) j • e ℝ j : MV ℝ) b =
      if (bit j : Word) = b then Y b else 0 := by
    intro j
    have : (e ℝ j : MV ℝ) = Finsupp.single (bit j) 1 := rfl
    rw [Finsupp.smul_apply, this, Finsupp.single_apply]
    split_ifs with h
    · rw [← h]; simp
    · simp
  rw [Finset.sum_congr rfl fun j _ => ht j]
  by_cases hb : Y b = 0
  · simp [hb]
  · obtain ⟨i, rfl⟩ : ∃ i : Fin 64, b = bit i := by
      have h2 := h1 b hb
      rw [gradeOf_eq, ones_eq_card, Finset.card_eq_one] at h2
      obtain ⟨i, hi⟩ := h2
      refine ⟨i, vecs_inj ?_⟩
      rw [hi, vecs_bit]
    have hi : i.val < n := mem_space.mp hs _ hb i (by rw [getLsbD_bit _ _ i.2]; simp)
    rw [Finset.sum_eq_single (⟨i.val, hi⟩ : Fin n)]
    · rw [if_pos rfl]
    · intro j _ hj
      rw [if_neg]
      intro h
      have h2 := congrArg (fun w : Word => w.getLsbD i) h
      simp only [getLsbD_bit _ _ i.2, getLsbD_bit j.val _ (by omega)] at h2
      simp only [decide_true, decide_eq_true_eq] at h2
      exact hj (Fin.ext h2.symm)
    · simp

theorem lcont_part {r s : Nat} {A B : MV ℝ} (hA : Homogeneous r A) (hB : Homogeneous (r + s) B) :
    L A B = gradePart s (G A B) :=
  orthMul_gradePart (diagFactor q1) .lcont hA hB s (fun t => by
    simp only [areValidGrades, decide_eq_true_eq]; omega)

/-- The factor of a blade for a basis vector of its component `E`. -/
theorem factor (hn : n ≤ 63) {B : MV ℝ} {V : Submodule ℝ 𝔼} (hB : Spans B V) {E : Word} (hE : B E ≠ 0) (i : Fin n)
    (hi : E.getLsbD i = true) :
    ∃ x : 𝔼, x ∈ V ∧ x i ≠ 0 ∧ (∀ k : Fin n, E.getLsbD k = true → k ≠ i → x k = 0) ∧
      projectVector (unitVector (i + 1)) B (reverse (Finsupp.single E 1)) = vec x := by
  have hi64 : i.val < 64 := by omega
  have hb1 : bit i &&& E = bit i := (bit_and_eq ⟨i.val, hi64⟩ E).mpr hi
  have hsg : ∀ x : ZMod 2, sg ℝ x ≠ 0 := fun x => left_ne_zero_of_mul (sg_mul_self (K := ℝ) x ▸ one_ne_zero)
  set F : Word := bit i ^^^ E with hF
  have hb2 : bit i &&& F = 0 := by
    rw [(bit_and_zero ⟨i.val, hi64⟩ F), hF, BitVec.getLsbD_xor, getLsbD_bit _ _ hi64]
    simp [hi]
  have hones : ones F + 1 = ones E := ones_bit_xor (i := ⟨i.val, hi64⟩) hi
  have hFhom : Homogeneous (ones F) (Finsupp.single F (1 : ℝ) : MV ℝ) := homog_single _ rfl
  have hV : Homogeneous (ones F + 1) B := by
    rw [hones, ← gradeOf_eq, hB.homog hn E hE]; exact hB.homog hn
  have hFs : (Finsupp.single F 1 : MV ℝ) ∈ Spec.space ℝ n := by
    refine mem_space.mpr ?_
    intro b hb j hj
    have : F = b := by
      by_contra h
      exact hb (Finsupp.single_eq_of_ne (Ne.symm h))
    subst this
    rw [hF, BitVec.getLsbD_xor, getLsbD_bit _ _ hi64] at hj
    by_cases hji : j.val = i.val
    · omega
    · simp only [hji, decide_false, Bool.false_xor] at hj
      exact mem_space.mp (hB.space hn) E hE j hj
  have hp := lcont_part hFhom hV
  have hY : Homogeneous 1 (L (Finsupp.single F 1) B) := by rw [hp]; exact gradePart_homog _ _
  have hspace : L (Finsupp.single F 1) B ∈ Spec.space ℝ n := by
    rw [hp]
    refine mem_space.mpr ?_
    intro b hb
    refine mem_space.mp (gp_mem_space (diagFactor q1) hFs (hB.space hn)) b ?_
    intro h
    apply hb
    unfold gradePart
    rw [Finsupp.filter_apply, h]; simp
  obtain ⟨x, hx⟩ := vec_of_homog hY hspace hn
  have hdot : ∀ y : 𝔼, inner ℝ y x = L (op (vec y) (Finsupp.single F 1)) B 0 := by
    intro y
    rw [← vdot_vec hn, ← hx]
    unfold vdot
    rw [lcont_op]
  have hcoord : ∀ k : Fin n, x k = L (op (Finsupp.single (bit k) 1) (Finsupp.single F 1)) B 0 := by
    intro k
    have := hdot (EuclideanSpace.single k 1)
    rw [basis_vec, EuclideanSpace.inner_single_left] at this
    rw [← this]; simp
  have hmem : x ∈ V := by
    rw [← Submodule.orthogonal_orthogonal V, Submodule.mem_orthogonal]
    intro r hr
    rw [hdot, op_graded_comm (vec_homog hn r) hFhom, prod_smul_left, lcont_op, hB.perp hn hr, prod_zero_right]
    simp
  have e1 : bit i ^^^ F = E := by
    rw [hF, ← BitVec.xor_assoc]; simp
  have hxi : x i ≠ 0 := by
    obtain ⟨s, hs, h1⟩ := lcont_blade_zero E B
    have h2 : (Finsupp.single E (1 * 1 * sg ℝ (par (bit i) F)) : MV ℝ) = sg ℝ (par (bit i) F) • Finsupp.single E 1 := by
      rw [Finsupp.smul_single]; simp
    rw [hcoord i, op_single', if_pos hb2, e1, h2, prod_smul_left, Finsupp.smul_apply, h1]
    exact mul_ne_zero (hsg _) (mul_ne_zero hs hE)
  have hxk : ∀ k : Fin n, E.getLsbD k = true → k ≠ i → x k = 0 := by
    intro k hk hki
    have hk64 : k.val < 64 := by omega
    have : ¬ (bit k &&& F = 0) := by
      rw [(bit_and_zero ⟨k.val, hk64⟩ F), hF, BitVec.getLsbD_xor, getLsbD_bit _ _ hi64]
      have : ¬ (k.val = i.val) := fun h => hki (Fin.ext h)
      simp [hk, this]
    rw [hcoord k, op_single', if_neg this, mul_zero, Finsupp.single_zero, prod_zero_left]
    rfl
  -- the product with the reverse of the component
  have h1 : ∃ t : ℝ, t ≠ 0 ∧ L (unitVector (i + 1)) (reverse (Finsupp.single E 1)) = t • Finsupp.single F 1 := by
    have : unitVector (i + 1) = Finsupp.single (bit i) 1 := rfl
    rw [this, reverse_single, lcont_single, if_pos hb1]
    refine ⟨1 * (sg ℝ (par E E) * 1) * (sg ℝ (par (bit i) E) * diagFactor q1 (bit i)), ?_, ?_⟩
    · have : diagFactor q1 (bit i) = 1 := by unfold diagFactor; simp
      rw [this]
      exact mul_ne_zero (mul_ne_zero one_ne_zero (mul_ne_zero (hsg _) one_ne_zero)) (mul_ne_zero (hsg _) one_ne_zero)
    · rw [Finsupp.smul_single, smul_eq_mul, mul_one, ← hF]
      congr 1
      ring
  obtain ⟨t, ht, h1⟩ := h1
  refine ⟨t • x, Submodule.smul_mem _ _ hmem, ?_, ?_, ?_⟩
  · rw [PiLp.smul_apply, smul_eq_mul]; exact mul_ne_zero ht hxi
  · intro k hk hki
    rw [PiLp.smul_apply, hxk k hk hki, smul_zero]
  · unfold projectVector
    rw [real_eq, h1, prod_smul_left, hx, ← vec_smul, takeGrade_vec hn]

/-- The factors span the blade's subspace. -/
theorem factors_span (hn : n ≤ 63) {B : MV ℝ} {V : Submodule ℝ 𝔼} (hB : Spans B V) {E : Word} (hE : B E ≠ 0)
    {x : Fin n → 𝔼} (h1 : ∀ i : Fin n, E.getLsbD i = true → x i ∈ V ∧ x i i ≠ 0 ∧
      ∀ k : Fin n, E.getLsbD k = true → k ≠ i → x i k = 0) {S : Submodule ℝ 𝔼}
    (hS : ∀ i : Fin n, E.getLsbD i = true → x i ∈ S) : V ≤ S := by
  intro y hy
  set z : 𝔼 := ∑ i : Fin n, if E.getLsbD i = true then (y i / x i i) • x i else 0 with hz
  have hzV : z ∈ V := by
    refine Submodule.sum_mem _ fun i _ => ?_
    split_ifs with h
    · exact Submodule.smul_mem _ _ (h1 i h).1
    · exact Submodule.zero_mem _
  have hzS : z ∈ S := by
    refine Submodule.sum_mem _ fun i _ => ?_
    split_ifs with h
    · exact Submodule.smul_mem _ _ (hS i h)
    · exact Submodule.zero_mem _
  have : y - z = 0 := by
    refine hB.coordinates hn hE (Submodule.sub_mem _ hy hzV) ?_
    intro k hk
    have : z k = y k := by
      rw [hz, WithLp.ofLp_sum, Finset.sum_apply, Finset.sum_eq_single k]
      · rw [if_pos hk, PiLp.smul_apply, smul_eq_mul, div_mul_cancel₀ _ (h1 k hk).2.1]
      · intro j _ hj
        split_ifs with h
        · rw [PiLp.smul_apply, (h1 j h).2.2 k hk (Ne.symm hj), smul_zero]
        · rfl
      · simp
    rw [PiLp.sub_apply, this, sub_self]
  rw [sub_eq_zero.mp this]
  exact hzS

/-- The unit of a blade. -/
theorem unit_spans (hn : n ≤ 63) {A : MV ℝ} {U : Submodule ℝ 𝔼} (hA : Spans A U) :
    ∃ u, unitValue realProd A = some u ∧ Spans u U ∧ |rnormSqr realProd u| = 1 := by
  obtain ⟨κ, h0, hκ⟩ := hA.square hn
  have h1 := (inverse_square q1 (hA.homog hn) hκ h0).1
  have h2 : √|rnormSqr (orthProd (diagFactor q1)) A| ≠ 0 := by
    rw [Real.sqrt_ne_zero']
    exact abs_pos.mpr h1
  refine ⟨(√|rnormSqr (orthProd (diagFactor q1)) A|)⁻¹ • A, ?_, hA.smul (inv_ne_zero h2), ?_⟩
  · unfold unitValue invScalar
    rw [real_eq, if_neg h2, Option.map_some]
    congr 1
    exact gp_scalar_right q1 _ A
  · rw [real_eq]
    have : ∀ c : ℝ, rnormSqr (orthProd (diagFactor q1)) (c • A) = c ^ 2 * rnormSqr (orthProd (diagFactor q1)) A := by
      intro c
      unfold rnormSqr orthProd
      simp only [reverse_smul, map_smul, LinearMap.smul_apply, Finsupp.smul_apply, smul_eq_mul]
      ring
    rw [this, abs_mul, abs_pow, abs_inv, abs_of_nonneg (Real.sqrt_nonneg _), inv_pow, Real.sq_sqrt (abs_nonneg _),
      inv_mul_cancel₀ (abs_pos.mpr h1).ne']

/-- One turn of the loop of `fast_join`. -/
theorem fastStep_spec (hn : n ≤ 63) {tol : ℝ} (h0 : 0 ≤ tol) {B : MV ℝ} {V : Submodule ℝ 𝔼} (hB : Spans B V) {E : Word}
    (hE : B E ≠ 0) (i : Fin n) (hi : E.getLsbD i = true) {join : MV ℝ} {S : Submodule ℝ 𝔼} (hj : Spans join S)
    (hj1 : |rnormSqr realProd join| = 1) {x : 𝔼} (hx : x ∈ V) (hx0 : x i ≠ 0)
    (hf : projectVector (unitVector (i + 1)) B (reverse (Finsupp.single E 1)) = vec x) :
    ∃ (join' : MV ℝ) (S' : Submodule ℝ 𝔼), fastStep n tol B (reverse (Finsupp.single E 1)) (i + 1) (some (join, (Module.finrank ℝ S : ℤ))) =
        (some (join', (Module.finrank ℝ S' : ℤ)), true) ∧
      Spans join' S' ∧ |rnormSqr realProd join'| = 1 ∧ S ≤ S' ∧ S' ≤ S ⊔ V ∧ (tol = 0 → x ∈ S') := by
  have hxne : x ≠ 0 := by
    rintro rfl
    exact hx0 rfl
  have hxs : Spans (vec x) (Submodule.span ℝ {x}) := by
    have hne : outerProd ([x].map vec) ≠ 0 := by
      intro h
      exact hxne (vec_injective hn ((outerProd_single _).symm.trans h))
    have h2 := spans_outer (c := 1) one_ne_zero hne
    rw [one_smul] at h2
    have e : outerProd ([x].map vec) = vec x := outerProd_single _
    have e' : {y | y ∈ [x]} = {x} := by ext; simp
    rwa [e, e'] at h2
  obtain ⟨u, hu, hus, -⟩ := unit_spans hn hxs
  unfold fastStep
  simp only [hf, hu]
  obtain ⟨c, hc, rfl⟩ := hus.unique hn hxs
  by_cases hxS : x ∈ S
  · have hz : op join (c • vec x) = 0 := by
      rw [op_smul_right, op_graded_comm (hj.homog hn) (vec_homog hn x), hj.inside hn hxS, smul_zero, smul_zero]
    rw [hz, if_pos ((isZero_iff h0 (fun _ => Or.inl rfl)).mpr rfl)]
    exact ⟨join, S, rfl, hj, hj1, le_refl _, le_sup_left, fun _ => hxS⟩
  · have hb : S ⊓ Submodule.span ℝ {x} = ⊥ := by
      rw [eq_bot_iff]
      rintro y ⟨hy, hy'⟩
      obtain ⟨t, rfl⟩ := Submodule.mem_span_singleton.mp hy'
      by_cases ht : t = 0
      · simp [ht]
      · exfalso
        apply hxS
        have := Submodule.smul_mem S t⁻¹ hy
        rwa [smul_smul, inv_mul_cancel₀ ht, one_smul] at this
    have hnext := hj.op hn hus hb
    have hle : S ⊔ Submodule.span ℝ {x} ≤ S ⊔ V :=
      sup_le_sup_left (Submodule.span_le.mpr (by simpa using hx)) _
    by_cases hz : isZeroValue tol (op join (c • vec x)) = true
    · rw [if_pos hz]
      refine ⟨join, S, rfl, hj, hj1, le_refl _, le_sup_left, fun h => ?_⟩
      exfalso
      refine hnext.ne ((isZero_iff h0 ?_).mp hz)
      intro b
      rw [h]
      by_cases hb : op join (c • vec x) b = 0
      · exact Or.inl hb
      · exact Or.inr (abs_pos.mpr hb)
    · rw [if_neg hz]
      obtain ⟨w, hw, hws, hw1⟩ := unit_spans hn hnext
      rw [hw]
      have hdim : Module.finrank ℝ (S ⊔ Submodule.span ℝ {x} : Submodule ℝ 𝔼) = Module.finrank ℝ S + 1 := by
        have := Submodule.finrank_sup_add_finrank_inf_eq S (Submodule.span ℝ {x})
        rw [hb, finrank_span_singleton hxne] at this
        simpa using this
      have hdn := Submodule.finrank_le (S ⊔ Submodule.span ℝ {x})
      rw [hdim] at hdn
      simp only [finrank_euclideanSpace_fin] at hdn
      refine ⟨w, _, ?_, hws, hw1, le_sup_left, hle, fun _ => Submodule.mem_sup_right (Submodule.mem_span_singleton_self x)⟩
      rw [hdim]
      have : decide (((Module.finrank ℝ S : ℤ) + 1) ≤ n) = true := by
        rw [decide_eq_true_iff]; exact_mod_cast hdn
      simp only [this]
      push_cast; rfl

/-- The loop of `fast_join`. -/
theorem fastLoop_spec (hn : n ≤ 63) {tol : ℝ} (h0 : 0 ≤ tol) {B : MV ℝ} {V : Submodule ℝ 𝔼} (hB : Spans B V) {E : Word}
    (hE : B E ≠ 0) {x : Fin n → 𝔼} (h1 : ∀ i : Fin n, E.getLsbD i = true → x i ∈ V ∧ x i i ≠ 0 ∧
      projectVector (unitVector (i + 1)) B (reverse (Finsupp.single E 1)) = vec (x i)) :
    ∀ (l : List (Fin 64)) (_ : ∀ i ∈ l, E.getLsbD i = true) {join : MV ℝ} {S : Submodule ℝ 𝔼} (_ : Spans join S)
      (_ : |rnormSqr realProd join| = 1),
      ∃ (join' : MV ℝ) (S' : Submodule ℝ 𝔼), (visit (fastStep n tol B (reverse (Finsupp.single E 1))) l (some (join, (Module.finrank ℝ S : ℤ)))).1 =
          some (join', (Module.finrank ℝ S' : ℤ)) ∧
        Spans join' S' ∧ |rnormSqr realProd join'| = 1 ∧ S ≤ S' ∧ S' ≤ S ⊔ V ∧
          (tol = 0 → ∀ i : Fin n, (⟨i.val, by omega⟩ : Fin 64) ∈ l → x i ∈ S') := by
  intro l
  induction l with
  | nil =>
    intro _ join S hj hj1
    exact ⟨join, S, rfl, hj, hj1, le_refl _, le_sup_left, fun _ i hi => by simp at hi⟩
  | cons i l ih =>
    intro hl join S hj hj1
    have hi : E.getLsbD i = true := hl i (by simp)
    have hin : i.val < n := mem_space.mp (hB.space hn) E hE i hi
    obtain ⟨hxV, hx0, hf⟩ := h1 ⟨i.val, hin⟩ hi
    obtain ⟨j1, S1, h2, h3, h4, h5, h6, h7⟩ := fastStep_spec hn h0 hB hE ⟨i.val, hin⟩ hi hj hj1 hxV hx0 hf
    obtain ⟨j2, S2, g2, g3, g4, g5, g6, g7⟩ := ih (fun k hk => hl k (List.mem_cons_of_mem _ hk)) h3 h4
    refine ⟨j2, S2, ?_, g3, g4, h5.trans g5, g6.trans (sup_le h6 le_sup_right), ?_⟩
    · unfold visit
      dsimp only at h2 ⊢
      rw [h2]
      simpa using g2
    · intro ht k hk
      rcases List.mem_cons.mp hk with hk | hk
      · have : k = ⟨i.val, hin⟩ := Fin.ext (show k.val = i.val by rw [← hk])
        rw [this]
        exact g5 (h7 ht)
      · exact g7 ht k hk

/-- `_fast_join_impl` on blades. -/
theorem fastImpl_spec (hn : n ≤ 63) {tol : ℝ} (h0 : 0 ≤ tol) {bs : List Word} {A B : MV ℝ} {U V : Submodule ℝ 𝔼}
    (hA : Spans A U) (hB : Spans B V) (hbs : ∀ b, B b ≠ 0 → b ∈ bs) (hle : Module.finrank ℝ V ≤ Module.finrank ℝ U)
    (extra : Bool) :
    ∃ (J : MV ℝ) (S : Submodule ℝ 𝔼), fastJoinImpl n tol bs extra A (Module.finrank ℝ U) B (Module.finrank ℝ V) = some J ∧
      Spans J S ∧ |rnormSqr realProd J| = 1 ∧ U ≤ S ∧ S ≤ U ⊔ V ∧ (tol = 0 → S = U ⊔ V) := by
  obtain ⟨u, hu, hus, hu1⟩ := unit_spans hn hA
  have hun : ¬ ((Module.finrank ℝ U : ℤ) = -2 ∨ (Module.finrank ℝ V : ℤ) = -2) := by omega
  unfold fastJoinImpl
  rw [if_neg hun, hu]
  simp only [Option.bind_eq_bind, Option.bind_some]
  by_cases hsp : (Module.finrank ℝ U : ℤ) = 0 ∨ (Module.finrank ℝ U : ℤ) = n
  · rw [if_pos hsp]
    refine ⟨u, U, rfl, hus, hu1, le_refl _, le_sup_left, fun _ => ?_⟩
    rcases hsp with h | h
    · have h1 : Module.finrank ℝ V = 0 := by omega
      rw [Submodule.finrank_eq_zero] at h1
      rw [h1, sup_bot_eq]
    · have h1 : U = ⊤ := by
        refine Submodule.eq_top_of_finrank_eq ?_
        rw [finrank_euclideanSpace_fin]; exact_mod_cast h
      rw [h1, top_sup_eq]
  · rw [if_neg hsp]
    have hE : B (largestComponent bs B) ≠ 0 := by
      obtain ⟨b, hb⟩ := Finsupp.ne_iff.mp hB.ne
      exact largest_ne ⟨b, hbs b hb, hb⟩
    generalize largestComponent bs B = E at hE ⊢
    have hlt : ∀ i ∈ vecs E, i.val < 63 := by
      intro i hi
      have := mem_space.mp (hB.space hn) _ hE i (mem_vecs.mp hi)
      omega
    rw [C34_for_each_basis_vector _ _ _ hlt]
    have hx : ∀ i : Fin n, ∃ x : 𝔼, E.getLsbD i = true → x ∈ V ∧ x i ≠ 0 ∧
        (∀ k : Fin n, E.getLsbD k = true → k ≠ i → x k = 0) ∧
        projectVector (unitVector (i + 1)) B (reverse (Finsupp.single E 1)) = vec x := by
      intro i
      by_cases hi : E.getLsbD i = true
      · obtain ⟨x, h⟩ := factor hn hB hE i hi
        exact ⟨x, fun _ => h⟩
      · exact ⟨0, fun h => absurd h hi⟩
    choose x hx using hx
    obtain ⟨J, S, g1, g2, g3, g4, g5, g6⟩ := fastLoop_spec (x := x) hn h0 hB hE
      (fun i hi => ⟨(hx i hi).1, (hx i hi).2.1, (hx i hi).2.2.2⟩) ((vecs E).sort (· ≤ ·))
      (fun i hi => mem_vecs.mp ((Finset.mem_sort _).mp hi)) hus hu1
    simp only [Option.bind_some, g1]
    have hS : tol = 0 → S = U ⊔ V := by
      intro ht
      refine le_antisymm g5 (sup_le g4 ?_)
      refine factors_span hn hB hE (x := x) (fun i hi => ⟨(hx i hi).1, (hx i hi).2.1, (hx i hi).2.2.1⟩) ?_
      intro i hi
      refine g6 ht i ?_
      rw [Finset.mem_sort]
      exact mem_vecs.mpr hi
    refine ⟨_, S, rfl, ?_, ?_, g4, g5, hS⟩
    · split_ifs
      · simpa using g2.smul (c := -1) (by norm_num)
      · exact g2
    · split_ifs
      · have : rnormSqr realProd (-J) = rnormSqr realProd J := by
          unfold rnormSqr
          have e : -J = (-1 : ℝ) • J := by simp
          rw [e, reverse_smul, real_eq, prod_smul_left, prod_smul_right]
          simp
        rw [this, g3]
      · exact g3

end GATL
