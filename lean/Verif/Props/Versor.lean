import Verif.Proofs.Versor
import Verif.Spec.Versor

/-!
Properties C14–C16 and C38: duality, versor inverses, versor application and the commutator
product, in every `signed_metric_space<P,Q,R>`.
-/

namespace GATL.Props
open Spec

set_option linter.unusedSectionVars false
variable {K : Type*} [Field K] [DecidableEq K] (P Q R : Nat)

/-- the squares of the basis vectors -/
private abbrev qs (K : Type*) [Field K] (P Q R : Nat) : Fin 64 → K :=
  fun i => ((signature P Q R i : Int) : K)

private theorem sp_eq (h : P + Q + R ≤ 63) :
    (signedProd P Q R : Metric K) = orthProd (diagFactor (qs K P Q R)) := by
  funext g A B
  unfold signedProd
  rw [signedFactor_cast P Q R h]

private theorem prodOf_eq (q : Fin 64 → K) (vs : List (MV K)) :
    productOf (orthProd (diagFactor q)) vs = versorProd q vs := rfl

private theorem factors (h : P + Q + R ≤ 63) {vs : List (MV K)}
    (hv : VersorFactors (signedProd P Q R) vs) :
    ∀ v ∈ vs, Homogeneous 1 v ∧ vdot (qs K P Q R) v v ≠ 0 := by
  intro v hm
  obtain ⟨h1, h2⟩ := hv v hm
  refine ⟨h1, fun h0 => h2 ?_⟩
  rw [sp_eq P Q R h, gp_vec_self _ h1, h0]
  simp [scalar]

/-! ### C14 -/

theorem full_inv (h : P + Q ≤ 63) (c : K) (hc : c ≠ 0) :
    ∃ c' : K, c' ≠ 0 ∧ inv (signedProd P Q 0) (c • pseudoscalarOf K (P + Q))
      = some (c' • pseudoscalarOf K (P + Q)) ∧
      signedProd P Q 0 .gp (c • pseudoscalarOf K (P + Q)) (c' • pseudoscalarOf K (P + Q)) = scalar 1 ∧
      signedProd P Q 0 .gp (c' • pseudoscalarOf K (P + Q)) (c • pseudoscalarOf K (P + Q)) = scalar 1 := by
  rw [sp_eq P Q 0 (by omega)]
  have hI : pseudoscalarOf K (P + Q) = Finsupp.single (full (P + Q)) 1 := rfl
  have hd : diagFactor (qs K P Q 0) (full (P + Q)) ≠ 0 := by
    unfold diagFactor
    rw [Finset.prod_ne_zero_iff]
    intro i hi
    have hi' : i.val < P + Q := inSpace_full (P + Q) i (by
      unfold vecs at hi; rw [Finset.mem_filter] at hi; exact hi.2)
    unfold qs signature
    rw [Nat.add_zero]
    split
    · simp
    · simp [hi']
  set d := diagFactor (qs K P Q 0) (full (P + Q)) with hdd
  set s := sg K (par (full (P + Q)) (full (P + Q))) with hs
  have hss : s * s = 1 := sg_mul_self _
  have hs0 : s ≠ 0 := fun h0 => by rw [h0] at hss; simp at hss
  have hgp : ∀ a b : K, orthProd (diagFactor (qs K P Q 0)) .gp
      (a • pseudoscalarOf K (P + Q)) (b • pseudoscalarOf K (P + Q)) = scalar (a * b * (s * d)) := by
    intro a b
    rw [hI, prod_smul_left, prod_smul_right, gp_single, BitVec.xor_self, BitVec.and_self,
      smul_smul, Finsupp.smul_single, smul_eq_mul, one_mul, one_mul]
    rfl
  have hrev : reverse (c • pseudoscalarOf K (P + Q)) = (c * s) • pseudoscalarOf K (P + Q) := by
    rw [reverse_smul, hI, reverse_single, mul_one, Finsupp.smul_single, Finsupp.smul_single,
      smul_eq_mul, smul_eq_mul, mul_one]
  have hn : orthProd (diagFactor (qs K P Q 0)) .gp (c • pseudoscalarOf K (P + Q))
      (reverse (c • pseudoscalarOf K (P + Q))) = scalar (c * c * d) := by
    rw [hrev, hgp]; congr 1; linear_combination c * c * d * hss
  have hne : c * c * d ≠ 0 := mul_ne_zero (mul_ne_zero hc hc) hd
  refine ⟨(c * c * d)⁻¹ * (c * s), ?_, ?_, ?_, ?_⟩
  · exact mul_ne_zero (inv_ne_zero hne) (mul_ne_zero hc hs0)
  · rw [inv_of _ hn hne, hrev, smul_smul]
  · rw [hgp]; congr 1; field_simp; linear_combination hss
  · rw [hgp]; congr 1; field_simp; linear_combination hss

theorem lcont_full (q : Fin 64 → K) (n : Nat) (c : K) {A : MV K} (hA : A ∈ space K n) :
    orthProd (diagFactor q) .lcont A (c • pseudoscalarOf K n)
      = orthProd (diagFactor q) .gp A (c • pseudoscalarOf K n) := by
  refine space_eq_sum (p := fun A => orthProd (diagFactor q) .lcont A (c • pseudoscalarOf K n)
      = orthProd (diagFactor q) .gp A (c • pseudoscalarOf K n)) hA ?_ ?_ ?_
  · rw [prod_zero_left, prod_zero_left]
  · intro A B h h'; rw [prod_add_left, prod_add_left, h, h']
  · intro b a hb
    have hI : pseudoscalarOf K n = Finsupp.single (full n) 1 := rfl
    rw [prod_smul_right, prod_smul_right, hI, lcont_single, gp_single, if_pos (inSpace_and hb),
      inSpace_and hb]

/-- **C14** `undual(dual(A)) = A = dual(undual(A))` for every multivector of a space without null
basis vectors, for every pseudoscalar `c I`, `c ≠ 0`, and `dual(A)` is the geometric product of `A`
and the inverse of the pseudoscalar. -/
theorem C14_dual_undual (h : P + Q ≤ 63) (c : K) (hc : c ≠ 0) {A : MV K}
    (hA : A ∈ space K (P + Q)) :
    ∃ Iinv D, inv (signedProd P Q 0) (c • pseudoscalarOf K (P + Q)) = some Iinv ∧
      signedProd P Q 0 .gp (c • pseudoscalarOf K (P + Q)) Iinv = scalar 1 ∧
      dual (signedProd P Q 0) (c • pseudoscalarOf K (P + Q)) A = some D ∧
      D = signedProd P Q 0 .gp A Iinv ∧
      undual (signedProd P Q 0) (c • pseudoscalarOf K (P + Q)) D = A ∧
      dual (signedProd P Q 0) (c • pseudoscalarOf K (P + Q))
        (undual (signedProd P Q 0) (c • pseudoscalarOf K (P + Q)) A) = some A := by
  obtain ⟨c', -, hinv, hm1, hm2⟩ := full_inv (K := K) P Q h c hc
  have hmem : ∀ b : K, b • pseudoscalarOf K (P + Q) ∈ space K (P + Q) := fun b =>
    Submodule.smul_mem _ _ (single_mem_space _ (inSpace_full (P + Q)))
  refine ⟨_, _, hinv, hm1, by unfold dual; rw [hinv]; rfl, ?_, ?_, ?_⟩
  · rw [sp_eq P Q 0 (by omega)]; exact lcont_full _ _ _ hA
  · unfold undual
    rw [sp_eq P Q 0 (by omega)] at hm2 ⊢
    beta_reduce
    rw [lcont_full _ _ _ hA, lcont_full _ _ _ (gp_mem_space _ hA (hmem _)), gp_assoc, hm2]
    exact Cl.gp_one_right _ _
  · unfold dual undual
    rw [hinv, Option.map_some]
    rw [sp_eq P Q 0 (by omega)] at hm1 ⊢
    rw [lcont_full _ _ _ hA, lcont_full _ _ _ (gp_mem_space _ hA (hmem _)), gp_assoc, hm1]
    exact congrArg some (Cl.gp_one_right _ _)

example : e ℚ 0 + 3 • e ℚ 2 ∈ space ℚ (2 + 1) :=
  Submodule.add_mem _ (single_mem_space _ (by decide))
    (Submodule.smul_of_tower_mem _ _ (single_mem_space _ (by decide)))

/-! ### C15 -/

/-- **C15** The squared reverse norm of a versor is the product of the squares of its factors. -/
theorem C15_rnorm_sqr (h : P + Q + R ≤ 63) (vs : List (MV K)) (hv : ∀ v ∈ vs, Homogeneous 1 v) :
    rnormSqr (signedProd P Q R) (productOf (signedProd P Q R) vs)
      = (vs.map fun v => (signedProd P Q R .gp v v) 0).prod := by
  rw [sp_eq P Q R h, prodOf_eq]
  rw [rnormSqr_of _ (versor_norm (qs K P Q R) vs hv).1]
  congr 1
  refine List.map_congr_left fun v hm => ?_
  rw [gp_vec_self _ (hv v hm)]
  simp [scalar]

/-- **C15** Every versor of non-null vectors has an inverse, `inv` computes it, and it is inverse
on both sides. -/
theorem C15_inverse (h : P + Q + R ≤ 63) (vs : List (MV K))
    (hv : VersorFactors (signedProd P Q R) vs) :
    ∃ W, inv (signedProd P Q R) (productOf (signedProd P Q R) vs) = some W ∧
      signedProd P Q R .gp (productOf (signedProd P Q R) vs) W = scalar 1 ∧
      signedProd P Q R .gp W (productOf (signedProd P Q R) vs) = scalar 1 := by
  have hf := factors P Q R h hv
  rw [sp_eq P Q R h, prodOf_eq]
  obtain ⟨h1, h2⟩ := versor_norm (qs K P Q R) vs fun v hm => (hf v hm).1
  have hne := versor_ne (qs K P Q R) fun v hm => (hf v hm).2
  refine ⟨_, inv_of _ h1 hne, ?_, ?_⟩
  · rw [prod_smul_right, h1]
    unfold scalar; rw [Finsupp.smul_single, smul_eq_mul, inv_mul_cancel₀ hne]
  · rw [prod_smul_left, h2]
    unfold scalar; rw [Finsupp.smul_single, smul_eq_mul, inv_mul_cancel₀ hne]

/-- **C15** `igp(A, V)` is the one and only `X` with `X * V = A`. -/
theorem C15_igp (h : P + Q + R ≤ 63) (vs : List (MV K))
    (hv : VersorFactors (signedProd P Q R) vs) (A : MV K) :
    ∃ X, igp (signedProd P Q R) A (productOf (signedProd P Q R) vs) = some X ∧
      ∀ Y, signedProd P Q R .gp Y (productOf (signedProd P Q R) vs) = A ↔ Y = X := by
  obtain ⟨W, hW, h1, h2⟩ := C15_inverse P Q R h vs hv
  refine ⟨_, by unfold igp; rw [hW]; rfl, fun Y => ?_⟩
  generalize productOf (signedProd P Q R) vs = V at *
  rw [sp_eq P Q R h] at h1 h2 ⊢
  constructor
  · rintro rfl
    beta_reduce
    rw [gp_assoc, h1]; exact (Cl.gp_one_right _ _).symm
  · rintro rfl
    rw [gp_assoc, h2]; exact Cl.gp_one_right _ _

/-- **C15** `inv` of a null vector reports the division by zero. -/
theorem C15_null (h : P + Q + R ≤ 63) {v : MV K} (hv : Homogeneous 1 v)
    (h0 : signedProd P Q R .gp v v = 0) : inv (signedProd P Q R) v = none := by
  rw [sp_eq P Q R h] at h0 ⊢
  have e : rnormSqr (orthProd (diagFactor (qs K P Q R))) v = 0 := by
    refine rnormSqr_of (qs K P Q R) ?_
    rw [Iso.reverse_vec hv, h0]; simp [scalar]
  unfold inv invScalar
  rw [e, if_pos rfl]; rfl

private theorem e_factor (P Q R : Nat) (h : P + Q + R ≤ 63) (i : Nat) (hi : i < P + Q) :
    Homogeneous 1 (e K i) ∧ (signedProd P Q R : Metric K) .gp (e K i) (e K i) ≠ 0 := by
  have hi64 : i < 64 := by omega
  refine ⟨homog_bit ⟨i, hi64⟩, ?_⟩
  rw [sp_eq P Q R h]
  have : e K i = Finsupp.single (bit i) 1 := rfl
  rw [this, gp_single, BitVec.xor_self, BitVec.and_self, Finsupp.single_ne_zero]
  have hq := diagFactor_bit (qs K P Q R) ⟨i, hi64⟩
  dsimp only at hq
  rw [hq]
  have hs : sg K (par (bit i) (bit i)) ≠ 0 := fun h0 => by
    have := sg_mul_self (K := K) (par (bit i) (bit i)); rw [h0] at this; simp at this
  refine mul_ne_zero (by simp) (mul_ne_zero hs ?_)
  unfold qs signature
  split
  · simp
  · simp [hi]

example : VersorFactors (K := ℚ) (signedProd 3 1 0) [e ℚ 0, e ℚ 3, e ℚ 1] := by
  intro v hv
  simp only [List.mem_cons, List.not_mem_nil, or_false] at hv
  rcases hv with rfl | rfl | rfl <;> exact e_factor 3 1 0 (by decide) _ (by decide)

/-! ### C16 -/

/-- A linear map that is an orthogonal transformation of the metric space, extended to all
multivectors: it distributes over the geometric, the outer and every graded product, fixes scalars,
maps every grade part to the same grade part and preserves the scalar product. -/
structure Orthogonal (P Q R : Nat) (F : MV K →ₗ[K] MV K) : Prop where
  gp : ∀ A B, F (signedProd P Q R .gp A B) = signedProd P Q R .gp (F A) (F B)
  op : ∀ A B, F (op A B) = GATL.op (F A) (F B)
  graded : ∀ g A B, F (signedProd P Q R g A B) = signedProd P Q R g (F A) (F B)
  scalar : ∀ c, F (scalar c) = Spec.scalar c
  gradePart : ∀ k A, F (gradePart k A) = Spec.gradePart k (F A)
  homogeneous : ∀ k A, Homogeneous k A → Homogeneous k (F A)
  sp : ∀ A B, signedProd P Q R .sp (F A) (F B) = signedProd P Q R .sp A B

private theorem iso_orthogonal (h : P + Q + R ≤ 63) {F : MV K →ₗ[K] MV K}
    (hF : Iso (qs K P Q R) F) : Orthogonal P Q R F := by
  have e := sp_eq (K := K) P Q R h
  refine ⟨?_, hF.op, ?_, hF.scalar_fixed, hF.gradePart, fun k A hA => hF.homog hA, ?_⟩
  · rw [e]; exact hF.mul
  · rw [e]; exact hF.prod
  · rw [e]
    intro A B
    have := hF.prod .sp A B
    rw [← this, Iso.sp_scalar, hF.scalar_fixed]

/-- **C16** For every versor, `apply_even_versor` and `apply_odd_versor` are defined and are
orthogonal transformations. -/
theorem C16_orthogonal (h : P + Q + R ≤ 63) (vs : List (MV K))
    (hv : VersorFactors (signedProd P Q R) vs) :
    (∃ F, Orthogonal P Q R F ∧
      ∀ A, applyEvenVersor (signedProd P Q R) (productOf (signedProd P Q R) vs) A = some (F A)) ∧
    (∃ F, Orthogonal P Q R F ∧
      ∀ A, applyOddVersor (signedProd P Q R) (productOf (signedProd P Q R) vs) A = some (F A)) := by
  have hf := factors P Q R h hv
  rw [sp_eq P Q R h]
  have hi := conjList_iso (qs K P Q R) vs hf
  exact ⟨⟨_, iso_orthogonal P Q R h hi, fun A => applyEven_eq _ vs hf A⟩,
    ⟨_, iso_orthogonal P Q R h (hi.comp Iso.involute), fun A => applyOdd_eq _ vs hf A⟩⟩

/-- **C16** For a versor of norm one, `apply_rotor` does what `apply_even_versor` does. -/
theorem C16_rotor (h : P + Q + R ≤ 63) (vs : List (MV K)) (hv : ∀ v ∈ vs, Homogeneous 1 v)
    (hn : rnormSqr (signedProd P Q R) (productOf (signedProd P Q R) vs) = 1) (A : MV K) :
    applyEvenVersor (signedProd P Q R) (productOf (signedProd P Q R) vs) A
      = some (applyRotor (signedProd P Q R) (productOf (signedProd P Q R) vs) A) := by
  rw [sp_eq P Q R h] at hn ⊢
  have h1 := (versor_norm (qs K P Q R) vs hv).1
  have h2 := rnormSqr_of _ h1
  have h3 : (vs.map fun v => vdot (qs K P Q R) v v).prod = 1 := h2.symm.trans hn
  rw [h3] at h1
  unfold applyEvenVersor applyRotor
  have h4 : inv (orthProd (diagFactor (qs K P Q R))) (productOf (orthProd (diagFactor (qs K P Q R))) vs)
      = _ := inv_of _ h1 one_ne_zero
  rw [h4, Option.map_some, inv_one, one_smul]

/-- **C16** Applying `V` and then `W` is applying `W * V`; an odd versor after an odd versor is an
even versor. -/
theorem C16_compose (h : P + Q + R ≤ 63) (vs ws : List (MV K))
    (hv : VersorFactors (signedProd P Q R) vs) (hw : VersorFactors (signedProd P Q R) ws)
    (A : MV K) :
    let V := productOf (signedProd P Q R) vs
    let W := productOf (signedProd P Q R) ws
    let WV := signedProd P Q R .gp W V
    (applyEvenVersor (signedProd P Q R) V A).bind (applyEvenVersor (signedProd P Q R) W)
      = applyEvenVersor (signedProd P Q R) WV A ∧
    (applyOddVersor (signedProd P Q R) V A).bind (applyOddVersor (signedProd P Q R) W)
      = applyEvenVersor (signedProd P Q R) WV A ∧
    (applyEvenVersor (signedProd P Q R) V A).bind (applyOddVersor (signedProd P Q R) W)
      = applyOddVersor (signedProd P Q R) WV A ∧
    (applyOddVersor (signedProd P Q R) V A).bind (applyEvenVersor (signedProd P Q R) W)
      = applyOddVersor (signedProd P Q R) WV A := by
  have hfv := factors P Q R h hv
  have hfw := factors P Q R h hw
  rw [sp_eq P Q R h]
  have hfa : ∀ v ∈ ws ++ vs, Homogeneous 1 v ∧ vdot (qs K P Q R) v v ≠ 0 := by
    intro v hm
    rw [List.mem_append] at hm
    exact hm.elim (hfw v) (hfv v)
  change
    (applyEvenVersor _ (versorProd (qs K P Q R) vs) A).bind
      (applyEvenVersor _ (versorProd (qs K P Q R) ws))
      = applyEvenVersor _ (orthProd _ .gp (versorProd (qs K P Q R) ws) (versorProd (qs K P Q R) vs)) A ∧
    (applyOddVersor _ (versorProd (qs K P Q R) vs) A).bind
      (applyOddVersor _ (versorProd (qs K P Q R) ws))
      = applyEvenVersor _ (orthProd _ .gp (versorProd (qs K P Q R) ws) (versorProd (qs K P Q R) vs)) A ∧
    (applyEvenVersor _ (versorProd (qs K P Q R) vs) A).bind
      (applyOddVersor _ (versorProd (qs K P Q R) ws))
      = applyOddVersor _ (orthProd _ .gp (versorProd (qs K P Q R) ws) (versorProd (qs K P Q R) vs)) A ∧
    (applyOddVersor _ (versorProd (qs K P Q R) vs) A).bind
      (applyEvenVersor _ (versorProd (qs K P Q R) ws))
      = applyOddVersor _ (orthProd _ .gp (versorProd (qs K P Q R) ws) (versorProd (qs K P Q R) vs)) A
  rw [← versorProd_append]
  rw [applyEven_eq _ _ hfv, applyOdd_eq _ _ hfv, applyEven_eq _ _ hfa, applyOdd_eq _ _ hfa]
  simp only [Option.bind_some, applyEven_eq _ _ hfw, applyOdd_eq _ _ hfw, conjList_append]
  refine ⟨trivial, ?_, ?_, trivial⟩
  · rw [Iso.comm_involute _ (conjList_iso _ vs hfv), involute_involute]
  · rw [Iso.comm_involute _ (conjList_iso _ vs hfv)]

/-- **C16** A vector applied as an odd versor reflects in the hyperplane orthogonal to it: it maps
`x` to `-n x n⁻¹ = x - 2 (n·x)/(n·n) n`, so it negates `n` and fixes every vector orthogonal to
`n`. -/
theorem C16_reflection (h : P + Q + R ≤ 63) {n x : MV K} (hn : Homogeneous 1 n)
    (hx : Homogeneous 1 x) (hnn : signedProd P Q R .gp n n ≠ 0) :
    ∃ n', inv (signedProd P Q R) n = some n' ∧
      applyOddVersor (signedProd P Q R) n x
        = some (- signedProd P Q R .gp (signedProd P Q R .gp n x) n') ∧
      applyOddVersor (signedProd P Q R) n x
        = some (x - (2 * (signedProd P Q R .sp n x) 0 / (signedProd P Q R .sp n n) 0) • n) := by
  have hf := factors P Q R h (vs := [n]) (by
    intro v hm; rw [List.mem_singleton] at hm; subst hm; exact ⟨hn, hnn⟩)
  have hd : vdot (qs K P Q R) n n ≠ 0 := (hf n (by simp)).2
  rw [sp_eq P Q R h]
  have hrev : orthProd (diagFactor (qs K P Q R)) .gp n (reverse n) = scalar (vdot (qs K P Q R) n n) := by
    rw [Iso.reverse_vec hn, gp_vec_self _ hn]
  have hvs : ∀ x : MV K, Homogeneous 1 x →
      (orthProd (diagFactor (qs K P Q R)) .sp n x) 0 = vdot (qs K P Q R) n x := by
    intro x hx
    rw [Iso.sp_scalar, gp_vec_vec _ hn hx]
    have hop : (op n x) 0 = 0 := by
      by_contra hne
      have := Iso.op_homog hn hx 0 hne
      rw [gradeOf_eq, ones_zero] at this
      omega
    rw [Finsupp.add_apply, hop]; simp [scalar]
  refine ⟨_, inv_of _ hrev hd, ?_, ?_⟩
  · unfold applyOddVersor
    rw [inv_of _ hrev hd, Option.map_some, Iso.involute_vec hx, prod_neg_right, prod_neg_left]
  · have hc : versorProd (qs K P Q R) [n] = n := Cl.gp_one_right _ n
    have := applyOdd_eq (qs K P Q R) [n] hf x
    rw [hc] at this
    rw [this]
    change some (conjVec (qs K P Q R) n (involute x)) = _
    rw [Iso.involute_vec hx, map_neg, conjVec_vec _ hn hx hd, hvs x hx, hvs n hn, neg_sub, div_eq_mul_inv]

example : ∃ n x : MV ℚ, Homogeneous 1 n ∧ Homogeneous 1 x ∧ signedProd 2 1 0 .gp n n ≠ 0 :=
  ⟨e ℚ 0, e ℚ 1, (e_factor 2 1 0 (by decide) 0 (by decide)).1,
    (e_factor 2 1 0 (by decide) 1 (by decide)).1, (e_factor 2 1 0 (by decide) 0 (by decide)).2⟩

/-! ### C38 -/

/-- **C38** `cp(A,B) = (AB - BA)/2` (outside characteristic two). -/
theorem C38_commutator (h2 : (2 : K) ≠ 0) (A B : MV K) :
    cp (signedProd P Q R) A B
      = some ((2 : K)⁻¹ • (signedProd P Q R .gp A B - signedProd P Q R .gp B A)) := by
  unfold cp invScalar
  rw [if_neg h2, Option.map_some, realProd_scalar]

/-- **C38** Antisymmetry, the Jacobi identity, and the derivation law with respect to the geometric
product. -/
theorem C38_lie (h : P + Q + R ≤ 63) (h2 : (2 : K) ≠ 0) :
    ∃ br : MV K → MV K → MV K, (∀ A B, cp (signedProd P Q R) A B = some (br A B)) ∧
      (∀ A B, br A B = - br B A) ∧
      (∀ A B C, br A (br B C) + br B (br C A) + br C (br A B) = 0) ∧
      (∀ A B C, br A (signedProd P Q R .gp B C)
        = signedProd P Q R .gp (br A B) C + signedProd P Q R .gp B (br A C)) := by
  refine ⟨_, fun A B => C38_commutator P Q R h2 A B, ?_, ?_, ?_⟩
  · intro A B; rw [← smul_neg, neg_sub]
  · intro A B C
    rw [sp_eq P Q R h]
    simp only [prod_smul_left, prod_smul_right, prod_sub_left, prod_sub_right, gp_assoc]
    module
  · intro A B C
    rw [sp_eq P Q R h]
    simp only [prod_smul_left, prod_smul_right, prod_sub_left, prod_sub_right, gp_assoc]
    module

/-- **C38** The commutator with a bivector preserves grade. -/
theorem C38_bivector (h : P + Q + R ≤ 63) (h2 : (2 : K) ≠ 0) {r : Nat} {B A : MV K}
    (hB : Homogeneous 2 B) (hA : Homogeneous r A) :
    ∃ X, cp (signedProd P Q R) B A = some X ∧ Homogeneous r X := by
  refine ⟨_, C38_commutator P Q R h2 B A, homog_smul _ ?_⟩
  rw [sp_eq P Q R h]
  refine homog_induction (p := fun B => Homogeneous r (orthProd _ .gp B A - orthProd _ .gp A B)) hB
    ?_ ?_ ?_
  · rw [prod_zero_left, prod_zero_right, sub_zero]; exact homog_zero r
  · intro B B' h h'
    rw [prod_add_left, prod_add_right, add_sub_add_comm]; exact homog_add h h'
  intro l x hl
  refine homog_induction (p := fun A => Homogeneous r
    (orthProd _ .gp (Finsupp.single l x) A - orthProd _ .gp A (Finsupp.single l x))) hA ?_ ?_ ?_
  · rw [prod_zero_left, prod_zero_right, sub_zero]; exact homog_zero r
  · intro B B' h h'
    rw [prod_add_left, prod_add_right, add_sub_add_comm]; exact homog_add h h'
  intro s y hs
  rw [gp_single, gp_single, BitVec.xor_comm s l, BitVec.and_comm s l, ← Finsupp.single_sub]
  have hle : ones (l &&& s) ≤ 2 := by
    have h1 := ones_xor_add_two_and (l &&& s) l
    have h3 : l &&& s &&& l = l &&& s := by
      apply word_ext; intro i _
      simp only [BitVec.getLsbD_and]
      cases l.getLsbD i <;> simp
    rw [h3] at h1
    omega
  have hx := ones_xor_add_two_and l s
  by_cases h1 : ones (l &&& s) = 1
  · exact homog_single _ (by omega)
  · -- the blades commute
    have hcomm : par l s = par s l := by
      have hsw := par_swap l s
      have g1 : gr l = 0 := by rw [gr_eq, hl]; rfl
      have g2 : gr (l &&& s) = 0 := by
        rw [gr_eq]
        have : ones (l &&& s) = 0 ∨ ones (l &&& s) = 2 := by omega
        rcases this with h' | h' <;> rw [h'] <;> rfl
      rw [g1, g2] at hsw
      generalize par l s = x at *
      generalize par s l = y at *
      revert x y
      generalize gr s = z
      intro x y
      revert x y z
      decide
    rw [hcomm]
    have : x * y * (sg K (par s l) * diagFactor (qs K P Q R) (l &&& s))
        - y * x * (sg K (par s l) * diagFactor (qs K P Q R) (l &&& s)) = 0 := by ring
    rw [this, Finsupp.single_zero]; exact homog_zero r

example : Homogeneous 2 (blade ℚ 0b101 + blade ℚ 0b011) ∧ (2 : ℚ) ≠ 0 :=
  ⟨homog_add (homog_single _ (by decide)) (homog_single _ (by decide)), by norm_num⟩

end GATL.Props
