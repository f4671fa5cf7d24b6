import Verif.Proofs.Rational
import Verif.Proofs.GeneralTypes
import Verif.Spec.Programs

/-! Programs in any metric space. -/

namespace GATL

open Expr Spec

variable {ρ outer : Env} {τ : Types} {k : Nat}

/-! ## The products of static blades in a general metric -/

/-- The metric coefficients of basis vectors are constants. -/
def ConstEntries (entry : MetricEntry) : Prop :=
  ∀ k i j e, entry k (.const i) (.const j) = some e → IsConst e

variable {n : Nat} {entry : MetricEntry}

theorem mkIndex_const {b : Word} {e : Expr} (h : mkIndex k (.cbits b) = some e) : ∃ i, e = .const i :=
  (const_closed k).1 _ _ e h

theorem entry_const (hE : ConstEntries entry) {a b : Word} {i j e : Expr} (hi : mkIndex k (.cbits a) = some i)
    (hj : mkIndex k (.cbits b) = some j) (he : entry k i j = some e) : IsConst e := by
  obtain ⟨i, rfl⟩ := mkIndex_const hi
  obtain ⟨j, rfl⟩ := mkIndex_const hj
  exact hE _ _ _ _ he

theorem mul_isConst {a b e : Expr} (ha : IsConst a) (hb : IsConst b) (h : simp k .mul a b = some e) : IsConst e :=
  (expClosed_const k _ _ ha hb).2 _ h

theorem add_isConst {a b e : Expr} (ha : IsConst a) (hb : IsConst b) (h : simp k .add a b = some e) : IsConst e :=
  (expClosed_const k _ _ ha hb).1 _ h

theorem mkColSum_const {term : Nat → Option Expr} (h : ∀ i e, term i = some e → IsConst e) : ∀ (N : Nat) (e : Expr),
    mkColSum k term N = some e → IsConst e := by
  intro N
  induction N with
  | zero => intro e he; simp [mkColSum] at he
  | succ N ih =>
    intro e he
    cases N with
    | zero => exact h 1 e he
    | succ N =>
      simp only [mkColSum, Option.bind_eq_bind, Option.bind_eq_some_iff] at he
      obtain ⟨a, ha, b, hb, he⟩ := he
      exact add_isConst (ih a ha) (h _ _ hb) he

theorem mkDeterminant_const (hE : ConstEntries entry) : ∀ (N : Nat) (rows cols : Word) (e : Expr),
    mkDeterminant k entry N (.cbits rows) (.cbits cols) = some e → IsConst e := by
  intro N
  induction N using Nat.strong_induction_on with
  | _ N ih =>
    intro rows cols e he
    match N, ih, he with
    | 0, _, he =>
      simp only [mkDeterminant, Option.some.injEq] at he
      exact ⟨1, he.symm⟩
    | 1, _, he =>
      simp only [mkDeterminant, Option.bind_eq_bind, Option.bind_eq_some_iff] at he
      obtain ⟨i, hi, j, hj, he⟩ := he
      exact entry_const hE hi hj he
    | 2, _, he =>
      unfold mkDeterminant at he
      obtain ⟨r, hr, he⟩ := Option.bind_eq_some_iff.1 he
      obtain ⟨c, hc, he⟩ := Option.bind_eq_some_iff.1 he
      obtain ⟨i1, hi1, he⟩ := Option.bind_eq_some_iff.1 he
      obtain ⟨j1, hj1, he⟩ := Option.bind_eq_some_iff.1 he
      obtain ⟨a11, h11, he⟩ := Option.bind_eq_some_iff.1 he
      obtain ⟨i2, hi2, he⟩ := Option.bind_eq_some_iff.1 he
      obtain ⟨j2, hj2, he⟩ := Option.bind_eq_some_iff.1 he
      obtain ⟨a12, h12, he⟩ := Option.bind_eq_some_iff.1 he
      obtain ⟨i3, hi3, he⟩ := Option.bind_eq_some_iff.1 he
      obtain ⟨j3, hj3, he⟩ := Option.bind_eq_some_iff.1 he
      obtain ⟨a21, h21, he⟩ := Option.bind_eq_some_iff.1 he
      obtain ⟨i4, hi4, he⟩ := Option.bind_eq_some_iff.1 he
      obtain ⟨j4, hj4, he⟩ := Option.bind_eq_some_iff.1 he
      obtain ⟨a22, h22, he⟩ := Option.bind_eq_some_iff.1 he
      obtain ⟨x, hx, he⟩ := Option.bind_eq_some_iff.1 he
      obtain ⟨y, hy, he⟩ := Option.bind_eq_some_iff.1 he
      obtain ⟨z, hz, he⟩ := Option.bind_eq_some_iff.1 he
      rw [mkRightOne_cbits hr] at hi1 hi2 hi3 hi4
      rw [mkRightOne_cbits hc] at hj1 hj2 hj3 hj4
      simp only [mkXor] at hi3 hi4 hj2 hj4
      exact add_isConst (mul_isConst (entry_const hE hi1 hj1 h11) (entry_const hE hi4 hj4 h22) hx)
        (mul_isConst ⟨_, rfl⟩ (mul_isConst (entry_const hE hi3 hj3 h21) (entry_const hE hi2 hj2 h12) hy) hz) he
    | N + 3, ih, he =>
      simp only [mkDeterminant, Option.bind_eq_bind, Option.bind_eq_some_iff] at he
      obtain ⟨r, hr, he⟩ := he
      rw [mkRightOne_cbits hr] at he
      refine mkColSum_const (fun i e he => ?_) _ _ he
      obtain ⟨c, hc, he⟩ := Option.bind_eq_some_iff.1 he
      obtain ⟨i1, hi1, he⟩ := Option.bind_eq_some_iff.1 he
      obtain ⟨j1, hj1, he⟩ := Option.bind_eq_some_iff.1 he
      obtain ⟨a, ha, he⟩ := Option.bind_eq_some_iff.1 he
      rw [mkElement_cbits _ hc] at hj1 he
      have e1 := entry_const hE hi1 hj1 ha
      simp only [mkXor] at he
      by_cases h1 : i = 1
      · simp only [if_pos h1, Option.bind_some] at he
        obtain ⟨d, hd, he⟩ := Option.bind_eq_some_iff.1 he
        exact mul_isConst e1 (ih (N + 2) (by omega) _ _ _ hd) he
      · simp only [if_neg h1] at he
        obtain ⟨a', ha', he⟩ := Option.bind_eq_some_iff.1 he
        obtain ⟨d, hd, he⟩ := Option.bind_eq_some_iff.1 he
        exact mul_isConst (mul_isConst ⟨_, rfl⟩ e1 ha') (ih (N + 2) (by omega) _ _ _ hd) he

theorem within_mkComp {c : Expr} {b : Word} (hc : IsConst c) (hb : Indexed b) :
    Within IsConst [mkComp c (.const b)] :=
  within_single isConst_const expClosed_const (mkComp_const hc hb).2 (mkComp_const hc hb).1

theorem mkResult_within (hn : n ≤ 62) {g : GradedProduct} {cand A B : Word} {s e : CSum} (hs : Within IsConst s)
    (he : mkResult k n g cand (.const A) (.const B) s = some e) : Within IsConst e := by
  rcases s with _ | ⟨c, _ | ⟨d, ds⟩⟩
  · simp [mkResult] at he
  · obtain ⟨⟨w, hw, hi⟩, hc⟩ := within_head hs
    simp only [mkResult, Option.bind_eq_bind, Option.bind_eq_some_iff, Option.some.injEq, hw, Blade.bits] at he
    obtain ⟨v, hv, rfl⟩ := he
    obtain ⟨b', h1, h2⟩ := candidateBlade_const (dims := n) (G := cand &&& (Blade.const w).grades) (r := w) (by omega) hi
    rw [h1] at hv ⊢
    refine within_mkComp (mkIfElse_const ?_ hc ⟨_, rfl⟩) h2
    split
    · exact mkValidGrades_bool g hv
    · exact ⟨_, rfl⟩
  · simp [mkResult] at he

theorem indexed_xor {a b : Word} (ha : Indexed a) (hb : Indexed b) : Indexed (a ^^^ b) :=
  indexed_of ha hb (by
    intro i hi
    simp only [BitVec.getLsbD_xor] at hi
    cases h1 : a.getLsbD i <;> cases h2 : b.getLsbD i <;> simp_all)

theorem indexed_inSpace {a : Word} (hn : n ≤ 62) (h : InSpace n a) : Indexed a := fun i hi => by
  have := h i (mem_vecs.mp hi); omega

theorem guard_const (o a b : Nat) : IsConst (mkIfElse (mkLogicalAnd (mkLessOrEqual (.const o) (.const a))
    (mkLessOrEqual (.const o) (.const b))) (.const 1) (.const 0)) := by
  refine mkIfElse_const ⟨decide (o ≤ a ∧ o ≤ b), ?_⟩ ⟨_, rfl⟩ ⟨_, rfl⟩
  simp only [mkLessOrEqual, mkLogicalAnd]
  by_cases h1 : o ≤ a <;> by_cases h2 : o ≤ b <;> simp [h1, h2]

theorem mkRowsTerm_within (hn : n ≤ 62) (hE : ConstEntries entry) {A B cols rows : Word} (hA : Indexed A)
    (hB : Indexed B) (hc : Indexed cols) (hr : Indexed rows) {e : CSum}
    (he : mkRowsTerm k entry n (.const A) (.const B) cols (.cbits rows) = some e) : Within IsConst e := by
  simp only [mkRowsTerm, Option.bind_eq_bind, Option.bind_eq_some_iff, Blade.bits, mkXor, Blade.deduce,
    mkCountOneBits] at he
  obtain ⟨det, hdet, m, hm, he⟩ := he
  have h1 : Within IsConst m := within_mul isConst_const expClosed_const (regMapping_const (by omega)) k _ _ _
    (within_mkComp (guard_const _ _ _) hA)
    (within_mkComp (mkDeterminant_const hE _ _ _ _ hdet) (indexed_xor hc (indexed_basisVectors (by omega)))) hm
  exact within_mul isConst_const expClosed_const (extMapping_const (by omega)) k _ _ _ h1
    (within_mkComp ⟨_, rfl⟩ (indexed_xor hB hr)) he

theorem within_zero : Within IsConst [Comp.zero] :=
  within_single isConst_const expClosed_const ⟨0, rfl, by simp [vecs]⟩ ⟨0, rfl⟩

theorem within_add_const {s t e : CSum} (hs : Within IsConst s) (ht : Within IsConst t) (h : addC k s t = some e) :
    Within IsConst e := within_add isConst_const expClosed_const hs ht h

theorem mkRowsSum_within (hn : n ≤ 62) (hE : ConstEntries entry) {g : GradedProduct} {cand A B cols : Word}
    (hA : Indexed A) (hB : Indexed B) (hc : Indexed cols) : ∀ (fuel : Nat) (ind : Word) (e : CSum),
    mkRowsSum k entry n g cand (.const A) (.const B) cols fuel ind = some e → Within IsConst e := by
  intro fuel
  induction fuel with
  | zero => intro ind e h; simp [mkRowsSum] at h
  | succ fuel ih =>
    intro ind e h
    unfold mkRowsSum at h
    split_ifs at h
    · simp only [Option.some.injEq] at h
      subst h
      exact within_zero
    · simp only [Option.bind_eq_bind, Option.bind_eq_some_iff] at h
      obtain ⟨rows, hrows, t, ht, here, hhere, next, hnext, rest, hrest, h⟩ := h
      obtain ⟨w, hw, rfl⟩ := mkSubset_cbits _ hrows
      have hr : Indexed w := fun i hi => hB i (mem_vecs.mpr (subset_sub _ hw i (mem_vecs.mp hi)))
      exact within_add_const (mkResult_within hn (mkRowsTerm_within hn hE hA hB hc hr ht) hhere) (ih _ _ hrest) h

theorem within_scale {c : Expr} (hn : n ≤ 62) (hc : IsConst c) {t e : CSum} (ht : Within IsConst t)
    (he : mulC (extMapping n) k [mkComp c (.const 0)] t = some e) : Within IsConst e :=
  within_mul isConst_const expClosed_const (extMapping_const (by omega)) k _ _ _
    (within_mkComp hc (by intro i hi; simp [vecs] at hi)) ht he

theorem mkColumnsSum_within (hn : n ≤ 62) (hE : ConstEntries entry) {g : GradedProduct} {cand A B : Word}
    (hA : Indexed A) (hB : Indexed B) : ∀ (fuel : Nat) (cols : Word) (e : CSum), InSpace n cols →
    mkColumnsSum k entry n g cand (.const A) (.const B) fuel cols = some e → Within IsConst e := by
  intro fuel
  induction fuel with
  | zero => intro cols e _ h; simp [mkColumnsSum] at h
  | succ fuel ih =>
    intro cols e hc h
    unfold mkColumnsSum at h
    split_ifs at h with h0
    · simp only [Option.some.injEq] at h
      subst h
      exact within_zero
    · simp only [Option.bind_eq_bind, Option.bind_eq_some_iff] at h
      obtain ⟨first, hfirst, r, hr, here, hhere, next, hnext, rest, hrest, h⟩ := h
      have hin : InSpace n next := by
        obtain ⟨c', hc', h'⟩ := nextCombination_spec n (by omega) cols h0 (inSpace_lt.1 hc)
        rw [basisVectors_eq n (by omega), hc', Option.some.injEq] at hnext
        subst hnext
        rcases h' with ⟨_, h', _⟩ | ⟨rfl, _⟩
        · exact inSpace_lt.2 h'
        · intro i hi; simp at hi
      exact within_add_const (within_scale hn ⟨_, rfl⟩ (mkRowsSum_within hn hE hA hB (indexed_inSpace hn hc) _ _ _ hr)
        hhere) (ih _ _ hin hrest) h

theorem mkOrderSign_const {o g : Nat} {e : Expr} (h : mkOrderSign k o (.const g) = some e) : IsConst e := by
  simp only [mkOrderSign, Option.bind_eq_bind, Option.bind_eq_some_iff, Option.some.injEq] at h
  obtain ⟨m, hm, s, hs, rfl⟩ := h
  obtain ⟨x, rfl⟩ := mul_const_const hm
  obtain ⟨y, rfl⟩ := add_const_const hs
  exact mkIfElse_const (mkEqual_const _ _) ⟨_, rfl⟩ ⟨_, rfl⟩

theorem mkOrderSum_within (hn : n ≤ 62) (hE : ConstEntries entry) {g : GradedProduct} {cand A B : Word}
    (hA : Indexed A) (hB : Indexed B) : ∀ (order : Nat) (e : CSum), order ≤ n →
    mkOrderSum k entry n g cand (.const A) (.const B) order = some e → Within IsConst e := by
  intro order
  induction order with
  | zero =>
    intro e _ h
    simp only [mkOrderSum, Option.bind_eq_bind, Option.bind_eq_some_iff] at h
    obtain ⟨m, hm, t, ht, h⟩ := h
    have h1 : Within IsConst m := within_mul isConst_const expClosed_const (regMapping_const (by omega)) k _ _ _
      (within_mkComp ⟨_, rfl⟩ hA) (within_mkComp ⟨_, rfl⟩ (indexed_basisVectors (by omega))) hm
    exact mkResult_within hn (within_mul isConst_const expClosed_const (extMapping_const (by omega)) k _ _ _ h1
      (within_mkComp ⟨_, rfl⟩ hB) ht) h
  | succ order ih =>
    intro e ho h
    simp only [mkOrderSum, Option.bind_eq_bind, Option.bind_eq_some_iff] at h
    obtain ⟨lower, hlower, sign, hsign, first, hfirst, cs, hcs, here, hhere, h⟩ := h
    have hf : InSpace n first := by
      rw [firstCombination_eq _ (by omega), Option.some.injEq] at hfirst
      subst hfirst
      intro i hi
      rw [getLsbD_full _ _ i.2] at hi
      simp at hi
      omega
    exact within_add_const (ih _ (by omega) hlower) (within_scale hn (mkOrderSign_const hsign)
      (mkColumnsSum_within hn hE hA hB _ _ _ hf hcs) hhere) h

theorem indexed_63 {A : Word} (h : Indexed A) : InSpace 63 A := fun i hi => h i (mem_vecs.mpr hi)

theorem fit_left (hn : n ≤ 62) {A B : Word} (hA : Indexed A) (h : gradesFit n (.const A) (.const B) = true) :
    ones A ≤ n := by
  have h63 := inSpace_ones le_rfl (indexed_63 hA)
  by_contra hc
  unfold gradesFit safeRshift at h
  rw [if_pos (by omega), decide_eq_true_eq] at h
  have h1 : (((Blade.const A).grades ||| (Blade.const B).grades) >>> (n + 1)).getLsbD (ones A - (n + 1)) = false := by
    rw [h]; simp
  rw [BitVec.getLsbD_ushiftRight, show n + 1 + (ones A - (n + 1)) = ones A by omega, BitVec.getLsbD_or,
    Bool.or_eq_false_iff] at h1
  have h2 : (bit (ones A)).getLsbD (ones A) = false := h1.1
  rw [getLsbD_bit _ _ (by omega)] at h2
  simp at h2

theorem genMapping_known (hn : n ≤ 62) (hE : ConstEntries entry) (g : GradedProduct) :
    KnownMapping (genMapping n entry g) := by
  intro k A B e hA hB h c hc
  unfold genMapping at h
  split_ifs at h with hfit
  simp only [Option.bind_eq_bind, Option.bind_eq_some_iff] at h
  obtain ⟨cand, hcand, h⟩ := h
  have := mkOrderSum_within hn hE hA hB _ _ ?_ h
  · exact ⟨this.2 c hc, canonical_known this.1 c hc⟩
  · have h1 := leftmost_shift ⟨ones A, by have := inSpace_ones le_rfl (indexed_63 hA); omega⟩
    have h2 := fit_left hn hA hfit
    simp only at h1
    simp only [Blade.grades]
    omega

/-! ## The scalar product is a scalar -/

section
variable {q : Nat → Nat → ℝ}

theorem result_scalar (cand A B : Word) (c : ℝ × Word) :
    (resultComponent .sp cand A B c).1 = 0 ∨ (resultComponent .sp cand A B c).2 = 0 := by
  unfold resultComponent
  simp only
  split_ifs with h
  · right
    have := h.2
    simp only [areValidGrades, decide_eq_true_eq, Int.natCast_eq_zero, ones_eq_zero] at this
    exact this
  · exact .inl rfl

/-- Scalar components and zeros. -/
def AllScalar (l : List (ℝ × Word)) : Prop := ∀ c ∈ l, c.1 = 0 ∨ c.2 = 0

theorem allScalar_scale {l : List (ℝ × Word)} (h : AllScalar l) (s : Int) : AllScalar (scaleComponents s l) := by
  intro c hc
  obtain ⟨d, hd, rfl⟩ := List.mem_map.1 hc
  rcases h d hd with h | h
  · left; simp [h]
  · right; exact h

theorem allScalar_append {l l' : List (ℝ × Word)} (h : AllScalar l) (h' : AllScalar l') : AllScalar (l ++ l') := by
  intro c hc
  rcases List.mem_append.1 hc with hc | hc
  · exact h c hc
  · exact h' c hc

theorem rowsSum_scalar {cand A B cols : Word} : ∀ (fuel : Nat) (ind : Word) (l),
    rowsSum q n .sp cand A B cols fuel ind = some l → AllScalar l := by
  intro fuel
  induction fuel with
  | zero => intro ind l h; simp [rowsSum] at h
  | succ fuel ih =>
    intro ind l h
    unfold rowsSum at h
    split_ifs at h
    · simp only [Option.some.injEq] at h; subst h; intro c hc; simp at hc
    · simp only [Option.bind_eq_some_iff, Option.map_eq_some_iff] at h
      obtain ⟨rows, _, next, _, rest, hr, rfl⟩ := h
      intro c hc
      rcases List.mem_cons.1 hc with rfl | hc
      · exact result_scalar _ _ _ _
      · exact ih _ _ hr c hc

theorem columnsSum_scalar {cand A B : Word} {f : Nat} : ∀ (fuel : Nat) (cols : Word) (l),
    columnsSum q n .sp cand A B f fuel cols = some l → AllScalar l := by
  intro fuel
  induction fuel with
  | zero => intro ind l h; simp [columnsSum] at h
  | succ fuel ih =>
    intro ind l h
    unfold columnsSum at h
    split_ifs at h
    · simp only [Option.some.injEq] at h; subst h; intro c hc; simp at hc
    · simp only [Option.bind_eq_some_iff, Option.map_eq_some_iff] at h
      obtain ⟨first, _, here, hh, next, _, rest, hr, rfl⟩ := h
      exact allScalar_append (allScalar_scale (rowsSum_scalar _ _ _ hh) _) (ih _ _ hr)

theorem orderSum_scalar {cand A B : Word} {f : Nat} : ∀ (o : Nat) (l),
    orderSum q n .sp cand A B f o = some l → AllScalar l := by
  intro o
  induction o with
  | zero =>
    intro l h
    simp only [orderSum, Option.some.injEq] at h
    subst h
    intro c hc
    rw [List.mem_singleton.1 hc]
    exact result_scalar _ _ _ _
  | succ o ih =>
    intro l h
    simp only [orderSum, Option.bind_eq_some_iff, Option.map_eq_some_iff] at h
    obtain ⟨lower, hl, first, _, here, hh, rfl⟩ := h
    exact allScalar_append (ih _ hl) (allScalar_scale (columnsSum_scalar _ _ _ hh) _)

theorem ofComponents_scalar {l : List (ℝ × Word)} (h : AllScalar l) :
    ofComponents l = Finsupp.single 0 (ofComponents l 0) := by
  induction l with
  | nil => rw [ofComponents_nil]; simp
  | cons c l ih =>
    have ih' := ih fun d hd => h d (by simp [hd])
    rw [ofComponents_cons, Finsupp.add_apply, Finsupp.single_add, ← ih']
    congr 1
    rcases h c (by simp) with h0 | h0
    · rw [h0]; simp
    · rw [h0]; simp

theorem genProd_sp (fuel : Nat) (A B : MV ℝ) :
    genProd fuel q n .sp A B = Finsupp.single 0 (genProd fuel q n .sp A B 0) := by
  refine bilinear_ext (F := fun A B => genProd fuel q n .sp A B)
    (G := fun A B => Finsupp.single 0 (genProd fuel q n .sp A B 0)) ?_ ?_ ?_ ?_ ?_ ?_ ?_ ?_ ?_ A B <;> intros <;>
    try simp only [map_zero, map_add, LinearMap.zero_apply, LinearMap.add_apply, Finsupp.add_apply, Finsupp.single_add,
      Finsupp.zero_apply, Finsupp.single_zero]
  rename_i l r a b
  rw [genProd_single]
  have : AllScalar ((genMul fuel q n .sp l r).getD []) := by
    cases h : genMul fuel q n .sp l r with
    | none => intro c hc; simp at hc
    | some L =>
      unfold genMul at h
      obtain ⟨_, _, h⟩ := Option.bind_eq_some_iff.1 h
      exact orderSum_scalar _ _ h
  conv_lhs => rw [ofComponents_scalar this]
  rw [Finsupp.smul_single, Finsupp.smul_apply]

end

/-! ## Programs -/

/-- The mapping of the space computes the products `m`. -/
structure Computes (S : SpaceType) (k : Nat) (m : Metric ℝ) : Prop where
  dims : S.dims ≤ 62
  graded : ∀ g, Good2 S.dims (mulC (S.mapping g) k) (m g)
  norm : ∀ A, m .sp A (reverse A) = Finsupp.single 0 (rnormSqr m A)

variable {S : SpaceType} {m : Metric ℝ}

/-- A relation between objects and multivectors that all functions of the library keep. -/
theorem runIn_keeps (hS : Computes S k m) {I : Object → MV ℝ → Prop}
    (h1 : ∀ f F M A o, Good1 S.dims f F → I M A → call1 k τ outer f M = some o → I o (F A))
    (h2 : ∀ f F M M' A B o, Good2 S.dims f F → I M A → I M' B →
      call2 k τ outer f M M' = some o → I o (F A B))
    (hc : ∀ v : Int, I (constObject v) (Finsupp.single 0 (v : ℝ)))
    {Ms : List Object} {As : List (MV ℝ)} (hI : List.Forall₂ I Ms As) (t : Program) :
    ∀ o, t.runIn S k τ outer Ms = some o → I o (t.valueIn S.dims m As) := by
  induction t with
  | input i =>
    intro o h
    simp only [Program.runIn] at h
    simp only [Program.valueIn]
    have : ∀ (Ms : List Object) (As : List (MV ℝ)) (i : Nat), List.Forall₂ I Ms As →
        Ms[i]? = some o → I o (As.getD i 0) := by
      intro Ms As i hI
      induction hI generalizing i with
      | nil => simp
      | cons hab _ ih =>
        cases i with
        | zero => intro e; simp at e; subst e; simpa using hab
        | succ i => intro e; simpa using ih i (by simpa using e)
    exact this Ms As i hI h
  | lit v =>
    intro o h
    simp only [Program.runIn, Option.some.injEq] at h
    subst h
    exact hc v
  | add s t ihs iht =>
    intro o h
    simp only [Program.runIn, Option.bind_eq_bind, Option.bind_eq_some_iff] at h
    obtain ⟨x, hx, y, hy, h⟩ := h
    exact h2 _ _ _ _ _ _ _ (good_add (by have := hS.dims; omega)) (ihs x hx) (iht y hy) h
  | sub s t ihs iht =>
    intro o h
    simp only [Program.runIn, Option.bind_eq_bind, Option.bind_eq_some_iff] at h
    obtain ⟨x, hx, y, hy, h⟩ := h
    exact h2 _ _ _ _ _ _ _ (good_sub hS.dims) (ihs x hx) (iht y hy) h
  | neg t iht =>
    intro o h
    simp only [Program.runIn, Option.bind_eq_bind, Option.bind_eq_some_iff] at h
    obtain ⟨y, hy, h⟩ := h
    exact h1 _ _ _ _ _ (good_neg hS.dims) (iht y hy) h
  | scale v t iht =>
    intro o h
    simp only [Program.runIn, Option.bind_eq_bind, Option.bind_eq_some_iff] at h
    obtain ⟨y, hy, h⟩ := h
    exact h1 _ _ _ _ _ (good_scale hS.dims v) (iht y hy) h
  | op s t ihs iht =>
    intro o h
    simp only [Program.runIn, Option.bind_eq_bind, Option.bind_eq_some_iff] at h
    obtain ⟨x, hx, y, hy, h⟩ := h
    exact h2 _ _ _ _ _ _ _ (good_op hS.dims) (ihs x hx) (iht y hy) h
  | rp s t ihs iht =>
    intro o h
    simp only [Program.runIn, Option.bind_eq_bind, Option.bind_eq_some_iff] at h
    obtain ⟨x, hx, y, hy, h⟩ := h
    exact h2 _ _ _ _ _ _ _ (good_rp hS.dims) (ihs x hx) (iht y hy) h
  | graded g s t ihs iht =>
    intro o h
    simp only [Program.runIn, Option.bind_eq_bind, Option.bind_eq_some_iff] at h
    obtain ⟨x, hx, y, hy, h⟩ := h
    exact h2 _ _ _ _ _ _ _ (hS.graded g) (ihs x hx) (iht y hy) h
  | reverse t iht =>
    intro o h
    simp only [Program.runIn, Option.bind_eq_bind, Option.bind_eq_some_iff] at h
    obtain ⟨y, hy, h⟩ := h
    exact h1 _ _ _ _ _ (good_reverse (by have := hS.dims; omega)) (iht y hy) h
  | involute t iht =>
    intro o h
    simp only [Program.runIn, Option.bind_eq_bind, Option.bind_eq_some_iff] at h
    obtain ⟨y, hy, h⟩ := h
    exact h1 _ _ _ _ _ (good_involute (by have := hS.dims; omega)) (iht y hy) h
  | conjugate t iht =>
    intro o h
    simp only [Program.runIn, Option.bind_eq_bind, Option.bind_eq_some_iff] at h
    obtain ⟨y, hy, h⟩ := h
    exact h1 _ _ _ _ _ (good_conjugate (by have := hS.dims; omega)) (iht y hy) h

/-- Eager programs. -/
theorem runIn_holds (hS : Computes S k m) {Ms : List Object} {As : List (MV ℝ)}
    (hI : List.Forall₂ (Holds outer S.dims) Ms As) (t : Program) (o : Object)
    (h : t.runIn S k τ outer Ms = some o) : Holds outer S.dims o (t.valueIn S.dims m As) :=
  runIn_keeps hS (fun _ _ _ _ _ hf hM h => call1_holds (by have := hS.dims; omega) hf hM h)
    (fun _ _ _ _ _ _ _ hf hM hM' h => call2_holds (by have := hS.dims; omega) hf hM hM' h) holds_const hI t o h

/-- Lazy programs. -/
theorem runLazyIn_holds (hS : Computes S k m) {Ms : List Object} {As : List (MV ℝ)}
    (hI : List.Forall₂ (Holds outer S.dims) Ms As) (t : Program) (o : Object)
    (h : t.runLazyIn S k τ outer Ms = some o) : Holds outer S.dims o (t.valueIn S.dims m As) := by
  simp only [Program.runLazyIn, Option.bind_eq_bind, Option.bind_eq_some_iff] at h
  obtain ⟨as, h1, r, hr, h⟩ := h
  have hp : ∀ M ∈ Ms, PlainC M.expr := by
    intro M hM
    clear h h1 hr
    induction hI with
    | nil => simp at hM
    | cons h _ ih =>
      rcases List.mem_cons.1 hM with rfl | hM
      · exact h.1
      · exact ih hM
  have hd := arguments_reads (N := S.dims) (outer := outer) (by have := hS.dims; omega) (base := baseId Ms) Ms [] as As h1
    (le_baseId (Ms := Ms)) (hI.imp fun _ _ h => h.2)
  rw [List.nil_append] at hd
  have hlen := arguments_length _ _ _ h1
  have key : ∀ Q' : Expr → Prop, (∀ v, Q' (.const v)) → ExpClosed Q' →
      (∀ e, Q' e → hasStored e = false) →
      (∀ t i, baseId Ms < t → t ≤ baseId Ms + (storedInputs Ms).length → Q' (.value t i)) →
      Deferred (contextEnv outer (baseId Ms) (storedInputs Ms)) S.dims Q' r
        (t.valueIn S.dims m As) := by
    intro Q' hc hE hQ hv
    have hw := arguments_within (Q := Q') (base := baseId Ms) hc Ms [] as hp hv h1
    refine runIn_keeps hS (fun _ _ _ _ _ hf hM h => call1_deferred hc hE hQ hf hM h)
      (fun _ _ _ _ _ _ _ hf hM hM' h => call2_deferred hc hE hQ hf hM hM' h)
      (deferred_const hc) ?_ t r hr
    refine forall₂_zip (J := fun a A => Within Q' a ∧
      SumDenotes (contextEnv outer (baseId Ms) (storedInputs Ms)) S.dims a A)
      (fun M a A h => ⟨h.1, h.2, rfl, rfl⟩) Ms as As ?_ hlen
    clear hr h h1 hlen hI
    induction hd with
    | nil => exact .nil
    | cons h _ ih => exact .cons ⟨hw _ (by simp), h⟩ (ih fun a ha => hw a (by simp [ha]))
  exact contextEval_poly (fun Q' hc hE hQ hv => (key Q' hc hE hQ hv).1)
    (key (Poly (baseId Ms + 1) (baseId Ms + (storedInputs Ms).length)) poly_const poly_closed
      poly_stored fun t i h1 h2 => .inr ⟨t, i, h1, h2, rfl⟩).2.1 (contextObject_eval h)

variable {L U : Nat}

theorem normSqrIn_deferred (hS : Computes S k m) {F : Expr → Prop} (hc : ∀ v, F (.const v)) (hE : ExpClosed F)
    (hF : ∀ e, F e → hasStored e = false) {M o : Object} {A : MV ℝ} (hM : Deferred ρ S.dims F M A)
    (h : normSqrIn S k τ outer M = some o) :
    Deferred ρ S.dims F o (Finsupp.single 0 (rnormSqr m A)) := by
  have hs : hasStoredC M.expr = false := within_stored hF hM.1
  have hl : ∀ Y ∈ [M], hasStoredC Y.expr = false := by simpa using hs
  unfold normSqrIn Program.runLazyIn at h
  rw [arguments_lazy _ hl] at h
  simp only [List.map_cons, List.map_nil, Option.bind_eq_bind, Option.bind_some, List.zipWith_cons_cons,
    List.zipWith_nil_right, Program.runIn, List.getElem?_cons_zero, Option.bind_eq_some_iff] at h
  obtain ⟨s, ⟨r, hr, hs'⟩, h⟩ := h
  have hX : Deferred ρ S.dims F (lazyObject M.floats M.expr) A := ⟨hM.1, hM.2.1, rfl, rfl⟩
  have h1 := call1_deferred hc hE hF (good_reverse (by have := hS.dims; omega)) hX hr
  have h2 := call2_deferred hc hE hF (hS.graded .sp) hX h1 hs'
  rw [hS.norm] at h2
  simp only [contextObject, contextEval_lazy hl, Option.bind_eq_bind, Option.bind_some, Option.some.injEq] at h
  subst h
  exact ⟨h2.1, h2.2.1, rfl, rfl⟩

theorem inverseIn_deferred (hS : Computes S k m) {M o : Object} {A : MV ℝ}
    (hM : Deferred ρ S.dims (Frac L U) M A) (h0 : rnormSqr m A ≠ 0)
    (h : inverseIn S k τ outer M = some o) :
    Deferred ρ S.dims (Frac L U) o ((rnormSqr m A)⁻¹ • reverse A) := by
  have hs : hasStoredC M.expr = false := within_stored frac_stored hM.1
  have hl : ∀ Y ∈ [M], hasStoredC Y.expr = false := by simpa using hs
  unfold inverseIn at h
  rw [arguments_lazy _ hl] at h
  simp only [List.map_cons, List.map_nil, Option.bind_eq_bind, Option.bind_some, Option.bind_eq_some_iff] at h
  obtain ⟨nn, hnn, q, hq, rv, hrv, r, hr, h⟩ := h
  simp only [contextObject, contextEval_lazy hl, Option.bind_eq_bind, Option.bind_some, Option.some.injEq] at h
  subst h
  have hX : Deferred ρ S.dims (Frac L U) (lazyObject M.floats M.expr) A := ⟨hM.1, hM.2.1, rfl, rfl⟩
  have h1 := normSqrIn_deferred hS frac_const frac_closed frac_stored hX hnn
  have h2 := call1_deferred frac_const frac_closed frac_stored (good_reverse (by have := hS.dims; omega)) hX hrv
  generalize hx : rnormSqr m A = x at *
  -- the power
  obtain ⟨e, he, eq⟩ := call2_lazy_inv (within_stored frac_stored h1.1) (by rfl) hq
  simp only [constObject, constSum, scalarCoef_single, Option.bind_eq_bind, Option.bind_some,
    Option.bind_eq_some_iff, Option.some.injEq] at he
  obtain ⟨s, hsc, z, hz, rfl⟩ := he
  have es := scalarCoef_inv hsc
  obtain ⟨w1, d1, -, -⟩ := h1
  rw [es] at w1 d1
  have hm : (⟨s, .const 0⟩ : Comp) ∈ ([⟨s, .const 0⟩] : CSum) := List.mem_singleton.2 rfl
  have vs : V ρ s x := ⟨(d1.1 _ hm).1, single_denotes_inv d1⟩
  have fs : Frac L U s := w1.2 _ hm
  have vz : V ρ z (x ^ ((-1 : ℤ) : ℝ)) := by
    refine (simp_sound ρ k).pow _ _ _ _ _ vs (V.const (-1)) ?_ (.inl ⟨-1, rfl⟩) hz
    rcases lt_trichotomy x 0 with h | h | h
    · exact .inr (.inr ⟨h, -1, rfl⟩)
    · exact absurd h h0
    · exact .inl h
  have fz : Frac L U z := (frac_simp k).pow _ _ fs (frac_const _) ⟨-1, rfl⟩ z hz
  have ex : x ^ ((-1 : ℤ) : ℝ) = x⁻¹ := by
    rw [Real.rpow_intCast]; simp
  rw [ex] at vz
  have dz : SumDenotes ρ S.dims [⟨z, .const 0⟩] (Finsupp.single 0 x⁻¹) := single_denotes vz.1 vz.2
  have wz : Within (Frac L U) [⟨z, .const 0⟩] :=
    ⟨canonical_single ⟨0, rfl, by simp [vecs]⟩, fun c hc => by rw [List.mem_singleton.1 hc]; exact fz⟩
  -- the product
  obtain ⟨e, he, er⟩ := call2_lazy_inv (within_stored frac_stored h2.1) (by rw [eq]; exact within_stored frac_stored wz) hr
  rw [eq] at he
  refine ⟨?_, ?_, rfl, rfl⟩
  · show Within _ r.expr
    rw [er]
    exact within_mul frac_const frac_closed
      (orthMapping_const le_rfl (f := mkRealFactor) (fun b => ⟨1, rfl⟩) .gp) k _ _ _ h2.1 wz he
  · show SumDenotes _ _ r.expr _
    rw [er]
    have key := Props.C23_scalar_operand ρ S.dims 0 0 (by have := hS.dims; omega) .gp k _ _ e _ _
      (.inr ⟨_, rfl⟩) h2.2.1 dz he
    unfold signedProd at key
    rw [signedFactor_cast S.dims 0 0 (by have := hS.dims; omega)] at key
    rwa [show orthProd _ .gp (reverse A) (Finsupp.single 0 x⁻¹) = x⁻¹ • reverse A from
      gp_scalar_right _ x⁻¹ (reverse A)] at key

/-! ## Programs -/

theorem rationalIn_deferred (hS : Computes S k m) (t : Rational) :
    ∀ (Ms : List Object) (As : List (MV ℝ)) (o : Object) (B : MV ℝ),
      List.Forall₂ (Deferred ρ S.dims (Frac L U)) Ms As → t.valueIn S.dims m As = some B →
      t.runIn S k τ outer Ms = some o → Deferred ρ S.dims (Frac L U) o B := by
  have step : ∀ (s : Program) (Ms : List Object) (As : List (MV ℝ)) (o : Object),
      List.Forall₂ (Deferred ρ S.dims (Frac L U)) Ms As → s.runIn S k τ outer Ms = some o →
      Deferred ρ S.dims (Frac L U) o (s.valueIn S.dims m As) := fun s Ms As o hI h =>
    runIn_keeps hS (fun _ _ _ _ _ hf hM h => call1_deferred frac_const frac_closed frac_stored hf hM h)
      (fun _ _ _ _ _ _ _ hf hM hM' h => call2_deferred frac_const frac_closed frac_stored hf hM hM' h)
      (deferred_const frac_const) hI s o h
  have snoc : ∀ {Ms : List Object} {As : List (MV ℝ)} {M : Object} {A : MV ℝ},
      List.Forall₂ (Deferred ρ S.dims (Frac L U)) Ms As → Deferred ρ S.dims (Frac L U) M A →
      List.Forall₂ (Deferred ρ S.dims (Frac L U)) (Ms ++ [M]) (As ++ [A]) :=
    fun h1 h2 => List.rel_append h1 (.cons h2 .nil)
  induction t with
  | ret t =>
    intro Ms As o B hI hv h
    simp only [Rational.valueIn, Option.some.injEq] at hv
    subst hv
    exact step t Ms As o hI h
  | bind t rest ih =>
    intro Ms As o B hI hv h
    simp only [Rational.valueIn] at hv
    simp only [Rational.runIn, Option.bind_eq_bind, Option.bind_eq_some_iff] at h
    obtain ⟨x, hx, h⟩ := h
    exact ih _ _ o B (snoc hI (step t Ms As x hI hx)) hv h
  | inv t rest ih =>
    intro Ms As o B hI hv h
    simp only [Rational.valueIn] at hv
    simp only [Rational.runIn, Option.bind_eq_bind, Option.bind_eq_some_iff] at h
    obtain ⟨x, hx, y, hy, h⟩ := h
    split_ifs at hv with h0
    exact ih _ _ o B (snoc hI (inverseIn_deferred hS (step t Ms As x hI hx) h0 hy)) hv h

theorem rationalIn_stands (hS : Computes S k m) {Ms : List Object} {As : List (MV ℝ)}
    (hI : List.Forall₂ (Stands outer S.dims) Ms As) (t : Rational) {o : Object} {B : MV ℝ}
    (hv : t.valueIn S.dims m As = some B) (hq : NoIntegerDivisionIn S k τ outer Ms t)
    (h : t.runLazyIn S k τ outer Ms = some o) : Stands outer S.dims o B := by
  replace hI := hI.imp fun _ _ h => stands_iff.1 h
  simp only [Rational.runLazyIn, Option.bind_eq_bind, Option.bind_eq_some_iff] at h
  obtain ⟨e, he, h⟩ := h
  have hq' := hq e he
  simp only [Rational.lazyTypeIn, Option.bind_eq_bind, Option.bind_eq_some_iff, Option.some.injEq] at he
  obtain ⟨as, h1, r, hr, rfl⟩ := he
  have hp : ∀ M ∈ Ms, FixedC M.expr := by
    intro M hM
    clear h h1 hr hq hq' hv
    induction hI with
    | nil => simp at hM
    | cons h _ ih =>
      rcases List.mem_cons.1 hM with rfl | hM
      · exact h.1
      · exact ih hM
  have hw := arguments_within' (Q := Frac (baseId Ms + 1) (baseId Ms + (storedInputs Ms).length)) (base := baseId Ms)
    (fun _ h => fixed_frac h) Ms [] as hp (fun t i h1 h2 => .inr ⟨t, i, h1, by simpa using h2, rfl⟩) h1
  have hlen := arguments_length _ _ _ h1
  have key : ∀ ρ : Env, List.Forall₂ (SumDenotes ρ S.dims) as As →
      Deferred ρ S.dims (Frac (baseId Ms + 1) (baseId Ms + (storedInputs Ms).length)) r B := by
    intro ρ hd
    refine rationalIn_deferred hS t _ As r B ?_ hv hr
    refine forall₂_zip (J := fun a A => Within (Frac (baseId Ms + 1) (baseId Ms + (storedInputs Ms).length)) a ∧
      SumDenotes ρ S.dims a A) (fun M a A h => ⟨h.1, h.2, rfl, rfl⟩) Ms as As ?_ hlen
    clear hr h h1 hlen hI hq hq' hv
    induction hd with
    | nil => exact .nil
    | cons h _ ih => exact .cons ⟨hw _ (by simp), h⟩ (ih fun a ha => hw a (by simp [ha]))
  have hd := arguments_reads (N := S.dims) (outer := outer) (by have := hS.dims; omega) (base := baseId Ms) Ms [] as As h1
    (le_baseId (Ms := Ms)) (hI.imp fun _ _ h => h.2)
  rw [List.nil_append] at hd
  have hk := key _ hd
  refine stands_iff.2 (contextEval_frac hk.1 hk.2.1 ?_ hq' (contextObject_eval h))
  intro hst
  have hno : ∀ M ∈ Ms, hasStoredC M.expr = false := by
    simpa [storedInputs] using hst
  rw [arguments_lazy Ms hno] at h1
  cases h1
  refine (key outer ?_).2.1
  rw [List.forall₂_map_left_iff]
  have : ∀ (Ns : List Object) (Bs : List (MV ℝ)), (∀ M ∈ Ns, hasStoredC M.expr = false) →
      List.Forall₂ (Stored outer S.dims) Ns Bs →
      List.Forall₂ (fun M A => SumDenotes outer S.dims M.expr A) Ns Bs := by
    intro Ns Bs hn hI
    induction hI with
    | nil => exact .nil
    | cons h _ ih =>
      exact .cons (reads_symbolic (B := _) (fun t _ i => ⟨rfl, rfl⟩) h.2 le_rfl (hn _ (by simp)))
        (ih fun M hM => hn M (by simp [hM]))
  exact this Ms As hno hI

/-! ## The metric spaces of the library -/

theorem computes_signed {P Q R : Nat} (hN : P + Q + R ≤ 62) : Computes (signedSpace P Q R) k (signedProd P Q R) :=
  ⟨hN, fun g => good_graded hN g, sp_reverse⟩

/-- In a space with constant metric coefficients. -/
theorem computes_general (hn : n ≤ 62) {entry : MetricEntry} {q : Nat → Nat → ℝ} (hE : ConstEntries entry)
    (hq : ∀ ρ, EntryOk ρ entry q) {fuel : Nat} (hk : k ≤ fuel) :
    Computes ⟨n, genMapping n entry⟩ k (fun g A B => genProd fuel q n g A B) where
  dims := hn
  graded g :=
    { within := fun _ hc hE' a b e ha hb h => within_mul_known hc hE' (genMapping_known hn hE g) k a b e ha hb h
      denotes := fun ρ a b e A B ka kb hA hB h => mulC_general hn (hq ρ) g hk
        (fun c hc => (ka c hc).imp fun _ h => h.1) (fun c hc => (kb c hc).imp fun _ h => h.1) hA hB h }
  norm A := by rw [rnormSqr]; exact genProd_sp _ _ _

theorem conformal_const (D : Nat) : ConstEntries (mkConformalEntry D) := by
  intro k i j e h
  simp only [mkConformalEntry, Option.some.injEq] at h
  subst h
  exact mkIfElse_const (mkEqual_const _ _) (mkIfElse_const ⟨_, rfl⟩ ⟨_, rfl⟩ ⟨_, rfl⟩)
    (mkIfElse_const (mkLogicalOr_bool ⟨_, rfl⟩ ⟨_, rfl⟩) ⟨_, rfl⟩ ⟨_, rfl⟩)

theorem matrix_const {entries : List Expr} (h : ∀ e ∈ entries, IsConst e) : ConstEntries (mkMatrixEntry n entries) := by
  intro k i j e he
  unfold mkMatrixEntry at he
  obtain ⟨r, hr, he⟩ := Option.bind_eq_some_iff.1 he
  obtain ⟨c, hc, he⟩ := Option.bind_eq_some_iff.1 he
  obtain ⟨m, hm, he⟩ := Option.bind_eq_some_iff.1 he
  obtain ⟨s, hs, he⟩ := Option.bind_eq_some_iff.1 he
  split at he
  · split_ifs at he
    exact h e (List.mem_of_getElem? he)
  · simp at he

theorem computes_conformal {D : Nat} (hn : D + 2 ≤ 62) {fuel : Nat} (hk : k ≤ fuel) :
    Computes (conformalSpace D) k (fun g A B => genProd fuel (conformalEntry D) (D + 2) g A B) :=
  computes_general hn (conformal_const D) (fun _ => conformal_ok D) hk

theorem computes_matrix (hn : n ≤ 62) (entries : List Int) {fuel : Nat} (hk : k ≤ fuel) :
    Computes (matrixSpace n (entries.map .const)) k
      (fun g A B => genProd fuel (fun i j => (entries.getD (n * (i - 1) + (j - 1)) 0 : ℝ)) n g A B) := by
  refine computes_general hn (matrix_const fun e he => ?_) (fun ρ => matrix_ok (v := fun p => (entries.getD p 0 : ℝ))
    fun p e he => ?_) hk
  · obtain ⟨v, -, rfl⟩ := List.mem_map.1 he
    exact ⟨v, rfl⟩
  · rw [List.getElem?_map, Option.map_eq_some_iff] at he
    obtain ⟨v, hv, rfl⟩ := he
    rw [List.getD_eq_getElem?_getD, hv]
    exact V.const v

/-! ## The signed spaces as before -/

theorem run_signed {P Q R : Nat} {Ms : List Object} (t : Program) :
    t.runIn (signedSpace P Q R) k τ outer Ms = t.run P Q R k τ outer Ms := by
  induction t with
  | input _ => rfl
  | lit _ => rfl
  | _ => simp only [Program.runIn, Program.run, *] <;> rfl

theorem runLazy_signed {P Q R : Nat} {Ms : List Object} (t : Program) :
    t.runLazyIn (signedSpace P Q R) k τ outer Ms = t.runLazy P Q R k τ outer Ms := by
  unfold Program.runLazyIn Program.runLazy
  simp only [run_signed]

theorem inverse_signed {P Q R : Nat} {M : Object} :
    inverseIn (signedSpace P Q R) k τ outer M = inverse P Q R k τ outer M := by
  unfold inverseIn inverse normSqrIn normSqrObject
  simp only [runLazy_signed] <;> rfl

theorem rational_signed {P Q R : Nat} (t : Rational) : ∀ Ms,
    t.runIn (signedSpace P Q R) k τ outer Ms = t.run P Q R k τ outer Ms := by
  induction t with
  | ret t => intro Ms; exact run_signed t
  | bind t rest ih => intro Ms; simp only [Rational.runIn, Rational.run, run_signed, ih]
  | inv t rest ih => intro Ms; simp only [Rational.runIn, Rational.run, run_signed, inverse_signed, ih]

theorem rationalLazy_signed {P Q R : Nat} {Ms : List Object} (t : Rational) :
    t.runLazyIn (signedSpace P Q R) k τ outer Ms = t.runLazy P Q R k τ outer Ms := by
  unfold Rational.runLazyIn Rational.runLazy Rational.lazyTypeIn Rational.lazyType
  simp only [rational_signed]

theorem value_signed {P Q R : Nat} {As : List (MV ℝ)} (t : Program) :
    t.valueIn (P + Q + R) (signedProd P Q R) As = t.value P Q R As := by
  induction t with
  | input _ => rfl
  | lit _ => rfl
  | _ => simp only [Program.valueIn, Program.value, *]

theorem rationalValue_signed {P Q R : Nat} (t : Rational) : ∀ As,
    t.valueIn (P + Q + R) (signedProd P Q R) As = t.value P Q R As := by
  induction t with
  | ret t => intro As; simp only [Rational.valueIn, Rational.value, value_signed]
  | bind t rest ih => intro As; simp only [Rational.valueIn, Rational.value, value_signed, ih]
  | inv t rest ih => intro As; simp only [Rational.valueIn, Rational.value, value_signed, ih]

end GATL
