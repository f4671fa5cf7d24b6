import Verif.Model.BasisBlade
import Verif.Proofs.Canonical
import Verif.Proofs.Grades
import Verif.Proofs.Versor
import Verif.Proofs.Wick
import Verif.Spec.Lazy
import Verif.Spec.Spaces

/-!
# Types of scaled basis blades

**C72** (`scaled_basis_blade_t`, `unit_basis_blade_t`, `scaled_constant_basis_blade_t`,
`unit_constant_basis_blade_t`).
-/

namespace GATL.Props

open Expr Spec

variable {ρ : Env}

theorem index_bits {is : List Nat} (hd : is.Nodup) (h : ∀ i ∈ is, 1 ≤ i ∧ i ≤ 63) :
    ∃ w, indexBlade is = some w ∧ ∀ j < 64, w.getLsbD j = true ↔ j + 1 ∈ is := by
  induction is with
  | nil => exact ⟨0, rfl, by simp⟩
  | cons i is ih =>
    obtain ⟨w, h1, h2⟩ := ih (List.nodup_cons.1 hd).2 fun j hj => h j (by simp [hj])
    have hi := h i (by simp)
    have hz : bit (i - 1) &&& w = 0 := by
      apply BitVec.eq_of_getLsbD_eq
      intro j hj
      rw [BitVec.getLsbD_and, getLsbD_bit _ _ (by omega), zero_getLsbD rfl]
      by_contra hc
      simp only [Bool.not_eq_false, Bool.and_eq_true, decide_eq_true_eq] at hc
      have := (h2 j hj).1 hc.2
      rw [hc.1, Nat.sub_add_cancel hi.1] at this
      exact (List.nodup_cons.1 hd).1 this
    refine ⟨bit (i - 1) + w, ?_, ?_⟩
    · rw [indexBlade, if_pos ⟨hi.1, by omega⟩, h1]
      rfl
    · intro j hj
      rw [BitVec.add_eq_or_of_and_eq_zero _ _ hz, BitVec.getLsbD_or, getLsbD_bit _ _ (by omega), Bool.or_eq_true, h2 j hj,
        List.mem_cons, decide_eq_true_eq]
      exact or_congr (by omega) Iff.rfl

theorem single_outer {is : List Nat} (hd : is.Pairwise (· < ·)) (h : ∀ i ∈ is, 1 ≤ i ∧ i ≤ 63) {w : Word}
    (hw : indexBlade is = some w) : outerOf (is.map fun i => e ℝ (i - 1)) = Finsupp.single w 1 := by
  induction is generalizing w with
  | nil => cases hw; rfl
  | cons i is ih =>
    have hd' := List.pairwise_cons.1 hd
    have hn : (i :: is).Nodup := hd.imp (fun h => by omega)
    obtain ⟨w', h1, h2⟩ := index_bits (List.nodup_cons.1 hn).2 fun j hj => h j (by simp [hj])
    obtain ⟨w'', h3, h4⟩ := index_bits hn h
    have hi := h i (by simp)
    rw [hw] at h3
    cases h3
    have hstep := ih hd'.2 (fun j hj => h j (by simp [hj])) h1
    unfold outerOf at hstep ⊢
    rw [List.map_cons, List.foldr_cons, hstep]
    have hlow : ∀ j : Nat, j ≤ i - 1 → w'.getLsbD j = false := by
      intro j hj
      rw [← Bool.not_eq_true]
      intro hc
      have := hd'.1 _ ((h2 j (by omega)).1 hc)
      omega
    have := ev_op_low (K := ℝ) (v := ⟨i - 1, by omega⟩) hlow
    refine this.trans ?_
    congr 1
    rw [indexBlade, if_pos ⟨hi.1, by omega⟩, h1] at hw
    have hz : bit (i - 1) &&& w' = 0 := by
      apply BitVec.eq_of_getLsbD_eq
      intro j hj
      rw [BitVec.getLsbD_and, getLsbD_bit _ _ (by omega), zero_getLsbD rfl]
      by_contra hc
      simp only [Bool.not_eq_false, Bool.and_eq_true, decide_eq_true_eq] at hc
      rw [hlow j (by omega)] at hc
      exact absurd hc.2 (by simp)
    rw [← or_eq_xor hz, ← BitVec.add_eq_or_of_and_eq_zero _ _ hz]
    exact Option.some_inj.1 hw

/-- **C72** An object of the type `scaled_constant_basis_blade_t<K, i1, ..., ik>` with increasing indices is the
multiple of `e(i1) ^ ... ^ e(ik)` with the stored coefficient; an object of the type
`unit_constant_basis_blade_t<i1, ..., ik>` is `e(i1) ^ ... ^ e(ik)`.

Missing: indices in another order (`C72_order_is_false`, `C72_repeated_is_false`). -/
theorem C72_constant_partial {n : Nat} {is : List Nat} (hd : is.Pairwise (· < ·)) (h : ∀ i ∈ is, 1 ≤ i ∧ i ≤ n)
    (hn : n ≤ 63) (x : ℝ) :
    (∃ s, constantBasisBladeType .stored is = some s ∧
      Reads ρ n s [x] [] (x • outerOf (is.map fun i => e ℝ (i - 1)))) ∧
    ∃ s, constantBasisBladeType (.const 1) is = some s ∧
      Reads ρ n s [] [] (outerOf (is.map fun i => e ℝ (i - 1))) := by
  have h' : ∀ i ∈ is, 1 ≤ i ∧ i ≤ 63 := fun i hi => ⟨(h i hi).1, (h i hi).2.trans hn⟩
  obtain ⟨w, h1, h2⟩ := index_bits (hd.imp (fun h => by omega)) h'
  rw [single_outer hd h' h1]
  have hw : ∀ i ∈ vecs w, i.val < n := by
    intro i hi
    have := (h _ ((h2 i i.2).1 (by simpa [vecs] using hi))).2
    omega
  have hm : ∀ c, c ≠ .const 0 → mkComp c (.const w) = ⟨c, .const w⟩ := by
    intro c hc
    obtain ⟨-, k1, k2⟩ := mkComp_known (c := c) (d := ⟨.stored, .const w⟩)
      ⟨w, rfl, fun i hi => lt_of_lt_of_le (hw i hi) hn⟩
    exact congrArg₂ Comp.mk k1 (k2 hc)
  refine ⟨⟨[⟨.stored, .const w⟩], ?_, ?_⟩, [⟨.const 1, .const w⟩], ?_, ?_⟩
  · simp [constantBasisBladeType, h1, hm]
  · have := Reads.cons (n := n) (vs := [x]) (ws := []) (.stored x) (.const (ρ := ρ) w) hw .nil
    simpa [TBlade.bits] using this
  · simp [constantBasisBladeType, h1, hm]
  · have := Reads.cons (n := n) (vs := []) (ws := []) (x := 1) (.symbolic (.const 1) _ rfl (by constructor) (by simp [Denotes, den])) (.const (ρ := ρ) w) hw .nil
    simpa [TBlade.bits] using this

theorem gradeRange_bits {first last : Nat} (h : first ≤ last) (hl : last < 64) :
    ∃ G, gradeRange first last = some G ∧ ∀ j < 64, G.getLsbD j = true ↔ first ≤ j ∧ j ≤ last := by
  refine ⟨_, if_pos ⟨by omega, hl⟩, ?_⟩
  have e1 := one_shift_toNat (i := first) (by omega)
  have e2 := one_shift_toNat (i := last) (by omega)
  have p0 : 2 ^ first ≤ 2 ^ last := Nat.pow_le_pow_right (by norm_num) h
  have p1 : 2 ^ last ≤ 2 ^ 63 := Nat.pow_le_pow_right (by norm_num) (by omega)
  have p2 : 1 ≤ 2 ^ first := Nat.one_le_two_pow
  have one : (1 : Word).toNat = 1 := rfl
  have e3 : (((1 : Word) <<< last) - 1).toNat = 2 ^ last - 1 := by
    rw [BitVec.toNat_sub_of_le (by rw [BitVec.le_def, e2, one]; omega), e2, one]
  have e4 : (((1 : Word) <<< first) - 1).toNat = 2 ^ first - 1 := by
    rw [BitVec.toNat_sub_of_le (by rw [BitVec.le_def, e1, one]; omega), e1, one]
  have e5 : (((1 : Word) <<< last) ||| (((1 : Word) <<< last) - 1)).toNat = 2 ^ (last + 1) - 1 := by
    have := Nat.two_pow_add_eq_or_of_lt (i := last) (b := 2 ^ last - 1) (by omega) 1
    rw [Nat.mul_one] at this
    rw [BitVec.toNat_or, e2, e3, ← this, Nat.pow_succ]
    omega
  have e6 : ((((1 : Word) <<< last) ||| (((1 : Word) <<< last) - 1)) - (((1 : Word) <<< first) - 1)).toNat =
      (2 ^ (last + 1 - first) - 1) * 2 ^ first := by
    rw [BitVec.toNat_sub_of_le (by rw [BitVec.le_def, e5, e4]; omega), e5, e4, Nat.sub_mul, ← Nat.pow_add,
      Nat.sub_add_cancel (by omega)]
    omega
  intro j hj
  rw [BitVec.getLsbD, e6, Nat.testBit_mul_two_pow, Nat.testBit_two_pow_sub_one]
  simp only [Bool.and_eq_true, decide_eq_true_eq]
  omega

theorem blade_type {first last n : Nat} (h : first ≤ last) (hn : last ≤ n) (h63 : n ≤ 63) {c : Expr}
    (hc : c ≠ .const 0) :
    ∃ s, basisBladeType c first last = some s ∧
      (∀ {vs : List ℝ} {x : ℝ} {w : Word}, CoefReads ρ c vs x → (∀ i ∈ vecs w, i.val < n) → first ≤ gradeOf w →
        gradeOf w ≤ last → ∃ ws, Reads ρ n s vs ws (Finsupp.single w x)) ∧
      ∀ {vs ws m}, Reads ρ n s vs ws m → ∃ (x : ℝ) (w : Word), CoefReads ρ c vs x ∧ m = Finsupp.single w x ∧
        (∀ i ∈ vecs w, i.val < n) ∧ (x ≠ 0 → first ≤ gradeOf w ∧ gradeOf w ≤ last) := by
  obtain ⟨G, h1, h2⟩ := gradeRange_bits h (by omega : last < 64)
  have hG : ∀ g : Fin 64, g ∈ vecs G ↔ first ≤ g.val ∧ g.val ≤ last := by
    intro g
    rw [← h2 g g.2]; simp [vecs]
  have h0 : G ≠ 0 := by
    rintro rfl
    have := (hG ⟨first, by omega⟩).2 ⟨le_rfl, h⟩
    simp [vecs] at this
  by_cases hl : G = 1
  · subst hl
    have hf : first = 0 ∧ last = 0 := by
      have a1 := (hG ⟨first, by omega⟩).2 ⟨le_rfl, h⟩
      have a2 := (hG ⟨last, by omega⟩).2 ⟨h, le_rfl⟩
      simp only [vecs, Finset.mem_filter, Finset.mem_univ, true_and] at a1 a2
      have k : ∀ i : Nat, i < 64 → (1 : Word).getLsbD i = true → i = 0 := by decide
      exact ⟨k _ (by omega) a1, k _ (by omega) a2⟩
    have ht : basisBladeType c first last = some [⟨c, .const 0⟩] := by
      have hz : Blade.grades (.const 0) ≠ 0 := by decide
      have hm : mkComp c (.const 0) = ⟨c, .const 0⟩ := by simp only [mkComp, hz, hc, or_self, if_false]
      rw [basisBladeType, h1, ← hm]
      rfl
    refine ⟨_, ht, ?_, ?_⟩
    · intro vs x w hx hw _ hg
      rw [hf.2, Nat.le_zero, gradeOf_eq, ones_eq_zero] at hg
      subst hg
      exact ⟨[], by simpa [TBlade.bits] using Reads.cons (n := n) hx (.const (ρ := ρ) 0) hw .nil⟩
    · intro vs ws m hr
      cases hr with
      | cons hx hb hw hs =>
        cases hs
        cases hb
        refine ⟨_, 0, by simpa using hx, by simp [TBlade.bits], hw, fun _ => ?_⟩
        rw [gradeOf_eq, ones_eq_zero.2 rfl]
        omega
  · have ht : basisBladeType c first last = some [⟨c, .dyn G .storedBits⟩] := by
      have hz : Blade.grades (.dyn G .storedBits) ≠ 0 := h0
      have hm : mkComp c (.dyn G .storedBits) = ⟨c, .dyn G .storedBits⟩ := by
        simp only [mkComp, hz, hc, or_self, if_false]
      have hd : mkDynBlade G .storedBits = some (.dyn G .storedBits) := by
        simp only [mkDynBlade, hl, if_false]
      rw [basisBladeType, h1, ← hm, Option.bind_eq_bind, Option.bind_some, hd]
      rfl
    refine ⟨_, ht, ?_, ?_⟩
    · intro vs x w hx hw hg hg'
      have ht : WellTyped n (x, TBlade.dyn G w) := by
        refine ⟨?_, hw, fun _ => ⟨⟨gradeOf w, by omega⟩, (hG _).2 ⟨hg, hg'⟩, rfl⟩⟩
        intro g hg
        have := (hG g).1 hg
        omega
      exact ⟨[w], by simpa [TBlade.bits] using Reads.cons (n := n) hx (.stored (ρ := ρ) G w) ht .nil⟩
    · intro vs ws m hr
      cases hr with
      | @cons _ _ _ _ _ _ _ x t _ hx hb hw hs =>
        cases hs
        cases hb with
        | stored _ w =>
          refine ⟨x, w, by simpa using hx, by simp [TBlade.bits], hw.2.1, fun hx0 => ?_⟩
          obtain ⟨g, hg, e⟩ := hw.2.2 hx0
          rw [← e]
          exact (hG g).1 hg
        | symbolic _ _ _ hs => simp [hasStored] at hs

/-- **C72** An object of the type `scaled_basis_blade_t<K, first, last>` can hold every multiple of every basis
blade whose grade is between `first` and `last`, and nothing else; an object of the type
`unit_basis_blade_t<first, last>` can hold every such basis blade, and nothing else. -/
theorem C72_grades {first last n : Nat} (h : first ≤ last) (hn : last ≤ n) (h63 : n ≤ 63) :
    (∃ s, basisBladeType .stored first last = some s ∧
      (∀ (x : ℝ) (w : Word), (∀ i ∈ vecs w, i.val < n) → first ≤ gradeOf w → gradeOf w ≤ last →
        ∃ ws, Reads ρ n s [x] ws (Finsupp.single w x)) ∧
      ∀ vs ws m, Reads ρ n s vs ws m → m ≠ 0 → ∃ (x : ℝ) (w : Word), vs = [x] ∧ m = Finsupp.single w x ∧
        (∀ i ∈ vecs w, i.val < n) ∧ first ≤ gradeOf w ∧ gradeOf w ≤ last) ∧
    ∃ s, basisBladeType (.const 1) first last = some s ∧
      (∀ w : Word, (∀ i ∈ vecs w, i.val < n) → first ≤ gradeOf w → gradeOf w ≤ last →
        ∃ ws, Reads ρ n s [] ws (Finsupp.single w 1)) ∧
      ∀ vs ws m, Reads ρ n s vs ws m → ∃ w : Word, vs = [] ∧ m = Finsupp.single w 1 ∧
        (∀ i ∈ vecs w, i.val < n) ∧ first ≤ gradeOf w ∧ gradeOf w ≤ last := by
  obtain ⟨s1, e1, f1, g1⟩ := blade_type (ρ := ρ) h hn h63 (c := .stored) (by simp)
  obtain ⟨s2, e2, f2, g2⟩ := blade_type (ρ := ρ) h hn h63 (c := .const 1) (by simp)
  have r1 : CoefReads ρ (.const 1) [] 1 := .symbolic (.const 1) _ rfl (by constructor) (by simp [Denotes, den])
  refine ⟨⟨s1, e1, fun x w => f1 (.stored x), ?_⟩, s2, e2, fun w => f2 r1, ?_⟩
  · intro vs ws m hr hm
    obtain ⟨x, w, hx, rfl, hw, hg⟩ := g1 hr
    refine ⟨x, w, ?_, rfl, hw, hg (by rintro rfl; exact hm (by simp))⟩
    cases hx with
    | stored => rfl
    | symbolic _ _ hs => simp [hasStored] at hs
  · intro vs ws m hr
    obtain ⟨x, w, hx, rfl, hw, hg⟩ := g2 hr
    cases hx with
    | symbolic _ _ hs hb hd =>
      have : x = 1 := by simpa [Denotes, den, eq_comm] using hd
      subst this
      exact ⟨w, rfl, rfl, hw, hg one_ne_zero⟩

/-- **C72** is false for indices in another order: `unit_constant_basis_blade_t<2, 1>` is `e1 ^ e2`, not
`e2 ^ e1`. -/
theorem C72_order_is_false :
    ∃ s, constantBasisBladeType (.const 1) [2, 1] = some s ∧ Reads ρ 2 s [] [] (outerOf [e ℝ 0, e ℝ 1]) ∧
      (outerOf [e ℝ 0, e ℝ 1] : MV ℝ) ≠ outerOf [e ℝ 1, e ℝ 0] := by
  obtain ⟨-, s, h1, h2⟩ := C72_constant_partial (ρ := ρ) (n := 2) (is := [1, 2]) (by simp) (by simp) (by norm_num) 0
  refine ⟨s, ?_, h2, ?_⟩
  · rw [← h1]; rfl
  · have hx : (outerOf [e ℝ 0, e ℝ 1] : MV ℝ) = Finsupp.single 3 1 :=
      single_outer (is := [1, 2]) (by simp) (by simp) rfl
    have h0 : Homogeneous 1 (e ℝ 0) := homog_single _ (by decide +kernel)
    have h1 : Homogeneous 1 (e ℝ 1) := homog_single _ (by decide +kernel)
    have hy : (outerOf [e ℝ 1, e ℝ 0] : MV ℝ) = - outerOf [e ℝ 0, e ℝ 1] := by
      simp only [outerOf, List.foldr_cons, List.foldr_nil, op_scalar_right, one_smul]
      exact op_vec_comm h1 h0
    rw [hy, hx]
    intro h
    have := DFunLike.congr_fun h 3
    simp at this
    norm_num at this

/-- **C72** is false for a repeated index: `unit_constant_basis_blade_t<1, 1>` is `e2`, although `e1 ^ e1` is
zero. -/
theorem C72_repeated_is_false :
    ∃ s, constantBasisBladeType (.const 1) [1, 1] = some s ∧ Reads ρ 2 s [] [] (e ℝ 1) ∧ (e ℝ 1 : MV ℝ) ≠ 0 ∧
      (outerOf [e ℝ 0, e ℝ 0] : MV ℝ) = 0 := by
  obtain ⟨-, s, h1, h2⟩ := C72_constant_partial (ρ := ρ) (n := 2) (is := [2]) (by simp) (by simp) (by norm_num) 0
  refine ⟨s, ?_, ?_, ?_, ?_⟩
  · rw [← h1]; rfl
  · have : outerOf [e ℝ 1] = e ℝ 1 := by
      simp only [outerOf, List.foldr_cons, List.foldr_nil, op_scalar_right, one_smul]
    rw [← this]
    exact h2
  · simp [e]
  · have h0 : Homogeneous 1 (e ℝ 0) := homog_single _ (by decide +kernel)
    simp only [outerOf, List.foldr_cons, List.foldr_nil, op_scalar_right, one_smul]
    exact op_vec_self h0

/-- **C72** is false when the range of grades is empty: `scaled_basis_blade_t<K, 2, 0>` is a type of objects of
every grade but the grade 0. -/
theorem C72_empty_is_false (x : ℝ) (i : Fin 63) :
    ∃ s, basisBladeType .stored 2 0 = some s ∧ Reads ρ 63 s [x] [(1 : Word) <<< i.val] (x • e ℝ i) := by
  refine ⟨[⟨.stored, .dyn (-2) .storedBits⟩], by decide +kernel, ?_⟩
  have ht : WellTyped 63 (x, TBlade.dyn (-2) ((1 : Word) <<< i.val)) := by
    refine ⟨fun g _ => by omega, ?_, fun _ => ⟨1, by decide +kernel, ?_⟩⟩
    · intro j hj
      have := getLsbD_bit (i := i) (j := j) (by omega)
      simp only [vecs, Finset.mem_filter, Finset.mem_univ, true_and] at hj
      have hj := of_decide_eq_true (this.symm.trans hj)
      omega
    · rw [gradeOf_eq]
      exact (show ∀ i : Fin 63, 1 = ones ((1 : Word) <<< i.val) by decide +kernel) i
  have := Reads.cons (n := 63) (.stored x) (.stored (ρ := ρ) (-2) ((1 : Word) <<< i.val)) ht .nil
  simpa [TBlade.bits, e] using this

-- the blade `e1 ^ e3 ^ e4` of the library's test
example : [1, 3, 4].Pairwise (· < ·) ∧ (∀ i ∈ [1, 3, 4], 1 ≤ i ∧ i ≤ 4) ∧
    constantBasisBladeType (.const 1) [1, 3, 4] = some [⟨.const 1, .const 0b1101⟩] := by
  refine ⟨by simp, by simp, by decide +kernel⟩

-- blades of grades 1 to 3
example : basisBladeType .stored 1 3 = some [⟨.stored, .dyn 0b1110 .storedBits⟩] := by decide +kernel

end GATL.Props
