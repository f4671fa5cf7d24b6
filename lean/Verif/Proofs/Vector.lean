import Verif.Props.Lazy
import Verif.Spec.Vector

/-!
# Making vectors
-/

namespace GATL

open Expr Spec

variable {n k : Nat} {τ : Types} {ρ : Env}

theorem vecs_shift {j : Nat} (h : j < 64) : ∀ i ∈ vecs ((1 : Word) <<< j), i.val = j := by
  intro i hi
  rw [mem_vecs] at hi
  simp [BitVec.getLsbD_shiftLeft] at hi
  omega

/-- A component on the basis vector `j`. -/
theorem coord_comp {c : Expr} {vs : List ℝ} {x : ℝ} {j : Nat} (hn : n ≤ 63) (hj : j < n)
    (hc : CoefReads ρ c vs x) :
    let d := mkComp c (.const ((1 : Word) <<< j))
    Known d ∧ Reads ρ n [d] vs [] (Finsupp.single ((1 : Word) <<< j) x) ∧
      (d.coef = .const 0 ∨ d.blade = .const ((1 : Word) <<< j)) := by
  intro d
  have hv := vecs_shift (j := j) (by omega)
  have hk : Known ⟨c, .const ((1 : Word) <<< j)⟩ := ⟨_, rfl, fun i hi => by rw [hv i hi]; omega⟩
  obtain ⟨k1, k2, k3⟩ := mkComp_known (c := c) hk
  refine ⟨k1, ?_, ?_⟩
  · by_cases h0 : c = .const 0
    · subst h0
      obtain ⟨rfl, rfl⟩ := coefReads_zero hc
      have := Reads.cons (ρ := ρ) (n := n) hc (.const 0) (by simp [WellTyped, vecs]) .nil
      simpa [d, mkComp] using this
    · have hd : d = ⟨c, .const ((1 : Word) <<< j)⟩ := by
        have h1 : d.coef = c := k2
        have h2 : d.blade = .const ((1 : Word) <<< j) := k3 h0
        rw [← h1, ← h2]
      rw [hd]
      have := Reads.cons (ρ := ρ) (n := n) hc (.const ((1 : Word) <<< j))
        (fun i hi => by rw [hv i hi]; exact hj) .nil
      simpa [TBlade.bits] using this
  · by_cases h0 : c = .const 0
    · left; exact k2.trans h0
    · right; exact k3 h0

/-- `∑ x_i e_{i+1}`, starting with index `j`. -/
noncomputable def coordSum : Nat → List ℝ → MV ℝ
  | _, [] => 0
  | j, x :: xs => Finsupp.single ((1 : Word) <<< j) x + coordSum (j + 1) xs

theorem before_shift {i j : Nat} (hi : i < j) (hj : j < 64) :
    Before ((1 : Word) <<< i) ((1 : Word) <<< j) := by
  right
  have h1 : ones ((1 : Word) <<< i) = 1 := ones_bit ⟨i, by omega⟩
  have h2 : ones ((1 : Word) <<< j) = 1 := ones_bit ⟨j, hj⟩
  rw [gradeOf_eq, gradeOf_eq, h1, h2]
  refine ⟨rfl, ?_⟩
  rw [one_shift_toNat (by omega), one_shift_toNat (by omega)]
  exact Nat.pow_lt_pow_right (by omega) hi

theorem deduce_reads (hn : n ≤ 63) : ∀ (cs : List Coord) (vss : List (List ℝ)) (xs : List ℝ) (j : Nat),
    cs ≠ [] → j + cs.length = n →
    List.Forall₂ (fun c (p : List ℝ × ℝ) => CoefReads ρ c.coef p.1 p.2) cs (vss.zip xs) →
    vss.length = cs.length → xs.length = cs.length →
    ∃ s, deduceVector n (k + 1) cs = some s ∧ Canonical s ∧
      (IsZero s ∨ ∀ d ∈ s, ∃ i, j ≤ i ∧ i < n ∧ d.blade = .const ((1 : Word) <<< i)) ∧
      Reads ρ n s vss.flatten [] (coordSum j xs)
  | [], _, _, _, h, _, _, _, _ => absurd rfl h
  | [c], vss, xs, j, _, hj, hf, h1, h2 => by
    obtain ⟨vs, rfl⟩ := List.length_eq_one_iff.1 h1
    obtain ⟨x, rfl⟩ := List.length_eq_one_iff.1 h2
    simp only [List.zip_cons_cons, List.zip_nil_right, List.forall₂_cons, List.Forall₂.nil,
      and_true, List.length_cons, List.length_nil] at hf hj
    obtain ⟨a, b, d⟩ := coord_comp (n := n) (j := n - 1) hn (by omega) hf
    have hj' : n - 1 = j := by omega
    refine ⟨_, rfl, canonical_single a, ?_, ?_⟩
    · rcases d with d | d
      · exact .inl ⟨_, rfl, d⟩
      · right
        simp only [List.mem_singleton, forall_eq]
        exact ⟨n - 1, by omega, by omega, d⟩
    · simpa [coordSum, ← hj'] using b
  | c :: c' :: cs, vss, xs, j, _, hj, hf, h1, h2 => by
    rcases vss with _ | ⟨vs, vss⟩
    · simp at h1
    rcases xs with _ | ⟨x, xs⟩
    · simp at h2
    simp only [List.zip_cons_cons, List.forall₂_cons, List.length_cons] at hf hj h1 h2
    obtain ⟨u, hu, hcu, hfu, hru⟩ := deduce_reads hn (c' :: cs) vss xs (j + 1) (by simp)
      (by simp only [List.length_cons]; omega) (by simpa using hf.2) (by simpa using h1)
      (by simpa using h2)
    have hj' : n - ((c' :: cs).length + 1) = j := by simp only [List.length_cons]; omega
    obtain ⟨a, b, d⟩ := coord_comp (n := n) (j := j) hn (by omega) hf.1
    have hfront : IsZero u ∨ (mkComp c.coef (.const ((1 : Word) <<< j))).coef = .const 0 ∨
        ∀ d ∈ u, BeforeC (mkComp c.coef (.const ((1 : Word) <<< j))) d := by
      rcases hfu with h | h
      · exact .inl h
      rcases d with d | d
      · exact .inr (.inl d)
      refine .inr (.inr fun d' hd' => ?_)
      obtain ⟨i, hi, hin, hb⟩ := h d' hd'
      intro x y hx hy
      rw [d] at hx; rw [hb] at hy
      cases hx; cases hy
      exact before_shift (by omega) (by omega)
    obtain ⟨e, he, hce, -⟩ := addC_front (k := k) a hcu hfront
    obtain ⟨-, -, h⟩ := addC_front_eq a hcu hfront he
    have hz : (mkComp c.coef (.const ((1 : Word) <<< j))).coef = .const 0 →
        vs = [] ∧ Finsupp.single ((1 : Word) <<< j) x = 0 := by
      intro h
      have := reads_zero ⟨_, rfl, h⟩ (by simpa using a) b
      exact ⟨this.1, this.2.2⟩
    have hz' : IsZero u → vss.flatten = [] ∧ coordSum (j + 1) xs = 0 := by
      intro h
      have := reads_zero h (canonical_known hcu) hru
      exact ⟨this.1, this.2.2⟩
    have hu' : ¬ IsZero u → ∀ d ∈ u, ∃ i, j ≤ i ∧ i < n ∧ d.blade = .const ((1 : Word) <<< i) := by
      intro h0 d' hd'
      obtain ⟨i, hi, hin, hb⟩ := (hfu.resolve_left h0) d' hd'
      exact ⟨i, by omega, hin, hb⟩
    have hd' : (mkComp c.coef (.const ((1 : Word) <<< j))).coef ≠ .const 0 →
        (mkComp c.coef (.const ((1 : Word) <<< j))).blade = .const ((1 : Word) <<< j) :=
      fun h0 => d.resolve_left h0
    refine ⟨e, ?_, hce, ?_⟩
    · simp only [deduceVector, Option.bind_eq_bind, hu, Option.bind_some, hj']
      exact he
    simp only [List.flatten_cons, coordSum]
    rcases h with ⟨h1, h2, rfl⟩ | ⟨h1, h2, rfl⟩ | ⟨h1, h2, rfl⟩ | ⟨h1, h2, rfl⟩
    · rw [(hz' h2).1, (hz' h2).2, List.append_nil, add_zero]
      exact ⟨.inl ⟨_, rfl, h1⟩, b⟩
    · rw [(hz h1).1, (hz h1).2, List.nil_append, zero_add]
      exact ⟨.inr (hu' h2), hru⟩
    · rw [(hz' h2).1, (hz' h2).2, List.append_nil, add_zero]
      refine ⟨.inr ?_, b⟩
      simp only [List.mem_singleton, forall_eq]
      exact ⟨j, le_rfl, by omega, hd' h1⟩
    · refine ⟨.inr ?_, by simpa using reads_append b hru⟩
      simp only [List.mem_cons, forall_eq_or_imp]
      exact ⟨⟨j, le_rfl, by omega, hd' h1⟩, hu' h2⟩

theorem coordSum_add : ∀ (xs : List ℝ) (j : Nat),
    coordSum j xs = ∑ i : Fin xs.length, xs[i] • e ℝ (j + i)
  | [], j => by simp [coordSum]
  | x :: xs, j => by
    rw [coordSum, coordSum_add xs]
    simp only [List.length_cons]
    rw [Fin.sum_univ_succ]
    simp only [Fin.getElem_fin, Fin.val_zero, List.getElem_cons_zero, add_zero, Fin.val_succ,
      List.getElem_cons_succ]
    congr 1
    · simp [e]
    · exact Finset.sum_congr rfl fun i _ => by rw [show j + 1 + i.val = j + (i.val + 1) by omega]

theorem coordSum_eq (x : Fin n → ℝ) : coordSum 0 (List.ofFn x) = vectorOf x := by
  rw [coordSum_add, vectorOf]
  refine Fintype.sum_equiv (finCongr (List.length_ofFn)) _ _ fun i => ?_
  simp only [Fin.getElem_fin, List.getElem_ofFn, zero_add]
  rfl

/-- The values of a coordinate. -/
def coordValues : Coord → List ℝ
  | .native _ x => [x]
  | .scalar _ _ _ vs => vs

theorem coordReads_coef {f : Bool} {c : Coord} {x : ℝ} (h : CoordReads ρ f c x) :
    CoefReads ρ c.coef (coordValues c) x ∧ c.slots = some (coordValues c) := by
  cases h with
  | native => exact ⟨.stored x, rfl⟩
  | symbolic c x hs hb hd => exact ⟨.symbolic c x hs hb hd, rfl⟩
  | stored => exact ⟨.stored x, rfl⟩

theorem coordSlots_eq {f : Bool} : ∀ (cs : List Coord) (xs : List ℝ), List.Forall₂ (CoordReads ρ f) cs xs →
    coordSlots cs = some (cs.map coordValues).flatten
  | [], _, _ => rfl
  | c :: cs, _, .cons h hs => by
    simp [coordSlots, (coordReads_coef h).2, coordSlots_eq cs _ hs]

theorem typesFit_eq {f : Bool} {cs : List Coord} {xs : List ℝ} (h : List.Forall₂ (CoordReads ρ f) cs xs)
    (hv : (cs.map coordValues).flatten ≠ []) : typesFit cs = true := by
  have key : ∀ (cs : List Coord) (xs : List ℝ), List.Forall₂ (CoordReads ρ f) cs xs →
      (cs.any fun x => x.copied && x.floats) = cs.any Coord.floats ∧
      ((cs.map coordValues).flatten ≠ [] → cs.any Coord.floats = f) ∧
      (cs.all fun
        | .native g _ => g == f
        | _ => true) = true ∧ (cs.any Coord.floats = true → f = true) := by
    intro cs xs h
    induction h with
    | nil => simp
    | @cons c x cs xs hc hs ih =>
      obtain ⟨i1, i2, i3, i4⟩ := ih
      cases hc with
      | native =>
        refine ⟨by rw [List.any_cons, i1, List.any_cons]; rfl, fun _ => ?_, by simp [i3], ?_⟩
        · simp only [List.any_cons, Coord.floats]
          cases f
          · simp only [Bool.false_or]
            by_contra hcon
            exact absurd (i4 (by simpa using hcon)) (by simp)
          · rfl
        · simp only [List.any_cons, Coord.floats]
          cases f
          · simpa using i4
          · simp
      | symbolic c x h1 h2 h3 =>
        refine ⟨by rw [List.any_cons, i1, List.any_cons]; rfl, fun h => ?_, by simp [i3], ?_⟩
        · simpa [Coord.floats] using i2 (by simpa [coordValues] using h)
        · simpa [Coord.floats] using i4
      | stored =>
        refine ⟨by rw [List.any_cons, i1, List.any_cons]; rfl, fun _ => ?_, by simp [i3], ?_⟩
        · simp only [List.any_cons, Coord.floats]
          cases f
          · simp only [Bool.false_or]
            by_contra hcon
            exact absurd (i4 (by simpa using hcon)) (by simp)
          · rfl
        · simp only [List.any_cons, Coord.floats]
          cases f
          · simpa using i4
          · simp
  obtain ⟨k1, k2, k3, -⟩ := key cs xs h
  unfold typesFit
  simp only [k1, k2 hv, beq_self_eq_true, Bool.and_true]
  exact k3

/-- `vector(...)` of a list of coordinates. -/
theorem makeVector_list {f : Bool} (hn : n ≤ 63) (h0 : n ≠ 0) {cs : List Coord} {xs : List ℝ}
    (hl : xs.length = n) (h : List.Forall₂ (CoordReads ρ f) cs xs) :
    ∃ M, makeVector n (k + 1) cs = some M ∧ Canonical M.expr ∧
      Reads ρ n M.expr M.values M.bitsets (coordSum 0 xs) := by
  have hl' : cs.length = n := h.length_eq.trans hl
  have hf : List.Forall₂ (fun c (p : List ℝ × ℝ) => CoefReads ρ c.coef p.1 p.2) cs
      ((cs.map coordValues).zip xs) := by
    clear hl hl'
    induction h with
    | nil => exact .nil
    | cons hc _ ih => exact .cons (coordReads_coef hc).1 ih
  obtain ⟨s, hs, hc, -, hr⟩ := deduce_reads (k := k) hn cs _ _ 0 (by rintro rfl; simp at hl'; omega)
    (by omega) hf (by simp) (by omega)
  have hcount := (Props.reads_counts hr).1
  simp only [makeVector, if_pos hl', hs, Option.bind_eq_bind, Option.bind_some]
  by_cases hz : countValuesC s = 0
  · rw [hz, List.length_eq_zero_iff] at hcount
    rw [hcount] at hr
    rw [if_pos hz]
    exact ⟨_, rfl, hc, hr⟩
  · rw [if_neg hz, coordSlots_eq cs _ h, Option.bind_some,
      if_pos ⟨hcount, typesFit_eq h (by rw [← List.length_pos_iff_ne_nil]; omega)⟩]
    exact ⟨_, rfl, hc, hr⟩

/-- `vector(...)` of coordinates that are all known at compile time, `const` or not. -/
theorem makeVector_symbolic (hn : n ≤ 63) (h0 : n ≠ 0) {cs : List Coord} {xs : List ℝ}
    (hl : xs.length = n) (h : List.Forall₂ (fun c x => CoefReads ρ c.coef [] x) cs xs) :
    ∃ M, makeVector n (k + 1) cs = some M ∧ Canonical M.expr ∧
      Reads ρ n M.expr M.values M.bitsets (coordSum 0 xs) := by
  have hl' : cs.length = n := h.length_eq.trans hl
  have hf : List.Forall₂ (fun c (p : List ℝ × ℝ) => CoefReads ρ c.coef p.1 p.2) cs
      ((cs.map fun _ => []).zip xs) := by
    clear hl hl'
    induction h with
    | nil => exact .nil
    | cons hc _ ih => exact .cons hc ih
  obtain ⟨s, hs, hc, -, hr⟩ := deduce_reads (k := k) hn cs _ _ 0 (by rintro rfl; simp at hl'; omega)
    (by omega) hf (by simp) (by omega)
  have he : (cs.map fun _ => ([] : List ℝ)).flatten = [] := by
    rw [List.flatten_eq_nil_iff]; simp
  rw [he] at hr
  have hcount := (Props.reads_counts hr).1
  simp only [makeVector, if_pos hl', hs, Option.bind_eq_bind, Option.bind_some]
  rw [if_pos (by simpa using hcount.symm)]
  exact ⟨_, rfl, hc, hr⟩

end GATL
