import Verif.Proofs.Eventually
import Verif.Proofs.Metric

/-!
# Products of basis blades compile
-/

namespace GATL.Total

open Expr Spec

variable {N dims : Nat}

/-- A small number: absolute value at most `m`. -/
theorem ev_add {x y : Int} {m : Nat} (hm : m < B) (h : (x + y).natAbs ≤ m) : Ev (fun k => simp k .add (.const x) (.const y)) (.const (x + y)) :=
  limit_iff.1 (limit_add_const (by omega))

theorem ev_mul {x y : Int} {m : Nat} (hm : m < B) (h : (x * y).natAbs ≤ m) : Ev (fun k => simp k .mul (.const x) (.const y)) (.const (x * y)) :=
  limit_iff.1 (limit_mul_const (by omega))

theorem sign_small (a b : Word) : (reorderingSign a b).natAbs ≤ 1 := by
  unfold reorderingSign
  split <;> simp

theorem fits (hN : N ≤ dims) (hd : dims ≤ 63) {a b : Word} (ha : InSpace N a) (hb : InSpace N b) :
    gradesFit dims (.const a) (.const b) = true := by
  have h1 := inSpace_ones (by omega) ha
  have h2 := inSpace_ones (by omega) hb
  unfold gradesFit safeRshift
  rw [decide_eq_true_eq]
  split
  · apply BitVec.eq_of_getLsbD_eq
    intro i hi
    rw [BitVec.getLsbD_ushiftRight, BitVec.getLsbD_or]
    show ((bit (ones a)).getLsbD _ || (bit (ones b)).getLsbD _) = _
    rw [getLsbD_bit _ _ (by omega), getLsbD_bit _ _ (by omega)]
    simp
    omega
  · rfl

theorem grade_inSpace (hd : N ≤ 62) {a : Word} (ha : InSpace N a) : InSpace (N + 1) (Blade.const a).grades := by
  have h1 := inSpace_ones (by omega) ha
  intro i hi
  change (bit (ones a)).getLsbD i = true at hi
  rw [getLsbD_bit _ _ (by omega)] at hi
  simp at hi
  omega

theorem InSpace.indexed (hd : N ≤ 63) {a : Word} (ha : InSpace N a) : Indexed a := by
  intro i hi
  have := ha i (mem_vecs.1 hi)
  omega

theorem InSpace.le {n m : Nat} (h : n ≤ m) {a : Word} (ha : InSpace n a) : InSpace m a := fun i hi => (ha i hi).trans_le h

/-- The result of a mapping. -/
theorem comp_sign {t x : Expr} {b : Blade} {w : Word} (hb : b = .const w) (hw : Indexed w) (ht : IsBool t) {v : Int} (hx : x = .const v)
    (hv : v.natAbs ≤ 1) :
    (∃ y : Int, (mkComp (mkIfElse t x (.const 0)) b).coef = .const y ∧ y.natAbs ≤ 1) ∧ Known (mkComp (mkIfElse t x (.const 0)) b) := by
  subst hb hx
  obtain ⟨h1, h2, -⟩ := mkComp_known (c := mkIfElse t (.const v) (.const 0)) (d := ⟨.const 0, .const w⟩) ⟨w, rfl, hw⟩
  refine ⟨?_, h1⟩
  rw [h2]
  obtain ⟨_ | _, rfl⟩ := ht
  · exact ⟨0, rfl, by simp⟩
  · exact ⟨v, rfl, hv⟩

theorem ext_sign (hd : N ≤ 62) : SignMapping N (extMapping N) := by
  intro a b ha hb
  have hoa := ones_le a
  have hob := ones_le b
  obtain ⟨G, hG, -⟩ := extGrades_spec N (by omega) (Blade.const b).grades 65 (Blade.const a).grades
    (InSpace.le (by omega) (grade_inSpace hd ha)) (by have := ones_le (Blade.const a).grades; omega)
  obtain ⟨w, ew, hw⟩ := candidateBlade_const (dims := N) (G := G) (r := a ||| b) (by omega)
    (indexed_of (InSpace.indexed (by omega) ha) (InSpace.indexed (by omega) hb) (by intro i hi; simpa using hi))
  refine ⟨_, ?_, comp_sign (t := if G ≠ 0 then mkEqual (.const ((ones a : Int) + ones b)) (.const (ones (a ||| b))) else .cbool false)
    ew hw ?_ (x := mkReorderingSign (.cbits a) (.cbits b)) rfl (sign_small a b)⟩
  · refine Ev.congr (f := fun k => simp k .add (.const (ones a)) (.const (ones b)) >>= fun sum =>
      some [mkComp (mkIfElse (if G ≠ 0 then mkEqual sum (.const (ones (a ||| b))) else .cbool false)
        (mkReorderingSign (.cbits a) (.cbits b)) (.const 0)) (candidateBlade N G (.cbits (a ||| b)))])
      ((ev_add (m := 128) (by norm_num) (by omega)).bind (Ev.pure _)) fun k => ?_
    unfold extMapping
    rw [if_pos (fits le_rfl (by omega) ha hb), hG]
    rfl
  · split
    · exact mkEqual_const _ _
    · exact ⟨_, rfl⟩

theorem reg_sign (hd : N ≤ 62) : SignMapping N (regMapping N) := by
  intro a b ha hb
  have hoa := ones_le a
  have hob := ones_le b
  have hoc := ones_le (a &&& b)
  obtain ⟨G, hG, -⟩ := regGrades_spec N 65 (by omega) hd (Blade.const b).grades (grade_inSpace hd hb) 65 (Blade.const a).grades
    (grade_inSpace hd ha) (by have := ones_le (Blade.const a).grades; omega)
  obtain ⟨w, ew, hw⟩ := candidateBlade_const (dims := N) (G := G) (r := a &&& b) (by omega)
    (indexed_of (InSpace.indexed (by omega) ha) (InSpace.indexed (by omega) hb) (by intro i hi; simp at hi; exact .inl hi.1))
  refine ⟨_, ?_, comp_sign (t := if G ≠ 0 then mkEqual (.const (((ones a : Int) + ones b) + (-1) * ones (a &&& b))) (.const N) else .cbool false)
    ew hw ?_ (x := mkReorderingSign (.cbits (a ^^^ (a &&& b))) (.cbits (b ^^^ (a &&& b)))) rfl (sign_small _ _)⟩
  · refine Ev.congr (f := fun k => simp k .add (.const (ones a)) (.const (ones b)) >>= fun sum =>
      simp k .mul (.const (-1)) (.const (ones (a &&& b))) >>= fun neg => simp k .add sum neg >>= fun sum' =>
      some [mkComp (mkIfElse (if G ≠ 0 then mkEqual sum' (.const N) else .cbool false)
        (mkReorderingSign (.cbits (a ^^^ (a &&& b))) (.cbits (b ^^^ (a &&& b)))) (.const 0)) (candidateBlade N G (.cbits (a &&& b)))])
      ((ev_add (m := 128) (by norm_num) (by omega)).bind ((ev_mul (m := 64) (by norm_num) (by omega)).bind
        ((ev_add (m := 192) (by norm_num) (by omega)).bind (Ev.pure _)))) fun k => ?_
    unfold regMapping
    rw [if_pos (fits le_rfl (by omega) ha hb), hG]
    rfl
  · split
    · exact mkEqual_const _ _
    · exact ⟨_, rfl⟩

theorem ev_diff {x y : Int} (hx : x.natAbs ≤ 64) (hy : y.natAbs ≤ 64) : Ev (fun k => gradeDiff k (.const x) (.const y)) (.const (y + -1 * x)) :=
  (ev_mul (m := 64) (by norm_num) (by omega)).bind (ev_add (m := 128) (by norm_num) (by omega))

theorem ev_valid (g : GradedProduct) {l r s : Int} (hl : l.natAbs ≤ 64) (hr : r.natAbs ≤ 64) :
    ∃ t, Ev (fun k => mkValidGrades k g (.const l) (.const r) (.const s)) t ∧ IsBool t := by
  have h1 := ev_diff hl hr
  have h2 := ev_diff hr hl
  have key : ∃ t, Ev (fun k => mkValidGrades k g (.const l) (.const r) (.const s)) t := by
    cases g
    · exact ⟨_, Ev.pure _⟩
    · exact ⟨_, h1.bind (Ev.pure _)⟩
    · exact ⟨_, h2.bind (Ev.pure _)⟩
    · exact ⟨_, h1.bind (h2.bind (Ev.pure _))⟩
    · exact ⟨_, h1.bind (h2.bind (Ev.pure _))⟩
    · exact ⟨_, Ev.pure _⟩
  obtain ⟨t, ht⟩ := key
  exact ⟨t, ht, ht.fact fun k y h => mkValidGrades_bool g (n := k) h⟩

theorem orth_sign (hd : N ≤ 62) (hN : N ≤ dims) (h63 : dims ≤ 63) {f : Expr → Expr}
    (hf : ∀ b, ∃ x : Int, f (.cbits b) = .const x ∧ x.natAbs ≤ 1) (g : GradedProduct) :
    SignMapping N (orthMapping dims f g) := by
  intro a b ha hb
  have hoa := ones_le a
  have hob := ones_le b
  obtain ⟨G, hG, -⟩ := gradedGrades_spec dims h63 g (Blade.const a).grades (Blade.const b).grades
    (InSpace.le (by omega) (grade_inSpace hd ha)) (InSpace.le (by omega) (grade_inSpace hd hb))
  obtain ⟨w, ew, hw⟩ := candidateBlade_const (dims := dims) (G := G) (r := a ^^^ b) h63
    (indexed_of (InSpace.indexed (by omega) ha) (InSpace.indexed (by omega) hb) (by
        intro i hi
        simp only [BitVec.getLsbD_xor] at hi
        cases h1 : a.getLsbD i <;> cases h2 : b.getLsbD i <;> simp_all))
  obtain ⟨x, ex, hx⟩ := hf (a &&& b)
  obtain ⟨t, ht, hbt⟩ := ev_valid g (l := ones a) (r := ones b) (s := ones (a ^^^ b)) (by omega) (by omega)
  have hs : (reorderingSign a b * x).natAbs ≤ 1 := by
    rw [Int.natAbs_mul]
    exact Nat.mul_le_mul (sign_small a b) hx
  refine ⟨_, ?_, comp_sign (t := if G ≠ 0 then t else .cbool false)
    ew hw ?_ (x := .const (reorderingSign a b * x)) rfl hs⟩
  · refine Ev.congr (f := fun k => mkValidGrades k g (.const (ones a)) (.const (ones b)) (.const (ones (a ^^^ b))) >>= fun valid =>
      simp k .mul (.const (reorderingSign a b)) (.const x) >>= fun coef =>
      some [mkComp (mkIfElse (if G ≠ 0 then valid else .cbool false) coef (.const 0)) (candidateBlade dims G (.cbits (a ^^^ b)))])
      (ht.bind ((ev_mul (m := 1) (by norm_num) hs).bind (Ev.pure _))) fun k => ?_
    unfold orthMapping
    rw [if_pos (fits hN (by omega) ha hb), hG]
    dsimp only
    rw [show mkAnd (Blade.const a).bits (Blade.const b).bits = .cbits (a &&& b) from rfl, ex]
    rfl
  · split
    · exact hbt
    · exact ⟨_, rfl⟩

theorem signedFactor_small (P Q R : Nat) (b : Word) : ∃ x : Int, mkSignedFactor P Q R (.cbits b) = .const x ∧ x.natAbs ≤ 1 := by
  have key : ∀ t u : Expr, IsBool t → IsBool u →
      ∃ x : Int, mkIfElse t (mkIfElse u (.const 1) (.const (-1))) (.const 0) = .const x ∧ x.natAbs ≤ 1 := by
    rintro _ _ ⟨_ | _, rfl⟩ ⟨_ | _, rfl⟩
    · exact ⟨0, rfl, by simp⟩
    · exact ⟨0, rfl, by simp⟩
    · exact ⟨-1, rfl, by simp⟩
    · exact ⟨1, rfl, by simp⟩
  exact key _ _ (mkEqual_cbits _ _) (mkEqual_const _ _)

/-! ## Sign changes -/

theorem minus_total {D : Nat} (hD : D < B) (pattern : Word) (s : CSum) : ∀ w : Nat, Canonical s → Weighs D s w → w < B →
    ∃ e, Ev (fun k => gradedMinusC k pattern s) e ∧ Canonical e ∧ Weighs D e w := by
  have hcomp : ∀ (c : Comp) (w : Nat), Known c → PW D c.coef w → w < B →
      ∃ c', Ev (fun k => gradedMinusComp k pattern c) c' ∧ Known c' ∧ PW D c'.coef w := by
    intro c w hk hp hw
    obtain ⟨b, eb, hb⟩ := id hk
    obtain ⟨x, hx, px⟩ := PW.mul (D := 0) (u := 1) (by omega) (PW.const 0 (-1)) hp (by omega)
    rw [one_mul, Nat.zero_add] at px
    refine ⟨if pattern &&& ((1 : Word) <<< ones b) = 0 then c else mkComp x c.blade, ?_, ?_⟩
    · refine hx.bind ?_
      rw [eb]
      exact Ev.pure _
    · split
      · exact ⟨hk, hp⟩
      · exact ⟨(mkComp_known hk).1, px.mkComp _⟩
  induction s with
  | nil => intro w h; exact absurd rfl h.1
  | cons c cs ih =>
    intro w hs hw hB
    obtain ⟨u, v, hc, hcs, huv⟩ := hw
    obtain ⟨c', h1, h2, h3⟩ := hcomp c u (canonical_known hs c (by simp)) hc (by omega)
    rcases cs with _ | ⟨d, ds⟩
    · exact ⟨[c'], h1.bind (Ev.pure _), canonical_single h2, (Weighs.one h3).le (by omega)⟩
    · obtain ⟨e, g1, g2, g3⟩ := ih v (canonical_rest hs (by simp)) hcs (by omega)
      obtain ⟨f, f1, f2, -, f3⟩ := addC_total hD (canonical_single h2) g2 (Weighs.one h3) g3 (by omega)
      exact ⟨f, h1.bind (g1.bind f1), f2, f3.le huv⟩

end GATL.Total
