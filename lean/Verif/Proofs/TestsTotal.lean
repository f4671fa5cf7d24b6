import Verif.Proofs.ScalarType
import Verif.Proofs.Tests
import Verif.Proofs.Exp

/-!
# The tests compile
-/

namespace GATL.Total

open Expr Spec

variable {N : Nat} {ρ : Env} {τ : Types}

theorem abs_int {k : Nat} {v : Int} {e : Expr} (h : mkAbsolute (simp k) (.const v) = some e) : e = .const |v| := by
  obtain ⟨u, rfl⟩ := abs_const_shape h
  have := abs_den (ρ := ⟨fun _ _ => 0, fun _ _ => 0⟩) (lit_const v) (.const v) (by simp [TraitSafe]) (V.const v).2 h
  have := V.const_eq ⟨.const u, this⟩
  rw [show u = |v| by exact_mod_cast this.symm]

theorem abs_type {k : Nat} {M o : Object} {x : ℝ} (hM : Represents ρ N M (Finsupp.single 0 x)) {c : Expr}
    (e : M.expr = [⟨c, .const 0⟩]) (h : absScalar (k + 2) τ ρ M = some o) :
    (c = .stored ∧ o.expr = [⟨.stored, .const 0⟩]) ∨ ∃ v : Int, c = .const v ∧ o.expr = [⟨.const |v|, .const 0⟩] := by
  obtain ⟨f, s, vs, bs⟩ := M
  dsimp only at e
  subst e
  rcases hM.1.2 ⟨c, .const 0⟩ (by simp) with h0 | ⟨v, h0⟩
  · dsimp only at h0
    subst h0
    refine .inl ⟨rfl, ?_⟩
    have h1 : contextObject (k + 2) τ ρ [⟨f, [⟨.stored, .const 0⟩], vs, bs⟩] [⟨.fn .absolute [.value 1 0], .const 0⟩] = some o := h
    have h2 := contextObject_eval h1
    have h3 : compileC (k + 2) 1 1 [⟨.fn .absolute [.value 1 0], .const 0⟩] =
        some ([⟨.stored, .const 0⟩], [.value (.fn .absolute [.value 1 0])]) := rfl
    unfold contextEval at h2
    dsimp only at h2
    rw [if_neg (by simp [storedInputs, hasStoredC, hasStored])] at h2
    obtain ⟨⟨e', p⟩, h4, h2⟩ := Option.bind_eq_some_iff.1 h2
    obtain ⟨⟨us, ws⟩, -, h2⟩ := Option.bind_eq_some_iff.1 h2
    have h5 := h3.symm.trans h4
    simp only [Option.some.injEq, Prod.mk.injEq] at h2 h5
    rw [← h2.1, ← h5.1]
  · dsimp only at h0
    subst h0
    refine .inr ⟨v, rfl, ?_⟩
    obtain ⟨a, ha, h⟩ := call1_lazy_inv (X := ⟨f, [⟨.const v, .const 0⟩], vs, bs⟩) rfl h
    change (mkAbsolute (simp (k + 2)) (.const v) >>= fun u => some [⟨u, .const 0⟩]) = some a at ha
    obtain ⟨u, hu, ha⟩ := Option.bind_eq_some_iff.1 ha
    obtain rfl := Option.some.inj ha
    rw [h, abs_int hu]

/-- The absolute value of a scalar compiles. -/
theorem abs_evo (hN : N ≤ 63) {g : Nat → Option Object} {w : Nat} {x : ℝ} (h : EvO w (Finsupp.single 0 x) ρ N g) (hB : w < B)
    (hs : ∀ j o, g j = some o → ∀ c ∈ o.expr, OnScalar c) :
    EvO w (Finsupp.single 0 |x|) ρ N fun j => g j >>= fun M => absScalar j τ ρ M := by
  obtain ⟨s, hw, k, hk⟩ := h
  obtain ⟨M0, hg0, e0, hM0⟩ := hk k le_rfl
  obtain ⟨c, ec⟩ := scalar_single hM0.1.1 (hs k M0 hg0)
  rw [e0] at ec
  subst ec
  obtain ⟨u, v, hu, -, huv⟩ := hw
  dsimp only at hu
  have total : ∀ j M, k + 2 ≤ j → M.expr = [⟨c, .const 0⟩] → Holds ρ N M (Finsupp.single 0 x) →
      ∃ o, absScalar j τ ρ M = some o ∧ Holds ρ N o (Finsupp.single 0 |x|) ∧
        ((c = .stored ∧ o.expr = [⟨.stored, .const 0⟩]) ∨ ∃ v : Int, c = .const v ∧ o.expr = [⟨.const |v|, .const 0⟩]) := by
    intro j M hj eM hM
    obtain ⟨j, rfl⟩ : ∃ i, j = i + 2 := ⟨j - 2, by omega⟩
    suffices ∃ o, absScalar (j + 2) τ ρ M = some o by
      obtain ⟨o, ho⟩ := this
      exact ⟨o, ho, (absScalar_ok hN hM ho).1, abs_type hM eM ho⟩
    obtain ⟨as, h1, h2, h3, -⟩ := arguments_ok (outer := ρ) (Ms := [M]) (As := [Finsupp.single 0 x]) hN (.cons hM .nil)
    obtain ⟨a, as', d1, h4, rfl⟩ := List.forall₂_cons_right_iff.1 h3
    obtain rfl := List.forall₂_nil_right_iff.1 h4
    have key : ∃ c' e, a = [⟨c', .const 0⟩] ∧ mkAbsolute (simp (j + 2)) c' = some e := by
      obtain ⟨f, s, vs, bs⟩ := M
      dsimp only at eM
      subst eM
      rcases hu with ⟨rfl, -⟩ | ⟨v', rfl, hu⟩
      · have e1 : [[⟨.value 1 0, .const 0⟩]] = [a] := Option.some.inj h1
        simp only [List.cons.injEq, and_true] at e1
        obtain ⟨e, he⟩ := abs_value (n := j) (t := 1) (i := 0)
        exact ⟨_, e, e1.symm, he⟩
      · have e1 : [[⟨.const v', .const 0⟩]] = [a] := Option.some.inj h1
        simp only [List.cons.injEq, and_true] at e1
        have hv : v'.natAbs < 2 ^ 63 := by
          have : B = 2 ^ 63 := rfl
          omega
        obtain ⟨e, he⟩ := abs_const (n := j) (v := v') (by omega)
        exact ⟨_, e, e1.symm, he⟩
    obtain ⟨c', e, rfl, he⟩ := key
    obtain ⟨gc, ts⟩ := leaf_ge (R := True) (n := j + 2) ((h2 [⟨c', .const 0⟩] (by simp)).2 ⟨c', .const 0⟩ (by simp))
    have ge := ge_abs gc (by omega) he
    obtain ⟨o, ho⟩ := (context_ge (τ := τ) (k := j + 2) (Ms := [M]) (e := [⟨e, .const 0⟩]) (R := True) (N := N)
      ⟨canonical_single ⟨0, rfl, by simp [vecs]⟩, by simpa using ge⟩
      (single_denotes ge.built (abs_den gc.lit gc.built ts (single_denotes_inv d1) he))).2 trivial (by omega)
    refine ⟨o, ?_⟩
    simp only [absScalar, call1, h1, Option.bind_eq_bind, Option.bind_some]
    rw [show scalarCoef [⟨c', .const 0⟩] = some c' from rfl]
    simp only [Option.bind_some, he, ho]
  rcases hu with ⟨rfl, hu⟩ | ⟨v', rfl, hu⟩
  · refine ⟨[⟨.stored, .const 0⟩], ⟨u, v, .inl ⟨rfl, hu⟩, trivial, huv⟩, k + 2, fun j hj => ?_⟩
    obtain ⟨M, hg, eM, hM⟩ := hk j (by omega)
    obtain ⟨o, ho, hh, ⟨-, e⟩ | ⟨_, e, -⟩⟩ := total j M hj eM hM
    · exact ⟨o, by simp only [hg, Option.bind_eq_bind, Option.bind_some, ho], e, hh⟩
    · cases e
  · refine ⟨[⟨.const |v'|, .const 0⟩], ⟨u, v, .inr ⟨_, rfl, by rwa [Int.natAbs_abs]⟩, trivial, huv⟩, k + 2, fun j hj => ?_⟩
    obtain ⟨M, hg, eM, hM⟩ := hk j (by omega)
    obtain ⟨o, ho, hh, ⟨e, -⟩ | ⟨_, e, e'⟩⟩ := total j M hj eM hM
    · cases e
    · cases e
      exact ⟨o, by simp only [hg, Option.bind_eq_bind, Option.bind_some, ho], e', hh⟩

section
variable {P Q R : Nat} (hN : P + Q + R ≤ 62) {M : Object} {A : MV ℝ} (hM : Represents ρ (P + Q + R) M A) {w : Nat}
  (hw : weightC M.expr < w) (hw1 : 1 < w)
include hN hM hw hw1

/-- The squared norm compiles. -/
theorem normSqr_evo (hB : w * w < B) : EvO (w * w - 1) (Finsupp.single 0 (rnormSqr (signedProd P Q R) A)) ρ (P + Q + R)
    fun k => normSqrObject P Q R k τ ρ M := by
  have hwt : (Program.graded .sp (.input 0) (.reverse (.input 0))).weight [M] ≤ w * w - 1 := by
    have h1 : (Program.input 0).weight [M] < w := max_lt (by omega) hw
    simp only [Program.weight] at h1 ⊢
    exact Nat.le_sub_one_of_lt (Nat.mul_lt_mul'' h1 h1)
  have e : Program.value P Q R [A] (.graded .sp (.input 0) (.reverse (.input 0))) =
      Finsupp.single 0 (rnormSqr (signedProd P Q R) A) := by
    show signedProd P Q R .sp A (reverse A) = _
    rw [rnormSqr]
    unfold signedProd
    rw [Iso.sp_scalar]
    simp [scalar]
  obtain ⟨s, h1, h2⟩ := runLazy_compiles (τ := τ) hN (.cons hM .nil) (.graded .sp (.input 0) (.reverse (.input 0)))
    (by simp [Program.Uses]) (by have := Nat.mul_pos (show 0 < w by omega) (show 0 < w by omega); omega)
    (by simp [Program.degree]; norm_num)
  rw [e] at h2
  exact ⟨s, h1.mono hwt, h2⟩

/-- `is_null` compiles. -/
theorem isNull_total (hB : w * w < B) (hi : IntegerStorage M) (hρ : IntegerVariables τ ρ) {tol : ℝ} (h0 : 0 ≤ tol) :
    ∃ depth, ∀ k, depth ≤ k → ∃ r, isNull P Q R k τ ρ M tol = some (.returned () r) ∧
      (r = true ↔ |rnormSqr (signedProd P Q R) A| ≤ tol) := by
  obtain ⟨s, -, k, hk⟩ := normSqr_evo (τ := τ) hN hM hw hw1 hB
  refine ⟨k, fun j hj => ?_⟩
  obtain ⟨o, ho, -, -⟩ := hk j hj
  obtain ⟨h1, h2⟩ := normSqr_ok hN hM ho
  obtain ⟨r, h3, h4⟩ := isZero_represents (τ := τ) h1 (h2 hρ hi) h0
  exact ⟨r, by simp only [isNull, ho, Option.bind_eq_bind, Option.bind_some, h3], h4.trans (single_all h0)⟩

/-- `is_unit` compiles. -/
theorem isUnit_total (hB : w * w < B) (hn : ∀ c ∈ M.expr, Normal c) (hi : IntegerStorage M) (hρ : IntegerVariables τ ρ)
    {tol : ℝ} (h0 : 0 ≤ tol) :
    ∃ depth, ∀ k, depth ≤ k → ∃ r, isUnit P Q R k τ ρ M tol = some (.returned () r) ∧
      (r = true ↔ |(|rnormSqr (signedProd P Q R) A| - 1)| ≤ tol) := by
  have hw0 : 0 < w * w := Nat.mul_pos (by omega) (by omega)
  have h1 := normSqr_evo (τ := τ) hN hM hw hw1 hB
  have h2 := abs_evo (τ := τ) (by omega) h1 (by omega) fun j o ho => normSqr_scalar hN hM hn ho
  have h3 : EvO 1 (Finsupp.single 0 ((1 : Int) : ℝ)) ρ (P + Q + R) fun _ => some (constObject 1) :=
    ⟨constSum 1, by simpa using plainWs_const 1, 0, fun j _ => ⟨_, rfl, rfl, holds_const 1⟩⟩
  obtain ⟨s, -, k, hk⟩ := call2_evo (τ := τ) (by omega) (fun k => good_sub (k := k) hN) (tot_sub hN) (by norm_num) h2 h3 (show w * w - 1 + 1 < B by omega)
  refine ⟨k + 1, fun j hj => ?_⟩
  obtain ⟨o, ho, -, hh⟩ := hk j (by omega)
  simp only [Option.bind_eq_bind, Option.bind_eq_some_iff, Option.bind_some] at ho
  obtain ⟨b, ⟨a, ha, hb⟩, ho⟩ := ho
  obtain ⟨j, rfl⟩ : ∃ i, j = i + 1 := ⟨j - 1, by omega⟩
  obtain ⟨g1, g2⟩ := normSqr_ok hN hM ha
  obtain ⟨g3, g4⟩ := absScalar_ok (by omega) g1 hb
  obtain ⟨g5, g6⟩ := sub_one_ok hN g3 ho
  obtain ⟨r, g7, g8⟩ := isZero_represents (τ := τ) g5 (g6 hρ (g4 hρ (g2 hρ hi))) h0
  exact ⟨r, by simp only [isUnit, ha, hb, ho, Option.bind_eq_bind, Option.bind_some, g7], g8.trans (single_all h0)⟩

end

end GATL.Total
