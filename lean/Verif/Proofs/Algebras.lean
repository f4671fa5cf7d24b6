import Verif.Proofs.AlgebraTypes
import Verif.Proofs.MetricType
import Verif.Proofs.RunMono
import Verif.Proofs.Vector

/-!
# The constants of the predefined algebras
-/

namespace GATL.Algebra

open Expr Spec MinkowskiModel

variable {τ : Types} {ρ : Env} {j k D : Nat}

theorem call2_const {f : CSum → CSum → Option CSum} {s t e : CSum} (hs : hasStoredC s = false) (ht : hasStoredC t = false)
    (h : f s t = some e) : call2 k τ ρ f ⟨false, s, [], []⟩ ⟨false, t, [], []⟩ = some ⟨false, e, [], []⟩ := by
  have hl : ∀ M ∈ [(⟨false, s, [], []⟩ : Object), ⟨false, t, [], []⟩], hasStoredC M.expr = false := by simp [hs, ht]
  have hn : storedInputs [(⟨false, s, [], []⟩ : Object), ⟨false, t, [], []⟩] = [] := by simp [storedInputs, hs, ht]
  simp [call2, arguments_lazy _ hl, h, contextObject, contextEval, hn]

theorem divide_const {s t e : CSum} (hs : hasStoredC s = false) (ht : hasStoredC t = false)
    (h : Rational.divideProgram.typeOfIn realSpace k [s, t] = some e) :
    divideBy k τ ρ ⟨false, s, [], []⟩ ⟨false, t, [], []⟩ = some ⟨false, e, [], []⟩ := by
  have hl : ∀ M ∈ [(⟨false, s, [], []⟩ : Object), ⟨false, t, [], []⟩], hasStoredC M.expr = false := by simp [hs, ht]
  have hn : storedInputs [(⟨false, s, [], []⟩ : Object), ⟨false, t, [], []⟩] = [] := by simp [storedInputs, hs, ht]
  unfold divideBy Rational.runLazyIn
  rw [lazyTypeIn_pure (as := [s, t]) (by rw [arguments_lazy _ hl]; rfl) h]
  simp [contextObject, contextEval, hn]

theorem realSpace_mono : SpaceMono realSpace := fun g => orth_mono 63 mkRealFactor g

theorem divide_mono (h : j ≤ k) (M M' : Object) : OLe (divideBy j τ ρ M M') (divideBy k τ ρ M M') :=
  rationalLazyIn_mono realSpace_mono h _ _

theorem euclidean_mono (h : j ≤ k) {S : SpaceType} (hS : SpaceMono S) (a b : Object) :
    OLe (Algebra.euclidean j τ ρ S a b) (Algebra.euclidean k τ ρ S a b) :=
  OLe.bind (OLe.refl _) fun _ => OLe.bind (call2_mono h (mulC_mono (ext_mono _) h) _ _) fun _ =>
    call2_mono h (mulC_mono (hS _) h) _ _

/-- Coefficients of the constants. -/
inductive ConstCoef : Expr → ℝ → Prop
  | int (v : Int) (hv : v ≠ 0) : ConstCoef (.const v) v
  | half : ConstCoef half (1 / 2)
  | minusHalf : ConstCoef (.fn .mul [.const (-1), half]) (-1 / 2)

theorem constCoef_reads {c : Expr} {x : ℝ} (h : ConstCoef c x) :
    CoefReads ρ c [] x ∧ c ≠ .const 0 ∧ Arithmetic (fun _ => False) c := by
  have hb : Built half := by
    refine .fn _ _ ?_ (by simp) (by simp) fun _ => ⟨_, _, rfl, by constructor <;> simp⟩
    simp only [List.mem_cons, List.not_mem_nil, or_false, forall_eq_or_imp, forall_eq]
    exact ⟨.const 2, .const (-1)⟩
  have ha : Arithmetic (fun _ => False) half := .power _ _ (.const 2)
  have hd : den ρ half = some (.num (1 / 2)) := by
    have : PowDefined 2 (-1) := .inl (by norm_num)
    simp [half, powerOf, den, denList, interp, this, Real.rpow_neg_one]
  cases h with
  | int v hv => exact ⟨.symbolic _ _ rfl (.const v) rfl, by simpa using hv, .const v⟩
  | half => exact ⟨.symbolic _ _ rfl hb hd, by simp [half, powerOf], ha⟩
  | minusHalf =>
    refine ⟨.symbolic _ _ rfl (.fn _ _ ?_ (by simp) (by simp) (by simp)) ?_, by simp, .mul _ ?_⟩
    · simp only [List.mem_cons, List.not_mem_nil, or_false, forall_eq_or_imp, forall_eq]
      exact ⟨.const (-1), hb⟩
    · simp only [Denotes, den, denList, hd, interp, prodVals]
      norm_num
    · simp only [List.mem_cons, List.not_mem_nil, or_false, forall_eq_or_imp, forall_eq]
      exact ⟨.const (-1), ha⟩

theorem wellTyped_const {n : Nat} (hn : n ≤ 63) {b : Word} (hb : b.toNat < 2 ^ n) (x : ℝ) :
    WellTyped n (x, TBlade.const b) ∧ ∀ i ∈ vecs b, i.val < n := by
  have : ∀ i ∈ vecs b, i.val < n := by
    intro i hi
    by_contra h
    have h1 : b.getLsbD i = true := by simpa [vecs] using hi
    rw [BitVec.getLsbD, Nat.testBit_lt_two_pow (lt_of_lt_of_le hb (Nat.pow_le_pow_right (by norm_num) (by omega)))] at h1
    cases h1
  exact ⟨this, this⟩

/-- A constant with one component. -/
theorem stands_one {n : Nat} (hn : n ≤ 63) {c : Expr} {x : ℝ} {b : Word} (hc : ConstCoef c x) (hb : b.toNat < 2 ^ n) :
    Stands ρ n ⟨false, [⟨c, .const b⟩], [], []⟩ (Finsupp.single b x) := by
  obtain ⟨h1, h2, h3⟩ := constCoef_reads (ρ := ρ) hc
  obtain ⟨h4, h5⟩ := wellTyped_const hn hb x
  refine ⟨⟨⟨by simp, ?_, by simp, .inr (by simpa using h2)⟩, by simpa using .inr h3⟩, ?_⟩
  · simp only [List.mem_singleton, forall_eq]
    exact ⟨b, rfl, fun i hi => by have := h5 i hi; omega⟩
  · have := Reads.cons h1 (.const b) h4 (Reads.nil (ρ := ρ) (n := n))
    simpa [TBlade.bits] using this

/-- A constant with two components. -/
theorem stands_two {n : Nat} (hn : n ≤ 63) {c c' : Expr} {x x' : ℝ} {b b' : Word} (hc : ConstCoef c x)
    (hc' : ConstCoef c' x') (hb : b.toNat < 2 ^ n) (hb' : b'.toNat < 2 ^ n) (h : Before b b') :
    Stands ρ n ⟨false, [⟨c, .const b⟩, ⟨c', .const b'⟩], [], []⟩ (Finsupp.single b x + Finsupp.single b' x') := by
  obtain ⟨h1, h2, h3⟩ := constCoef_reads (ρ := ρ) hc
  obtain ⟨h4, h5⟩ := wellTyped_const hn hb x
  obtain ⟨h1', h2', h3'⟩ := constCoef_reads (ρ := ρ) hc'
  obtain ⟨h4', h5'⟩ := wellTyped_const hn hb' x'
  refine ⟨⟨⟨by simp, ?_, ?_, .inr (by simp [h2, h2'])⟩, by simp [h3, h3']⟩, ?_⟩
  · simp only [List.mem_cons, List.not_mem_nil, or_false, forall_eq_or_imp, forall_eq]
    exact ⟨⟨b, rfl, fun i hi => by have := h5 i hi; omega⟩, b', rfl, fun i hi => by have := h5' i hi; omega⟩
  · simp only [List.pairwise_cons, List.mem_singleton, forall_eq, Blade.const.injEq]
    refine ⟨?_, by simp⟩
    rintro a b rfl rfl
    exact h
  · have := Reads.cons h1 (.const b) h4 (Reads.cons h1' (.const b') h4' (Reads.nil (ρ := ρ) (n := n)))
    simpa [TBlade.bits] using this

theorem shift_lt {i n : Nat} (hi : i < n) (hn : n ≤ 63) : ((1 : Word) <<< i).toNat < 2 ^ n := by
  rw [one_shift_toNat (by omega)]
  exact Nat.pow_lt_pow_right (by omega) hi

theorem pseudo_lt {i n : Nat} (hi : i ≤ n) (hn : n ≤ 63) : (BitVec.ofNat 64 (2 ^ i - 1)).toNat < 2 ^ n := by
  have h1 : 2 ^ i ≤ 2 ^ n := Nat.pow_le_pow_right (by omega) hi
  have h2 : 0 < 2 ^ i := Nat.two_pow_pos i
  have h3 : 2 ^ n ≤ 2 ^ 63 := Nat.pow_le_pow_right (by omega) hn
  rw [BitVec.toNat_ofNat, Nat.mod_eq_of_lt (by omega)]
  omega

theorem stands_pseudo {i n : Nat} (hi : i ≤ n) (hn : n ≤ 63) :
    Stands ρ n ⟨false, pseudoType i, [], []⟩ (pseudoscalarOf ℝ i) := by
  have := stands_one (ρ := ρ) hn (.int 1 one_ne_zero) (pseudo_lt hi hn)
  simpa [pseudoType, pseudoscalarOf] using this

theorem basisObject_eq (D : Nat) : basisObject (D + 1) = ⟨false, basisType D, [], []⟩ := rfl

section
variable (h : 40 ≤ k) (hD : D ≤ 60)
include h hD

theorem minkowskiNo_eq : minkowskiNo D k τ ρ = some ⟨false,
    [⟨.fn .mul [.const (-1), half], .const ((1 : Word) <<< D)⟩, ⟨half, .const ((1 : Word) <<< (D + 1))⟩], [], []⟩ := by
  obtain ⟨h1, h2⟩ : (subC 40 (basisType (D + 1)) (basisType D) >>= fun s =>
      Rational.divideProgram.typeOfIn realSpace 40 [s, constSum 2])
        = some [⟨.fn .mul [.const (-1), half], .const ((1 : Word) <<< D)⟩, ⟨half, .const ((1 : Word) <<< (D + 1))⟩] ∧
      subC 40 (basisType (D + 1)) (basisType D)
        = some [⟨.const (-1), .const ((1 : Word) <<< D)⟩, ⟨.const 1, .const ((1 : Word) <<< (D + 1))⟩] :=
    minkowskiNo_type ⟨D, by omega⟩
  rw [h2, Option.bind_eq_bind, Option.bind_some] at h1
  unfold minkowskiNo
  rw [basisObject_eq, basisObject_eq, call2_mono h (sub_mono h) _ _ _ (call2_const rfl rfl h2)]
  exact divide_mono h _ _ _ (divide_const rfl rfl h1)

theorem minkowskiNi_eq : minkowskiNi D k τ ρ = some ⟨false,
    [⟨.const 1, .const ((1 : Word) <<< D)⟩, ⟨.const 1, .const ((1 : Word) <<< (D + 1))⟩], [], []⟩ :=
  call2_mono h (addC_mono h) _ _ _ (call2_const rfl rfl (minkowskiNi_type ⟨D, by omega⟩))

theorem minkowskiIe_eq : minkowskiIe D k τ ρ = some ⟨false, pseudoType D, [], []⟩ := by
  obtain ⟨h1, h2⟩ := minkowskiIe_type ⟨D, by omega⟩
  have h3 := pseudo_blade ⟨D + 2, by omega⟩
  refine euclidean_mono h (signedSpace_mono _ _ _) _ _ _ ?_
  unfold euclidean pseudoscalarObject
  rw [show (signedSpace (D + 1) 1 0).dims = D + 2 from rfl, h3]
  simp only [Option.bind_eq_bind, Option.bind_some]
  rw [basisObject_eq, basisObject_eq, call2_const rfl rfl h1]
  exact call2_const rfl rfl h2

theorem conformalEp_eq : conformalEp D k τ ρ = some ⟨false,
    [⟨.const (-1), .const ((1 : Word) <<< D)⟩, ⟨half, .const ((1 : Word) <<< (D + 1))⟩], [], []⟩ := by
  obtain ⟨h1, h2, h3⟩ := conformalEp_type ⟨D, by omega⟩
  dsimp only at h1 h2 h3
  unfold conformalEp
  rw [basisObject_eq, basisObject_eq, show constObject 2 = ⟨false, constSum 2, [], []⟩ from rfl,
    divide_mono h _ _ _ (divide_const rfl rfl h1)]
  exact call2_mono h (sub_mono h) _ _ _ (call2_const rfl rfl h2)

theorem conformalEm_eq : conformalEm D k τ ρ = some ⟨false,
    [⟨.const 1, .const ((1 : Word) <<< D)⟩, ⟨half, .const ((1 : Word) <<< (D + 1))⟩], [], []⟩ := by
  obtain ⟨h1, h3, h2⟩ := conformalEp_type ⟨D, by omega⟩
  dsimp only at h1 h2 h3
  unfold conformalEm
  rw [basisObject_eq, basisObject_eq, show constObject 2 = ⟨false, constSum 2, [], []⟩ from rfl,
    divide_mono h _ _ _ (divide_const rfl rfl h1)]
  exact call2_mono h (addC_mono h) _ _ _ (call2_const rfl rfl h2)

end

theorem conformalIe_eq (h : 40 ≤ k) (hD : D ≤ 7) : conformalIe D k τ ρ = some ⟨false, pseudoType D, [], []⟩ := by
  obtain ⟨h1, h2⟩ := conformalIe_type ⟨D, by omega⟩
  have h3 := pseudo_blade ⟨D + 2, by omega⟩
  refine euclidean_mono h (conformalSpace_mono _) _ _ _ ?_
  unfold euclidean pseudoscalarObject
  rw [show (conformalSpace D).dims = D + 2 from rfl, h3]
  simp only [Option.bind_eq_bind, Option.bind_some]
  rw [basisObject_eq, basisObject_eq, call2_const rfl rfl h1]
  exact call2_const rfl rfl h2

theorem homogeneousIe_eq (h : 40 ≤ k) (hD : D ≤ 61) : homogeneousIe D k τ ρ = some ⟨false, pseudoType D, [], []⟩ := by
  have h2 := homogeneousIe_type ⟨D, by omega⟩
  have h3 := pseudo_blade ⟨D + 1, by omega⟩
  unfold homogeneousIe pseudoscalarObject
  rw [h3]
  simp only [Option.bind_eq_bind, Option.bind_some]
  exact call2_mono h (mulC_mono (orth_mono _ _ _) h) _ _ _ (call2_const rfl rfl h2)

end GATL.Algebra
