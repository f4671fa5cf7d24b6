import Verif.Proofs.TakeDyn
import Verif.Proofs.LazyRuntime

/-!
# Grades of objects with run-time basis blades
-/

namespace GATL

open Expr Spec

variable {ρ ρ' outer : Env} {τ : Types} {N n k L U : Nat} {R : Prop}

/-- The number of bits of a stored bitset. -/
theorem ge_count {t i : Nat} (hL : L ≤ t) (hU : t ≤ U) : GE R n L U (mkCountOneBits (.bitset t i)) := by
  change GE R n L U (.fn .countOneBits [.bitset t i])
  refine ⟨.count _ (.bitset t i hL hU), built_fn1 (.bitset _ _) (by simp) (by simp) (by simp),
    fun h => by simp [isConstant, isConstantAll] at h, fun _ => by simp [NoIntQuotient, NoIntQuotientAll],
    fun _ => ⟨(.stored, [.value (.fn .countOneBits [.bitset t i])]), ?_⟩⟩
  have h1 : compile n L U (.bitset t i) = some (.storedBits, [.bits (.bitset t i)]) := by
    change (if L ≤ t ∧ t ≤ U then storeBits L U (.bitset t i) else some (.bitset t i, [])) = _
    rw [if_pos ⟨hL, hU⟩, storeBits, if_pos (by simp [inRange, hL, hU])]
  rw [compile, h1]
  simp only [Option.bind_eq_bind, Option.bind_some, if_true, storeValue]
  rw [if_pos (by simp [inRange, inRangeAll, hL, hU])]

/-- What becomes of such components in a context with the tags `L` to `U`. -/
structure Local (L U : Nat) (c : Comp) : Prop where
  leaf : Leaf L U c.coef
  nonzero : c.coef ≠ .const 0
  blade : (∃ b, c.blade = .const b ∧ c.blade.grades ≠ 0) ∨
    ∃ G t i, L ≤ t ∧ t ≤ U ∧ G ≠ 0 ∧ G ≠ 1 ∧ c.blade = .dyn G (.bitset t i)

theorem Local.grade {c : Comp} (h : Local L U c) : GE R n L U (mkCountOneBits c.blade.bits) := by
  rcases h.blade with ⟨b, e, -⟩ | ⟨G, t, i, hL, hU, -, -, e⟩
  · rw [e]; exact ge_const _
  · rw [e]; exact ge_count hL hU

theorem Local.gradable {s : CSum} (h : ∀ c ∈ s, Local L U c) : Gradable s := by
  intro c hc
  obtain ⟨h1, h2⟩ := leaf_ge (R := True) (n := 0) (h c hc).leaf
  refine ⟨⟨h1.built, fun G e he => ?_⟩, h1.lit, h2⟩
  rcases (h c hc).blade with ⟨b, e', -⟩ | ⟨G', t, i, hL, hU, -, -, e'⟩
  · rw [e'] at he; cases he
  · rw [e'] at he; cases he; exact ⟨.bitset _ _, rfl⟩

theorem tagC_runtime {T B : Nat} (hN : N ≤ 63) (hag : Agree B ρ ρ') (hL : L ≤ T) (hU : T ≤ U)
    {s : CSum} {vs : List ℝ} {ws : List Word} {V : List (ℝ × TBlade)}
    (h : ReadsEach ρ s vs ws V) :
    ∀ (v b : Nat), (∀ c ∈ s, RuntimeComp c) → (∀ p ∈ V, WellTyped N p) →
      (∀ i x, vs[i]? = some x → ρ'.val T (v + i) = x) →
      (∀ i x, ws[i]? = some x → ρ'.bits T (b + i) = x) →
      ∃ a, tagC T v b s = some a ∧ List.Forall₂ (CompDenotes ρ') a V ∧ (∀ c ∈ a, Local L U c) ∧
        (Negatable s → Negatable a) ∧
        a.map (fun c => evaluated c.blade) = s.map (fun c => evaluated c.blade) := by
  induction h with
  | nil => exact fun v b _ _ _ _ => ⟨[], rfl, .nil, by simp, fun h => h, rfl⟩
  | @cons c bl s vs ws vs' ws' x t V hc hb hs ih =>
    intro v b hr hw hv hbs
    obtain ⟨r1, r2⟩ := hr ⟨c, bl⟩ (by simp)
    simp only at r1 r2
    have hcv : countValues c = vs.length ∧ countBits c = 0 ∧ tag T v b c ≠ .const 0 ∧ Leaf L U (tag T v b c) ∧
        Denotes ρ' (tag T v b c) x ∧ ∀ u, tag T v b c = .const u → c = .const u := by
      cases hc with
      | stored x =>
        refine ⟨rfl, rfl, by simp [tag], .inr ⟨T, v, hL, hU, rfl⟩, ?_, fun u h => by simp [tag] at h⟩
        have := hv 0 x (by simp)
        simpa [Denotes, tag, den] using this
      | symbolic c x hs' hb' hd =>
        rcases r1 with rfl | ⟨u, hu, rfl⟩
        · simp [hasStored] at hs'
        · refine ⟨rfl, rfl, by simpa [tag] using hu, .inl ⟨u, rfl⟩, ?_, fun u' h => h⟩
          simpa [Denotes, tag, den] using hd
    obtain ⟨c1, c2, c3, c4, c5, c6⟩ := hcv
    have hbl : ∃ bl', bl.tag T (v + countValues c) (b + countBits c) = some bl' ∧ bl.countValues = 0 ∧
        bl.countBits = ws.length ∧ bl'.grades ≠ 0 ∧ BladeDenotes ρ' bl' t ∧
        ((∃ b, bl' = .const b ∧ bl'.grades ≠ 0) ∨
          ∃ G t i, L ≤ t ∧ t ≤ U ∧ G ≠ 0 ∧ G ≠ 1 ∧ bl' = .dyn G (.bitset t i)) ∧ evaluated bl' = evaluated bl := by
      cases hb with
      | const b0 =>
        have hg := const_grades hN (hw (x, .const b0) (by simp))
        exact ⟨.const b0, rfl, rfl, rfl, hg, rfl, .inl ⟨b0, rfl, hg⟩, rfl⟩
      | stored G w =>
        rcases r2 with ⟨b', hb'⟩ | ⟨G', g0, g1, hG⟩
        · cases hb'
        · cases hG
          refine ⟨.dyn G (.bitset T (b + countBits c)), ?_, rfl, rfl, g0, ⟨w, ?_, rfl⟩,
            .inr ⟨G, T, _, hL, hU, g0, g1, rfl⟩, rfl⟩
          · change mkDynBlade G (.bitset T (b + countBits c)) = _
            rw [mkDynBlade_var rfl, if_neg g1]
          · have := hbs 0 w (by simp)
            rw [c2, den]
            simpa using this
      | symbolic G e w hs' hb' hc' hd =>
        rcases r2 with ⟨b', hb''⟩ | ⟨G', g0, g1, hG⟩
        · cases hb''
        · cases hG; simp [hasStored] at hs'
    obtain ⟨bl', b1, b2, b3, b4, b5, b6, b7⟩ := hbl
    obtain ⟨a, i1, i2, i3, i4, i5⟩ := ih (v + (Comp.mk c bl).countValues) (b + (Comp.mk c bl).countBits)
      (fun d hd => hr d (by simp [hd])) (fun p hp => hw p (by simp [hp])) (by
        intro i y hi
        rw [Comp.countValues]
        simp only
        rw [c1, b2, Nat.add_zero, add_assoc]
        exact hv _ y (by rw [List.getElem?_append_right (by omega)]; simpa using hi)) (by
        intro i y hi
        rw [Comp.countBits]
        simp only
        rw [c2, b3, Nat.zero_add, add_assoc]
        exact hbs _ y (by rw [List.getElem?_append_right (by omega)]; simpa using hi))
    refine ⟨⟨tag T v b c, bl'⟩ :: a, ?_, .cons ⟨c5, b5⟩ i2, ?_, fun hn => ?_, by simp [i5, b7]⟩
    · simp only [tagC, b1, i1, Option.bind_eq_bind, Option.bind_some, mkComp_runtime c3 b4]
    · intro d hd
      rcases List.mem_cons.1 hd with rfl | hd
      · exact ⟨c4, c3, b6⟩
      · exact i3 d hd
    · intro d hd u hu
      rcases List.mem_cons.1 hd with rfl | hd
      · exact hn ⟨c, bl⟩ (by simp) u (c6 u hu)
      · exact i4 (fun e he => hn e (by simp [he])) d hd u hu

/-- Without stored entries. -/
theorem untagged_runtime {s : CSum} {vs : List ℝ} {ws : List Word} {V : List (ℝ × TBlade)}
    (hN : N ≤ 63) (h : ReadsEach ρ s vs ws V) : (∀ c ∈ s, RuntimeComp c) → (∀ p ∈ V, WellTyped N p) →
      hasStoredC s = false →
      List.Forall₂ (CompDenotes ρ') s V ∧ ∀ c ∈ s, Local L U c := by
  induction h with
  | nil => exact fun _ _ _ => ⟨.nil, by simp⟩
  | @cons c bl s vs ws vs' ws' x t V hc hb hs ih =>
    intro hr hw hst
    simp only [hasStoredC, List.any_cons, Bool.or_eq_false_iff] at hst
    obtain ⟨r1, r2⟩ := hr ⟨c, bl⟩ (by simp)
    simp only at r1 r2
    obtain ⟨i1, i2⟩ := ih (fun d hd => hr d (by simp [hd])) (fun p hp => hw p (by simp [hp])) hst.2
    have hC : ∃ u : Int, u ≠ 0 ∧ c = .const u := by
      rcases r1 with rfl | ⟨u, hu, rfl⟩
      · simp [hasStored] at hst
      · exact ⟨u, hu, rfl⟩
    have hB : ∃ w, bl = .const w := by
      rcases r2 with h | ⟨G, -, -, rfl⟩
      · exact h
      · simp [hasStored, Blade.hasStored] at hst
    obtain ⟨u, hu, rfl⟩ := hC
    obtain ⟨w, rfl⟩ := hB
    cases hb with
    | const =>
    cases hc with
    | symbolic _ _ _ _ hd =>
    refine ⟨.cons ⟨?_, rfl⟩ i1, ?_⟩
    · simpa [Denotes, den] using hd
    · intro d hd
      rcases List.mem_cons.1 hd with rfl | hd
      · exact ⟨.inl ⟨u, rfl⟩, by simpa using hu, .inl ⟨w, rfl, const_grades hN (hw (x, .const w) (by simp))⟩⟩
      · exact i2 d hd

section Api

variable {M T : Object} {V : List (ℝ × TBlade)} {tol : ℝ}

theorem arg_scalar (hN : N ≤ 63) (hT : ScalarValue outer N T tol) {B : Nat} (pre : List Object)
    (hB : greaterIdC T.expr ≤ B) :
    ∃ t, arguments (B + pre.length) [T] = some [[⟨t, .const 0⟩]] ∧
      Leaf (B + 1) (B + (pre ++ storedInputs [T]).length) t ∧
      Denotes (contextEnv outer B (pre ++ storedInputs [T])) t tol := by
  have hp : ∀ M ∈ [T], PlainC M.expr := by
    intro M hM
    rw [List.mem_singleton.1 hM]
    exact hT.2.1
  obtain ⟨as, h1, h2⟩ := arguments_shape [T] (B + pre.length) hp
  obtain ⟨t, as', ⟨-, n2⟩, h6, rfl⟩ := List.forall₂_cons_left_iff.1 h2
  obtain rfl := List.forall₂_nil_left_iff.1 h6
  obtain ⟨t', rfl⟩ := n2 hT.1
  have hd := arguments_reads hN (base := B) [T] pre _ [Finsupp.single 0 tol] h1 (by simpa using hB)
    (.cons hT.2.2 .nil)
  have hw := arguments_within (Q := Leaf (B + 1) (B + (pre ++ storedInputs [T]).length)) (base := B)
    (fun v => .inl ⟨v, rfl⟩) [T] pre _ hp (fun t i ht hU => .inr ⟨t, i, ht, hU, rfl⟩) h1
  exact ⟨t', h1, (hw [⟨t', .const 0⟩] (by simp)).2 ⟨t', .const 0⟩ (by simp),
    single_denotes_inv (List.forall₂_cons.1 hd).1⟩

theorem args2_runtime (hN : N ≤ 63) (hM : HasComponents outer N M V) (hT : ScalarValue outer N T tol) :
    ∃ a t, arguments (baseId [M, T]) [M, T] = some [a, [⟨t, .const 0⟩]] ∧ a ≠ [] ∧
      (∀ c ∈ a, Local (baseId [M, T] + 1) (baseId [M, T] + (storedInputs [M, T]).length) c) ∧
      Leaf (baseId [M, T] + 1) (baseId [M, T] + (storedInputs [M, T]).length) t ∧
      List.Forall₂ (CompDenotes (contextEnv outer (baseId [M, T]) (storedInputs [M, T]))) a V ∧
      Denotes (contextEnv outer (baseId [M, T]) (storedInputs [M, T])) t tol ∧
      (Negatable M.expr → Negatable a) ∧
      a.map (fun c => evaluated c.blade) = M.expr.map (fun c => evaluated c.blade) := by
  obtain ⟨m0, m1, m2, m3⟩ := hM
  have hBT : greaterIdC T.expr ≤ baseId [M, T] := le_baseId T (by simp)
  by_cases hst : hasStoredC M.expr = true
  · have hsi : storedInputs [M, T] = [M] ++ storedInputs [T] := by
      rw [show [M, T] = M :: [T] from rfl]
      simp only [storedInputs, List.filter_cons, hst, if_true, List.singleton_append]
    obtain ⟨t, t1, t2, t3⟩ := arg_scalar hN hT [M] hBT
    rw [← hsi] at t2 t3
    obtain ⟨a, a1, a2, a3, a4, a5⟩ := tagC_runtime (T := baseId [M, T] + 1)
      (L := baseId [M, T] + 1) (U := baseId [M, T] + (storedInputs [M, T]).length)
      (ρ' := contextEnv outer (baseId [M, T]) (storedInputs [M, T])) hN
      (context_agree outer (baseId [M, T]) _) le_rfl (by rw [hsi]; simp) m2 0 0 m1 m3
      (by
        intro i x hx
        simp only [contextEnv, Nat.lt_succ_self, if_true, Nat.sub_self, Nat.zero_add, hsi]
        simp [List.getD, hx])
      (by
        intro i x hx
        simp only [contextEnv, Nat.lt_succ_self, if_true, Nat.sub_self, Nat.zero_add, hsi]
        simp [List.getD, hx])
    refine ⟨a, t, ?_, ?_, a3, t2, a2, t3, a4, a5⟩
    · rw [arguments, if_pos hst, a1]
      simp only [Option.bind_eq_bind, Option.bind_some]
      rw [show baseId [M, T] + 1 = baseId [M, T] + [M].length from rfl, t1]
      rfl
    · intro h
      rw [h] at a5
      exact m0 (List.map_eq_nil_iff.1 a5.symm)
  · have hsi : storedInputs [M, T] = [] ++ storedInputs [T] := by
      rw [show [M, T] = M :: [T] from rfl]
      simp only [storedInputs, List.filter_cons, hst, List.nil_append]
      rfl
    obtain ⟨t, t1, t2, t3⟩ := arg_scalar hN hT [] hBT
    rw [← hsi] at t2 t3
    obtain ⟨a2, a3⟩ := untagged_runtime (L := baseId [M, T] + 1)
      (U := baseId [M, T] + (storedInputs [M, T]).length)
      (ρ' := contextEnv outer (baseId [M, T]) (storedInputs [M, T])) hN m2 m1 m3 (by simpa using hst)
    refine ⟨M.expr, t, ?_, m0, a3, t2, a2, t3, fun h => h, rfl⟩
    rw [arguments, if_neg hst]
    rw [show baseId [M, T] = baseId [M, T] + ([] : List Object).length from rfl, t1]
    rfl

theorem grade_runtime (hN : N ≤ 63) (hM : HasComponents outer N M V) (hT : ScalarValue outer N T tol)
    (hs : Negatable M.expr) :
    ∃ o, ∃ g : ℤ, grade (k + 2) τ outer M T = some o ∧ ScalarValue outer N o g ∧ IsGrade (AboveIn tol V) g := by
  obtain ⟨a, t, h1, hne, w1, w2, d1, d2, n1, -⟩ := args2_runtime hN hM hT
  have gt := (leaf_ge (R := True) (n := k + 2) w2).1
  obtain ⟨g1, g2⟩ := deduceGrade_ge gt (by omega) a hne (fun c hc => (w1 c hc).grade)
    fun c hc => (leaf_ge (w1 c hc).leaf).1
  obtain ⟨e, he⟩ := g2 (leaf_abs (fun c hc => (w1 c hc).leaf) (n1 hs))
  obtain ⟨l1, l2⟩ := deduceGrade_ok gt.lit d2 a V e (Local.gradable w1) d1 he
  have hcon := context_ge (τ := τ) (k := k + 2) (Ms := [M, T]) (e := [⟨e, .const 0⟩]) (R := True) (N := N)
    ⟨canonical_single ⟨0, rfl, by simp [vecs]⟩, by simpa using g1 e he⟩ (single_denotes (g1 e he).built l2)
  obtain ⟨o, ho⟩ := hcon.2 trivial (by omega)
  refine ⟨o, listGr tol V, ?_, ⟨scalar_shape ho, hcon.1 o ho⟩, isGrade_list tol V⟩
  simp only [grade, call2, h1, scalarCoef_single, Option.bind_eq_bind, Option.bind_some, he]
  exact ho

theorem largestGrade_runtime (hN : N ≤ 63) (hM : HasComponents outer N M V) (hT : ScalarValue outer N T tol)
    (hs : Negatable M.expr) :
    ∃ o, ∃ g : ℤ, largestGrade (k + 2) τ outer M T = some o ∧ ScalarValue outer N o g ∧
      IsLargestGrade (AboveIn tol V) g := by
  obtain ⟨a, t, h1, hne, w1, w2, d1, d2, n1, -⟩ := args2_runtime hN hM hT
  have gt := (leaf_ge (R := True) (n := k + 2) w2).1
  obtain ⟨g1, g2⟩ := deduceLargest_ge gt (by omega) a hne (fun c hc => (w1 c hc).grade)
    fun c hc => (leaf_ge (w1 c hc).leaf).1
  obtain ⟨e, he⟩ := g2 (leaf_abs (fun c hc => (w1 c hc).leaf) (n1 hs))
  obtain ⟨l1, l2⟩ := deduceLargest_ok gt.lit d2 a V e (Local.gradable w1) d1 he
  have hcon := context_ge (τ := τ) (k := k + 2) (Ms := [M, T]) (e := [⟨e, .const 0⟩]) (R := True) (N := N)
    ⟨canonical_single ⟨0, rfl, by simp [vecs]⟩, by simpa using g1 e he⟩ (single_denotes (g1 e he).built l2)
  obtain ⟨o, ho⟩ := hcon.2 trivial (by omega)
  refine ⟨o, listMax tol V, ?_, ⟨scalar_shape ho, hcon.1 o ho⟩, isLargest_list tol V⟩
  simp only [largestGrade, call2, h1, scalarCoef_single, Option.bind_eq_bind, Option.bind_some, he]
  exact ho

theorem above_iff_distinct {V : List (ℝ × TBlade)} {tol : ℝ} (h0 : 0 ≤ tol)
    (h : (V.map fun p => p.2.bits).Nodup) (b : Word) : Above tol (Spec.sumOf V) b ↔ AboveIn tol V b := by
  obtain ⟨h1, h2⟩ := sum_apply_of_nodup h
  unfold Above AboveIn Spec.sumOf
  constructor
  · intro h
    by_contra hno
    by_cases he : ∃ p ∈ V, p.2.bits = b
    · obtain ⟨p, hp, rfl⟩ := he
      rw [h1 p hp] at h
      exact hno ⟨p, hp, rfl, h⟩
    · rw [h2 b fun p hp e => he ⟨p, hp, e⟩, abs_zero] at h
      linarith
  · rintro ⟨p, hp, rfl, h⟩
    rwa [h1 p hp]

/-! ## Grade parts, the grade is stored -/

/-- A component that is kept if it has the grade `g`. -/
def kept (g : Expr) (c : Comp) : Comp :=
  ⟨.fn .ifElse [.fn .equal [mkCountOneBits c.blade.bits, g], c.coef, .const 0], c.blade⟩

theorem Local.grades {c : Comp} (h : Local L U c) : c.blade.grades ≠ 0 := by
  rcases h.blade with ⟨b, -, e⟩ | ⟨G, t, i, -, -, g0, -, e⟩
  · exact e
  · rw [e]; exact g0

theorem keepComp_value {t i : Nat} {c : Comp} (h : Local L U c) :
    keepComp (.value t i) c = some (kept (.value t i) c) := by
  have h1 : mkCountOneBits c.blade.bits ≠ .value t i := by
    unfold mkCountOneBits; split <;> simp
  have h2 : mkEqual (mkCountOneBits c.blade.bits) (.value t i) =
      .fn .equal [mkCountOneBits c.blade.bits, .value t i] := by
    simp [mkEqual, h1, isConstant]
  have h3 : keepComp (.value t i) c = some (mkComp (mkIfElse (mkEqual (mkCountOneBits c.blade.bits) (.value t i))
      c.coef (.const 0)) c.blade) := by
    unfold keepComp
    split
    · next h => cases h
    · next h => cases h
    · rfl
  have h4 : ∀ x, mkIfElse (.fn .equal x) c.coef (.const 0) = .fn .ifElse [.fn .equal x, c.coef, .const 0] := by
    intro x
    simp [mkIfElse, h.nonzero]
  rw [h3, h2, h4, mkComp_runtime (by simp) h.grades]
  rfl

theorem keepGrade_value {t i : Nat} (hn : n ≠ 0) : ∀ a : CSum, a ≠ [] → (∀ c ∈ a, Local L U c) →
    a.IsChain (fun c d => Apart c.blade d.blade) →
    keepGrade n (.value t i) a = some (a.map (kept (.value t i)))
  | [], h, _, _ => absurd rfl h
  | [c], _, hl, _ => by
    simp only [keepGrade, keepComp_value (hl c (by simp)), Option.bind_eq_bind, Option.bind_some, List.map_cons,
      List.map_nil]
  | c :: d :: cs, _, hl, hc => by
    rw [List.isChain_cons_cons] at hc
    have ih := keepGrade_value (t := t) (i := i) hn (d :: cs) (by simp) (fun x hx => hl x (List.mem_cons_of_mem _ hx)) hc.2
    obtain ⟨m, rfl⟩ := Nat.exists_eq_succ_of_ne_zero hn
    simp only [keepGrade, keepComp_value (hl c (by simp)), ih, Option.bind_eq_bind, Option.bind_some]
    exact addC_cons (by simp [kept]) (by simp [kept]) (apart_ne hc.1) hc.1.1

theorem chain_evaluated {a s : CSum} (h : a.map (fun c => evaluated c.blade) = s.map (fun c => evaluated c.blade))
    (hc : s.IsChain fun c d => Apart c.blade d.blade) : a.IsChain fun c d => Apart c.blade d.blade := by
  have key : ∀ s : CSum, s.IsChain (fun c d => Apart c.blade d.blade) ↔
      (s.map fun c => evaluated c.blade).IsChain (fun x y => x.lt y = true) := by
    intro s
    rw [List.isChain_map]
    simp only [apart_iff]
  rw [key] at hc ⊢
  rwa [h]

theorem compile_bitset {t i : Nat} (hL : L ≤ t) (hU : t ≤ U) :
    compile n L U (.bitset t i) = some (.storedBits, [.bits (.bitset t i)]) := by
  change (if L ≤ t ∧ t ≤ U then storeBits L U (.bitset t i) else some (.bitset t i, [])) = _
  rw [if_pos ⟨hL, hU⟩, storeBits, if_pos (by simp [inRange, hL, hU])]

/-- Objects with run-time blades in a context. -/
theorem object_runtime (hN : N ≤ 63) (hk : k ≠ 0) {Ms : List Object} {e : CSum} {A : MV ℝ}
    (hs : storedInputs Ms ≠ []) (hne : e ≠ [])
    (ho : ∀ c ∈ e, OverContext (baseId Ms + 1) (baseId Ms + (storedInputs Ms).length) c)
    (hq : ∀ τ, ∀ c ∈ e, NoIntQuotient τ c.coef ∧ NoIntQuotient τ c.blade.bits)
    (ht : ∀ c ∈ e, (compile k (baseId Ms + 1) (baseId Ms + (storedInputs Ms).length) c.coef).isSome ∧
      ∀ G x, c.blade = .dyn G x → (compile k (baseId Ms + 1) (baseId Ms + (storedInputs Ms).length) x).isSome)
    (hc : e.IsChain fun c d => Apart c.blade d.blade)
    (hA : SumDenotes (contextEnv outer (baseId Ms) (storedInputs Ms)) N e A) :
    ∃ o, contextObject k τ outer Ms e = some o ∧ Reads outer N o.expr o.values o.bitsets A := by
  obtain ⟨hB, V, hV, hW, hsum⟩ := id hA
  obtain ⟨⟨e', code⟩, h⟩ := compileC_runtime_total (n := k)
    (τ := contextTypes τ (baseId Ms) (storedInputs Ms)) (ρ' := outer) hN hk
    (context_agree outer (baseId Ms) (storedInputs Ms)) e V hne ho hB (hq _) hc hV hW ht
  obtain ⟨vs, ws, h1, h2⟩ := context_runtime (τ := τ) hN hs ho (hq _) hc hA h
  obtain ⟨fl, hfl⟩ : ∃ fl, contextObject k τ outer Ms e = some ⟨fl, e', vs, ws⟩ :=
    ⟨_, by simp only [contextObject, h1, Option.bind_eq_bind, Option.bind_some]; rfl⟩
  exact ⟨_, hfl, h2⟩

theorem denotes_sum {a : CSum} (hw : ∀ p ∈ V, WellTyped N p) (hg : ∀ c ∈ a, CompBuilt c)
    (h : List.Forall₂ (CompDenotes ρ) a V) : SumDenotes ρ N a (Spec.sumOf V) := ⟨hg, V, h, hw, rfl⟩

theorem takeGrade_runtime (hN : N ≤ 63) {K : Object} {g : ℤ} (hM : HasComponents outer N M V)
    (hc : M.expr.IsChain fun c d => Apart c.blade d.blade) (hK : ScalarValue outer N K g)
    (hst : K.expr = [⟨.stored, .const 0⟩]) :
    ∃ o, takeGrade (k + 1) τ outer M K = some o ∧
      Reads outer N o.expr o.values o.bitsets (gradePart g (Spec.sumOf V)) := by
  obtain ⟨a, t, h1, hne, w1, w2, d1, d2, -, h5⟩ := args2_runtime hN hM hK
  have hsi : storedInputs [M, K] ≠ [] := by
    intro h
    have : K ∈ storedInputs [M, K] := by
      simp [storedInputs, hst, hasStoredC, hasStored]
    rw [h] at this
    cases this
  have ht : ∃ T i, t = .value T i := by
    rcases w2 with ⟨v, rfl⟩ | ⟨T, i, -, -, rfl⟩
    · exfalso
      have key : ∀ (base : Nat) (as : List CSum), arguments base [M, K] = some as →
          ∃ T i, as[1]? = some [⟨.value T i, .const 0⟩] := by
        intro base as h
        have hK' : ∀ b, arguments b [K] = some [[⟨.value (b + 1) 0, .const 0⟩]] := by
          intro b
          have h0 : tagC (b + 1) 0 0 [⟨.stored, .const 0⟩] = some [⟨.value (b + 1) 0, .const 0⟩] := by rfl
          rw [arguments, if_pos (by rw [hst]; rfl), hst, h0]
          rfl
        rw [arguments] at h
        split at h
        · simp only [hK', Option.bind_eq_bind, Option.bind_eq_some_iff, Option.bind_some, Option.some.injEq] at h
          obtain ⟨x, -, rfl⟩ := h
          exact ⟨_, _, rfl⟩
        · simp only [hK', Option.bind_eq_bind, Option.bind_some, Option.some.injEq] at h
          subst h
          exact ⟨_, _, rfl⟩
      obtain ⟨T, i, h⟩ := key _ _ h1
      simp at h
    · exact ⟨T, i, rfl⟩
  obtain ⟨T, i, rfl⟩ := ht
  have hca := chain_evaluated h5 hc
  have he := keepGrade_value (t := T) (i := i) (n := k + 1) (by omega) a hne w1 hca
  have gt := (leaf_ge (R := True) (n := k + 1) w2).1
  have hgr := Local.gradable w1
  have hA := keepGrade_sound hN gt.built gt.lit d2 a _ _
    (denotes_sum hM.2.2.2 (fun c hc => (hgr c hc).1) d1) he
  have hge : ∀ c ∈ a, GE True (k + 1) (baseId [M, K] + 1) (baseId [M, K] + (storedInputs [M, K]).length)
      (kept (.value T i) c).coef := by
    intro c hc
    have h2 := ge_ifElse (gt_equal ((w1 c hc).grade (R := True) (n := k + 1)) gt)
      ((leaf_ge (R := True) (n := k + 1) (w1 c hc).leaf).1) (ge_const 0)
    have h3 := keepComp_value (t := T) (i := i) (w1 c hc)
    have h4 : keepComp (.value T i) c = some (mkComp (mkIfElse (mkEqual (mkCountOneBits c.blade.bits) (.value T i))
        c.coef (.const 0)) c.blade) := by
      unfold keepComp
      split
      · next h => cases h
      · next h => cases h
      · rfl
    rw [h4, Option.some.injEq] at h3
    have h5 := congrArg Comp.coef h3
    simp only [mkComp, if_neg (w1 c hc).grades] at h5
    rw [← h5]
    exact h2
  obtain ⟨o, ho, hr⟩ := object_runtime (τ := τ) (k := k + 1) hN (by omega) hsi (by simpa using hne)
    (by
      intro x hx
      obtain ⟨c, hc, rfl⟩ := List.mem_map.1 hx
      refine ⟨(hge c hc).ev, .inl (by simp [kept, isConstant, isConstantAll]), ?_⟩
      rcases (w1 c hc).blade with ⟨b, e, -⟩ | ⟨G, t, i, hL, hU, g0, g1, e⟩
      · exact .inl ⟨b, e⟩
      · exact .inr ⟨G, _, g0, g1, e, .bitset t i hL hU⟩)
    (by
      intro τ x hx
      obtain ⟨c, hc, rfl⟩ := List.mem_map.1 hx
      refine ⟨(hge c hc).noInt τ, ?_⟩
      rcases (w1 c hc).blade with ⟨b, e, -⟩ | ⟨G, t, i, hL, hU, g0, g1, e⟩
      · simp [kept, e, Blade.bits, NoIntQuotient]
      · simp [kept, e, Blade.bits, NoIntQuotient])
    (by
      intro x hx
      obtain ⟨c, hc, rfl⟩ := List.mem_map.1 hx
      refine ⟨Option.isSome_iff_exists.2 ((hge c hc).comp trivial), fun G x hx => ?_⟩
      rcases (w1 c hc).blade with ⟨b, e, -⟩ | ⟨G', t, i, hL, hU, g0, g1, e⟩
      · simp [kept, e] at hx
      · have hx' : c.blade = .dyn G x := hx
        rw [e] at hx'
        cases hx'
        rw [compile_bitset hL hU]; rfl)
    (by rw [List.isChain_map]; exact hca) hA
  refine ⟨o, ?_, hr⟩
  simp only [takeGrade, call2, h1, scalarCoef_single, Option.bind_eq_bind, Option.bind_some, he]
  exact ho

/-! ## Grade parts, the grade is a literal -/

/-- What is kept of a component for the literal grade `j`. -/
def keptLit (j : Nat) (c : Comp) : Option Comp :=
  match c.blade with
  | .const b => if ones b = j then some c else none
  | .dyn G e =>
    if G &&& ((1 : Word) <<< j) ≠ 0 then
      some ⟨.fn .ifElse [.fn .equal [.fn .countOneBits [e], .const j], c.coef, .const 0], .dyn ((1 : Word) <<< j) e⟩
    else none

theorem shift_ne_one {j : Nat} (h0 : j ≠ 0) (h : j ≤ 63) : (1 : Word) <<< j ≠ 1 ∧ (1 : Word) <<< j ≠ 0 := by
  constructor <;> intro e
  · have := congrArg BitVec.toNat e
    rw [one_shift_toNat h] at this
    simp only [BitVec.ofNat_eq_ofNat, BitVec.toNat_ofNat] at this
    have : 2 ^ j = 2 ^ 0 := by omega
    exact h0 (Nat.pow_right_injective (le_refl 2) this)
  · have := congrArg BitVec.toNat e
    rw [one_shift_toNat h] at this
    have h2 : 0 < 2 ^ j := by positivity
    simp at this

theorem keepComp_lit {j : Nat} (h0 : j ≠ 0) (hj : j ≤ 63) {c : Comp} (h : Local L U c) :
    keepComp (.const j) c = some ((keptLit j c).getD Comp.zero) := by
  obtain ⟨x, bl⟩ := c
  rcases h.blade with ⟨b, e, -⟩ | ⟨G, t, i, -, -, g0, -, e⟩
  · simp only at e
    subst e
    simp only [keepComp, keptLit, Nat.cast_inj]
    split <;> rfl
  · simp only at e
    subst e
    simp only [keepComp, keptLit, Int.toNat_natCast]
    by_cases hG : G &&& ((1 : Word) <<< j) ≠ 0
    · rw [if_pos ⟨by omega, by omega, hG⟩, if_pos hG]
      have h1 : mkEqual (mkCountOneBits (.bitset t i)) (.const j) =
          .fn .equal [.fn .countOneBits [.bitset t i], .const j] := by
        simp [mkEqual, mkCountOneBits, isConstant, isConstantAll]
      have h4 : ∀ y, mkIfElse (.fn .equal y) x (.const 0) = .fn .ifElse [.fn .equal y, x, .const 0] := by
        intro y
        have := h.nonzero
        simp only at this
        simp [mkIfElse, this]
      have hb : (Blade.dyn ((1 : Word) <<< j) (.bitset t i)).grades ≠ 0 := (shift_ne_one h0 hj).2
      rw [h1, h4, mkDynBlade_var rfl, if_neg (shift_ne_one h0 hj).1]
      simp only [Option.bind_eq_bind, Option.bind_some, Option.getD_some]
      rw [mkComp_runtime (by simp) hb]
    · rw [if_neg fun h => hG h.2.2, if_neg hG]
      rfl

theorem keptLit_nonzero {j : Nat} {c d : Comp} (h : Local L U c) (hk : keptLit j c = some d) : d.coef ≠ .const 0 := by
  unfold keptLit at hk
  split at hk
  · split at hk
    · cases hk; exact h.nonzero
    · cases hk
  · split at hk
    · cases hk; simp
    · cases hk

theorem mem_grades_le {j : Nat} (hj : j ≤ 63) {G : Word} (h : G &&& ((1 : Word) <<< j) ≠ 0) : (1 : Word) <<< j ≤ G := by
  have h1 : G.getLsbD j = true := mem_vecs.1 ((mem_grades (by omega : j < 64)).1 h)
  rw [BitVec.le_def, one_shift_toNat hj]
  by_contra hlt
  rw [BitVec.getLsbD, Nat.testBit_lt_two_pow (by omega)] at h1
  cases h1

theorem clash_bit {j : Nat} (hj : j ≤ 63) {a b : Blade} {G H : Word} {e f : Expr}
    (ha : a = .dyn G e) (hb : b = .dyn H f) (hG : G &&& ((1 : Word) <<< j) ≠ 0)
    (hH : H &&& ((1 : Word) <<< j) ≠ 0) : Clash j a b :=
  ⟨G, e, H, f, ha, hb, ⟨⟨j, by omega⟩, (mem_grades _).1 hG, rfl⟩, ⟨⟨j, by omega⟩, (mem_grades _).1 hH, rfl⟩⟩

theorem apart_kept {j : Nat} (hj : j ≤ 63) {c c' d d' : Comp} (h : Apart c.blade d.blade)
    (hc : ¬ Clash j c.blade d.blade) (h1 : keptLit j c = some c') (h2 : keptLit j d = some d') :
    Apart c'.blade d'.blade := by
  unfold keptLit at h1 h2
  split at h1
  · next b e =>
    split at h1
    · next hb =>
      cases h1
      split at h2
      · next b' e' =>
        split at h2
        · cases h2; exact h
        · cases h2
      · next G y e' =>
        split at h2
        · next hG =>
          cases h2
          rw [e]
          refine ⟨?_, fun _ _ _ _ h => by cases h⟩
          simp [Blade.lt, hb]
        · cases h2
    · cases h1
  · next G y e =>
    split at h1
    · next hG =>
      cases h1
      split at h2
      · next b' e' =>
        split at h2
        · next hb =>
          cases h2
          exfalso
          have := h.1
          rw [e, e'] at this
          simp only [Blade.lt, hb, decide_eq_true_eq] at this
          have h3 := mem_grades_le hj hG
          rw [BitVec.lt_def] at this
          rw [BitVec.le_def] at h3
          omega
        · cases h2
      · next H z e' =>
        split at h2
        · next hH => exact absurd (clash_bit hj e e' hG hH) hc
        · cases h2
    · cases h1

theorem keepGrade_lit {j : Nat} (h0 : j ≠ 0) (hj : j ≤ 63) (hn : n ≠ 0) : ∀ a : CSum, a ≠ [] →
    (∀ c ∈ a, Local L U c) → a.Pairwise (fun c d => Apart c.blade d.blade ∧ ¬ Clash j c.blade d.blade) →
    (a.filterMap (keptLit j)).IsChain (fun c d => Apart c.blade d.blade) ∧
    keepGrade n (.const j) a =
      some (if a.filterMap (keptLit j) = [] then [Comp.zero] else a.filterMap (keptLit j))
  | [], h, _, _ => absurd rfl h
  | [c], _, hl, _ => by
    simp only [keepGrade, keepComp_lit h0 hj (hl c (by simp)), Option.bind_eq_bind, Option.bind_some]
    cases hk : keptLit j c with
    | none => simp [List.filterMap, hk]
    | some d => simp [List.filterMap, hk]
  | c :: d :: cs, _, hl, hc => by
    obtain ⟨hc1, hc2⟩ := List.pairwise_cons.1 hc
    obtain ⟨ih1, ih⟩ := keepGrade_lit h0 hj hn (d :: cs) (by simp) (fun x hx => hl x (List.mem_cons_of_mem _ hx)) hc2
    obtain ⟨m, rfl⟩ := Nat.exists_eq_succ_of_ne_zero hn
    have hkg : keepGrade (m + 1) (.const j) (c :: d :: cs) = addC (m + 1) [(keptLit j c).getD Comp.zero]
        (if (d :: cs).filterMap (keptLit j) = [] then [Comp.zero] else (d :: cs).filterMap (keptLit j)) := by
      simp only [keepGrade, keepComp_lit h0 hj (hl c (by simp)), ih, Option.bind_eq_bind, Option.bind_some]
    rw [hkg]
    have hmem : ∀ x ∈ (d :: cs).filterMap (keptLit j), ∃ y ∈ d :: cs, keptLit j y = some x := by
      intro x hx
      simpa using List.mem_filterMap.1 hx
    rw [List.filterMap_cons (l := d :: cs)]
    generalize (d :: cs).filterMap (keptLit j) = r at ih1 hmem
    cases hk : keptLit j c with
    | none =>
      refine ⟨ih1, ?_⟩
      cases r with
      | nil => simp [addC, Comp.zero]
      | cons x xs =>
        obtain ⟨y, hy, hyx⟩ := hmem x (by simp)
        have := keptLit_nonzero (hl y (List.mem_cons_of_mem _ hy)) hyx
        simp [addC, Comp.zero, this]
    | some c' =>
      have hc0 := keptLit_nonzero (hl c (by simp)) hk
      cases r with
      | nil => exact ⟨List.isChain_singleton _, by simp [addC, Comp.zero, hc0]⟩
      | cons x xs =>
        obtain ⟨y, hy, hyx⟩ := hmem x (by simp)
        obtain ⟨a1, a2⟩ := hc1 y hy
        have ha := apart_kept hj a1 a2 hk hyx
        refine ⟨List.isChain_cons_cons.2 ⟨ha, ih1⟩, ?_⟩
        simp only [List.cons_ne_nil, if_false, Option.getD_some]
        exact addC_cons hc0 (keptLit_nonzero (hl y (List.mem_cons_of_mem _ hy)) hyx) (apart_ne ha) ha.1

theorem clash_evaluated {j : Nat} {a b : Blade} : Clash j a b ↔ Clash j (evaluated a) (evaluated b) := by
  cases a <;> cases b <;> simp [Clash, evaluated]

theorem pairwise_evaluated {j : Nat} {a s : CSum}
    (h : a.map (fun c => evaluated c.blade) = s.map (fun c => evaluated c.blade))
    (hc : s.Pairwise fun c d => Apart c.blade d.blade ∧ ¬ Clash j c.blade d.blade) :
    a.Pairwise fun c d => Apart c.blade d.blade ∧ ¬ Clash j c.blade d.blade := by
  have key : ∀ s : CSum, s.Pairwise (fun c d => Apart c.blade d.blade ∧ ¬ Clash j c.blade d.blade) ↔
      (s.map fun c => evaluated c.blade).Pairwise (fun x y => x.lt y = true ∧ ¬ Clash j x y) := by
    intro s
    rw [List.pairwise_map]
    refine ⟨fun h => h.imp fun {c d} h => ?_, fun h => h.imp fun {c d} h => ?_⟩
    · exact ⟨apart_iff.1 h.1, fun h' => h.2 (clash_evaluated.2 h')⟩
    · exact ⟨apart_iff.2 h.1, fun h' => h.2 (clash_evaluated.1 h')⟩
  rw [key] at hc ⊢
  rwa [h]

theorem takeGrade_runtime_lit (hN : N ≤ 63) {K : Object} {j : Nat} (h0 : j ≠ 0) (hj : j ≤ 63)
    (hM : HasComponents outer N M V) (hsM : hasStoredC M.expr = true)
    (hc : M.expr.Pairwise fun c d => Apart c.blade d.blade ∧ ¬ Clash j c.blade d.blade)
    (hK : ScalarValue outer N K j) (hst : K.expr = [⟨.const j, .const 0⟩]) :
    ∃ o, takeGrade (k + 1) τ outer M K = some o ∧
      Reads outer N o.expr o.values o.bitsets (gradePart j (Spec.sumOf V)) := by
  obtain ⟨a, t, h1, hne, w1, w2, d1, d2, -, h5⟩ := args2_runtime hN hM hK
  have hsi : storedInputs [M, K] ≠ [] := by
    intro h
    have : M ∈ storedInputs [M, K] := by
      simp [storedInputs, hsM]
    rw [h] at this
    cases this
  have ht : t = .const j := by
    have hK' : ∀ b, arguments b [K] = some [[⟨.const j, .const 0⟩]] := by
      intro b
      rw [arguments, if_neg (by rw [hst]; simp [hasStoredC, hasStored, Blade.hasStored]), hst]
      rfl
    rw [arguments, if_pos hsM] at h1
    simp only [hK', Option.bind_eq_bind, Option.bind_eq_some_iff, Option.bind_some, Option.some.injEq,
      List.cons.injEq, Comp.mk.injEq] at h1
    obtain ⟨x, -, -, ⟨⟨e, -⟩, -⟩, -⟩ := h1
    exact e.symm
  subst ht
  obtain ⟨hca, he⟩ := keepGrade_lit (n := k + 1) h0 hj (by omega) a hne w1 (pairwise_evaluated h5 hc)
  have gt := ge_const (R := True) (n := k + 1) (L := baseId [M, K] + 1)
    (U := baseId [M, K] + (storedInputs [M, K]).length) (j : Int)
  have hgr := Local.gradable w1
  have hA := keepGrade_sound (m := (j : ℤ)) hN gt.built gt.lit (by simpa using d2) a _ _
    (denotes_sum hM.2.2.2 (fun c hc => (hgr c hc).1) d1) he
  have hobj : ∃ o, contextObject (k + 1) τ outer [M, K] (if a.filterMap (keptLit j) = [] then [Comp.zero] else
      a.filterMap (keptLit j)) = some o ∧ Reads outer N o.expr o.values o.bitsets (gradePart j (Spec.sumOf V)) := by
    by_cases hr : a.filterMap (keptLit j) = []
    · rw [if_pos hr] at hA ⊢
      have hcon := context_ge (τ := τ) (k := k + 1) (Ms := [M, K]) (R := True)
        ⟨canonical_single ⟨0, rfl, by simp [vecs]⟩, by simpa using ge_const 0⟩ hA
      obtain ⟨o, ho⟩ := hcon.2 trivial (by omega)
      exact ⟨o, ho, (hcon.1 o ho).2⟩
    · rw [if_neg hr] at hA ⊢
      have hshape : ∀ x ∈ a.filterMap (keptLit j), ∃ c ∈ a,
          GE True (k + 1) (baseId [M, K] + 1) (baseId [M, K] + (storedInputs [M, K]).length) x.coef ∧
          (isConstant x.coef = false ∨ ∃ v, v ≠ 0 ∧ x.coef = .const v) ∧
          ((∃ b, x.blade = .const b) ∨ ∃ G t i, baseId [M, K] + 1 ≤ t ∧
            t ≤ baseId [M, K] + (storedInputs [M, K]).length ∧ G ≠ 0 ∧ G ≠ 1 ∧ x.blade = .dyn G (.bitset t i)) := by
        intro x hx
        obtain ⟨c, hc, hk⟩ := List.mem_filterMap.1 hx
        refine ⟨c, hc, ?_⟩
        have hlf := w1 c hc
        have hge := (leaf_ge (R := True) (n := k + 1) hlf.leaf).1
        rcases hlf.blade with ⟨b, e, -⟩ | ⟨G, t, i, hL, hU, g0, g1, e⟩
        · have : x = c := by
            unfold keptLit at hk
            rw [e] at hk
            simp only at hk
            split at hk
            · cases hk; rfl
            · cases hk
          subst this
          refine ⟨hge, ?_, .inl ⟨b, e⟩⟩
          rcases hlf.leaf with ⟨v, hv⟩ | ⟨t, i, -, -, hv⟩
          · exact .inr ⟨v, fun h => hlf.nonzero (by rw [hv, h]), hv⟩
          · exact .inl (by rw [hv]; rfl)
        · unfold keptLit at hk
          rw [e] at hk
          simp only at hk
          split at hk
          · cases hk
            refine ⟨?_, .inl (by simp [isConstant, isConstantAll]),
              .inr ⟨_, t, i, hL, hU, (shift_ne_one h0 hj).2, (shift_ne_one h0 hj).1, rfl⟩⟩
            have h2 := ge_ifElse (gt_equal (ge_count (R := True) (n := k + 1) (i := i) hL hU) gt) hge (ge_const 0)
            have h3 : mkEqual (mkCountOneBits (.bitset t i)) (.const j) =
                .fn .equal [.fn .countOneBits [.bitset t i], .const j] := by
              simp [mkEqual, mkCountOneBits, isConstant, isConstantAll]
            have h4 : ∀ y, mkIfElse (.fn .equal y) c.coef (.const 0) =
                .fn .ifElse [.fn .equal y, c.coef, .const 0] := by
              intro y
              simp [mkIfElse, hlf.nonzero]
            rw [h3, h4] at h2
            exact h2
          · cases hk
      refine object_runtime (τ := τ) (k := k + 1) hN (by omega) hsi hr ?_ ?_ ?_ hca hA
      · intro x hx
        obtain ⟨c, -, h1, h2, h3⟩ := hshape x hx
        refine ⟨h1.ev, h2, h3.imp id ?_⟩
        rintro ⟨G, t, i, hL, hU, g0, g1, e⟩
        exact ⟨G, _, g0, g1, e, .bitset t i hL hU⟩
      · intro τ x hx
        obtain ⟨c, -, h1, h2, h3⟩ := hshape x hx
        refine ⟨h1.noInt τ, ?_⟩
        rcases h3 with ⟨b, e⟩ | ⟨G, t, i, hL, hU, g0, g1, e⟩ <;> simp [e, Blade.bits, NoIntQuotient]
      · intro x hx
        obtain ⟨c, -, h1, h2, h3⟩ := hshape x hx
        refine ⟨Option.isSome_iff_exists.2 (h1.comp trivial), fun G' y hy => ?_⟩
        rcases h3 with ⟨b, e⟩ | ⟨G, t, i, hL, hU, g0, g1, e⟩
        · simp [e] at hy
        · rw [e] at hy
          cases hy
          rw [compile_bitset hL hU]; rfl
  obtain ⟨o, ho, hr⟩ := hobj
  refine ⟨o, ?_, hr⟩
  simp only [takeGrade, call2, h1, scalarCoef_single, Option.bind_eq_bind, Option.bind_some, he]
  exact ho

end Api

end GATL
