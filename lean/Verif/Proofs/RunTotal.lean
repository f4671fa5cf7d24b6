import Verif.Proofs.CompileTotal
import Verif.Proofs.Scale
import Verif.Spec.Totality

/-!
# Programs compile
-/

namespace GATL.Total

open Expr Spec

variable {N k : Nat} {ρ outer : Env} {τ : Types}

/-! ## Functions of multivectors that compile -/

/-- A function of one sum of components compiles, with the given bounds for the result. -/
def Tot1 (N : Nat) (f : Nat → CSum → Option CSum) (β : Nat → Nat) : Prop :=
  ∀ (D v : Nat) (a : CSum), Canonical a → In N a → Weighs D a v → D < B → β v < B →
    ∃ e, Ev (fun k => f k a) e ∧ Canonical e ∧ Weighs D e (β v)

@[inherit_doc Tot1]
def Tot2 (N : Nat) (f : Nat → CSum → CSum → Option CSum) (β δ : Nat → Nat → Nat) : Prop :=
  ∀ (D D' v w : Nat) (a b : CSum), Canonical a → Canonical b → In N a → In N b → Weighs D a v → Weighs D' b w →
    δ D D' < B → β v w < B → ∃ e, Ev (fun k => f k a b) e ∧ Canonical e ∧ Weighs (δ D D') e (β v w)

theorem tot_add : Tot2 N addC (· + ·) max := by
  intro D D' v w a b ha hb _ _ hv hw hD hB
  obtain ⟨e, h1, h2, -, h3⟩ := addC_total (D := max D D') hD ha hb (hv.mono (le_max_left ..) le_rfl)
    (hw.mono (le_max_right ..) le_rfl) hB
  exact ⟨e, h1, h2, h3⟩

theorem in_constSum (v : Int) : In N (constSum v) := by
  intro c hc
  simp only [constSum, List.mem_singleton] at hc
  subst hc
  exact ⟨0, rfl, fun i hi => by simp at hi⟩

theorem canonical_constSum (v : Int) : Canonical (constSum v) := canonical_single ⟨0, rfl, by simp [vecs]⟩

theorem tot_scale (hN : N ≤ 62) (v : Int) :
    Tot1 N (fun k => mulC (orthMapping 63 mkRealFactor .gp) k (constSum v)) (max 1 v.natAbs * ·) := by
  intro D w a ha hI hw hD hB
  have hM := orth_sign (N := N) (dims := 63) hN (by omega) le_rfl (f := mkRealFactor) (fun b => ⟨1, rfl, by simp⟩) .gp
  obtain ⟨e, h1, h2, h3⟩ := mulC_total (D := 0) (D' := D) (by omega) hM _ (constSum v) a (max 1 v.natAbs) w le_rfl
    (canonical_constSum v) ha (in_constSum v) hI (Weighs.one ((PW.const 0 v).mono le_rfl (le_max_right ..))) hw hB
  exact ⟨e, h1, h2, by simpa using h3⟩

theorem tot_neg (hN : N ≤ 62) : Tot1 N negC id := by
  intro D w a ha hI hw hD hB
  obtain ⟨e, h1, h2, h3⟩ := tot_scale hN (-1) D w a ha hI hw hD (by simpa using hB)
  exact ⟨e, h1, h2, by simpa using h3⟩

theorem tot_sub (hN : N ≤ 62) : Tot2 N subC (· + ·) max := by
  intro D D' v w a b ha hb hIa hIb hv hw hD hB
  have hB : v + w < B := hB
  obtain ⟨u, h1, h2, h3⟩ := tot_neg hN D' w b hb hIb hw (lt_of_le_of_lt (le_max_right ..) hD) (show w < B by omega)
  obtain ⟨e, g1, g2, -, g3⟩ := addC_total (D := max D D') hD ha h2 (hv.mono (le_max_left ..) le_rfl)
    (h3.mono (le_max_right ..) le_rfl) hB
  exact ⟨e, h1.bind g1, g2, g3⟩

theorem tot_mul {M : CMapping} (hM : SignMapping N M) : Tot2 N (mulC M) (· * ·) (· + ·) :=
  fun _ _ v w a b ha hb hIa hIb hv hw hD hB => mulC_total hD hM _ a b v w le_rfl ha hb hIa hIb hv hw hB

theorem tot_minus (pattern : Word) : Tot1 N (fun k => gradedMinusC k pattern) id :=
  fun _ w a ha _ hw hD hB => minus_total hD pattern a w ha hw hB

/-! ## Contexts -/

theorem in_of {s : CSum} {A : MV ℝ} (hc : Canonical s) (h : SumDenotes ρ N s A) : In N s := by
  intro c hm
  obtain ⟨b, eb, -⟩ := canonical_known hc c hm
  exact ⟨b, eb, fun i hi => inSpaceC_of h c hm b eb i (mem_vecs.2 hi)⟩

theorem const_weight {D w : Nat} {c : Int} (h : PW D (.const c) w) : c.natAbs ≤ w := by
  obtain ⟨X, e, -, hw⟩ := h
  rcases X with _ | ⟨m, _ | ⟨m', X⟩⟩
  · change Expr.const c = Expr.const 0 at e
    cases e
    simp
  · rw [wt_cons] at hw
    have e : Expr.const c = prodL m.items := e
    obtain ⟨d, fs⟩ := m
    unfold Mon.items at e
    simp only at e hw
    split at e
    · next h1 =>
      rcases fs with _ | ⟨f, _ | ⟨g, gs⟩⟩
      · change Expr.const c = Expr.const 1 at e
        cases e
        omega
      · exact absurd (Item.expr_const (a := .fac f.1 f.2) e.symm) (by simp)
      · cases e
    · rcases fs with _ | ⟨f, fs⟩
      · change Expr.const c = Expr.const d at e
        cases e
        omega
      · cases e
  · cases e

theorem Weighs.plain {D : Nat} : ∀ {s : CSum} {w : Nat}, Weighs D s w → (∀ c ∈ s, IsConst c.coef) → PlainWs s w
  | [], _, _, _ => trivial
  | c :: cs, w, h, hc => by
    obtain ⟨u, v, h1, h2, h3⟩ := h
    obtain ⟨x, ex⟩ := hc c (by simp)
    rw [ex] at h1
    exact ⟨u, v, .inr ⟨x, ex, const_weight h1⟩, h2.plain fun c h => hc c (by simp [h]), h3⟩

/-- Evaluation in a context whose inputs have the given types. -/
theorem context_total {D w base n : Nat} {e : CSum}
    (hq : ∀ Q : Expr → Prop, (∀ v, Q (.const v)) → ExpClosed Q → (∀ e, Q e → hasStored e = false) →
      (∀ t i, base < t → t ≤ base + n → Q (.value t i)) → Within Q e)
    (hb : ∀ c ∈ e, Built c.coef) (hw : Weighs D e w) (hB : w < B) :
    ∃ e', PlainWs e' w ∧ ∃ k, ∀ j, k ≤ j → ∀ (Ms : List Object) (A : MV ℝ), baseId Ms = base → (storedInputs Ms).length = n →
      SumDenotes (contextEnv outer (baseId Ms) (storedInputs Ms)) N e A →
      ∃ o, contextObject j τ outer Ms e = some o ∧ o.expr = e' := by
  by_cases hn : n = 0
  · subst hn
    have hc := hq IsConst isConst_const expClosed_const (by rintro _ ⟨v, rfl⟩; rfl) (by intro t i h1 h2; omega)
    refine ⟨e, hw.plain hc.2, 0, fun j _ Ms A _ hs _ => ?_⟩
    rw [List.length_eq_zero_iff] at hs
    exact ⟨_, by simp only [contextObject, contextEval, hs, List.isEmpty_nil, if_true, Option.bind_eq_bind, Option.bind_some]; rfl, rfl⟩
  · have hp := hq (Poly (base + 1) (base + n)) poly_const poly_closed poly_stored (fun t i h1 h2 => .inr ⟨t, i, h1, h2, rfl⟩)
    obtain ⟨s', p, ⟨k, hk⟩, hpl⟩ := compileC_total e w hp hb hw hB
    refine ⟨s', hpl, k, fun j hj Ms A h1 h2 hA => ?_⟩
    have hk' := hk j hj
    have hst : ∀ c ∈ e, Staged j base (base + n) c := fun c h' =>
      ⟨canonical_known hp.1 c h', fun d hd => (compile_out (poly_evaluable (hb c h') (hp.2 c h')) d hd).coef⟩
    obtain ⟨-, hr⟩ := compileC_out e s' p hp.1.1 hst (canonical_iff.1 hp.1).2.2.1 hk'
    obtain ⟨vs, hx, -⟩ := hr (contextTypes τ (baseId Ms) (storedInputs Ms)) _ outer N A
      (fun t ht i => ((context_agree outer _ (storedInputs Ms)) t (by omega) i).imp Eq.symm Eq.symm) hA
      (fun c hc => poly_noInt _ (hp.2 c hc))
    have hne : storedInputs Ms ≠ [] := by
      rintro h
      rw [h] at h2
      exact hn h2.symm
    subst h1 h2
    simp only at hk'
    exact ⟨_, by simp only [contextObject, contextEval, List.isEmpty_iff, hne, if_false, hk', Option.bind_eq_bind, Option.bind_some, hx]; rfl,
      rfl⟩

theorem tagC_total (T : Nat) : ∀ (s : CSum) (v b w : Nat), (∀ c ∈ s, Known c) → PlainWs s w →
    ∃ a, tagC T v b s = some a ∧ Weighs 1 a w
  | [], _, _, _, _, _ => ⟨[], rfl, trivial⟩
  | c :: cs, v, b, w, hk, h => by
    obtain ⟨u, u', h1, h2, h3⟩ := h
    obtain ⟨x, ex, -⟩ := hk c (by simp)
    obtain ⟨a, ha, hw⟩ := tagC_total T cs (v + c.countValues) (b + c.countBits) u' (fun c h => hk c (by simp [h])) h2
    refine ⟨mkComp (c.coef.tag T v b) (.const x) :: a, ?_, u, u', ?_, hw, h3⟩
    · simp only [tagC, ex, Blade.tag, ha, Option.bind_eq_bind, Option.bind_some]
    · refine PW.mkComp _ ?_
      rcases h1 with ⟨e, h⟩ | ⟨y, e, h⟩ <;> rw [e]
      · exact (PW.atom (.val T v)).mono le_rfl h
      · exact (PW.const 1 y).mono le_rfl h

theorem arguments_total : ∀ (base : Nat) (Ms : List Object) (ws : List Nat), (∀ M ∈ Ms, PlainC M.expr) →
    List.Forall₂ (fun M w => PlainWs M.expr w) Ms ws →
    ∃ as, arguments base Ms = some as ∧ List.Forall₂ (fun a w => Weighs 1 a w) as ws
  | _, [], ws, _, h => by cases h; exact ⟨[], rfl, .nil⟩
  | base, M :: Ms, ws, hp, h => by
    cases h with
    | @cons _ w _ ws h1 h2 =>
      unfold arguments
      split
      · obtain ⟨a, ha, hw⟩ := tagC_total (base + 1) M.expr 0 0 w (canonical_known (hp M (by simp)).1) h1
        obtain ⟨as, has, hws⟩ := arguments_total (base + 1) Ms ws (fun M h => hp M (by simp [h])) h2
        exact ⟨a :: as, by simp [ha, has], .cons hw hws⟩
      · obtain ⟨as, has, hws⟩ := arguments_total base Ms ws (fun M h => hp M (by simp [h])) h2
        exact ⟨M.expr :: as, by simp [has], .cons h1.weighs hws⟩

theorem arguments_congr : ∀ (base : Nat) (Ms Ms' : List Object), Ms.map Object.expr = Ms'.map Object.expr →
    arguments base Ms = arguments base Ms'
  | _, [], [], _ => rfl
  | _, [], _ :: _, h => by simp at h
  | _, _ :: _, [], h => by simp at h
  | base, M :: Ms, M' :: Ms', h => by
    simp only [List.map_cons, List.cons.injEq] at h
    unfold arguments
    rw [h.1, arguments_congr (base + 1) Ms Ms' h.2, arguments_congr base Ms Ms' h.2]

theorem baseId_congr {Ms Ms' : List Object} (h : Ms.map Object.expr = Ms'.map Object.expr) : baseId Ms = baseId Ms' := by
  unfold baseId
  rw [show (fun M : Object => greaterIdC M.expr) = greaterIdC ∘ Object.expr from rfl, ← List.map_map, ← List.map_map, h]

theorem storedInputs_congr : ∀ {Ms Ms' : List Object}, Ms.map Object.expr = Ms'.map Object.expr →
    (storedInputs Ms).length = (storedInputs Ms').length
  | [], [], _ => rfl
  | [], _ :: _, h => by simp at h
  | _ :: _, [], h => by simp at h
  | M :: Ms, M' :: Ms', h => by
    simp only [List.map_cons, List.cons.injEq] at h
    have ih := storedInputs_congr h.2
    simp only [storedInputs, List.filter_cons, h.1] at ih ⊢
    split <;> simp [ih]

/-! ## Calls of eager programs -/

/-- The results of a computation that eventually succeeds: a fixed type with bounded coefficients. -/
def EvO (w : Nat) (A : MV ℝ) (outer : Env) (N : Nat) (g : Nat → Option Object) : Prop :=
  ∃ s, PlainWs s w ∧ ∃ k, ∀ j, k ≤ j → ∃ o, g j = some o ∧ o.expr = s ∧ Holds outer N o A

theorem call1_evo (hN : N ≤ 63) {f : Nat → CSum → Option CSum} {F : MV ℝ → MV ℝ} (hg : ∀ k, Good1 N (f k) F) {β : Nat → Nat}
    (hf : Tot1 N f β) {g : Nat → Option Object} {w : Nat} {A : MV ℝ} (h : EvO w A outer N g) (hB : β w < B) :
    EvO (β w) (F A) outer N fun j => g j >>= fun M => call1 j τ outer (f j) M := by
  obtain ⟨s, hs, k0, hk0⟩ := h
  obtain ⟨M, -, rfl, hM⟩ := hk0 k0 le_rfl
  obtain ⟨as, h1, h2⟩ := arguments_total (baseId [M]) [M] [w] (by simpa using hM.1) (.cons hs .nil)
  obtain ⟨a, _, ha, hnil, rfl⟩ := List.forall₂_cons_right_iff.1 h2
  cases hnil
  have hd : ∀ M' : Object, M'.expr = M.expr → Holds outer N M' A →
      SumDenotes (contextEnv outer (baseId [M']) (storedInputs [M'])) N a A := by
    intro M' e hM'
    have hc := arguments_congr (baseId [M]) [M'] [M] (by simp [e])
    rw [h1] at hc
    have hb := baseId_congr (Ms := [M']) (Ms' := [M]) (by simp [e])
    rw [← hb] at hc
    have hd := arguments_reads hN (base := baseId [M']) [M'] [] _ [A] hc (le_baseId (Ms := [M'])) (.cons hM'.2 .nil)
    rw [List.nil_append] at hd
    exact (List.forall₂_cons.1 hd).1
  have hwi := fun Q hc hv => arguments_within (Q := Q) (base := baseId [M]) hc [M] [] _ (by simpa using hM.1) hv h1 a (by simp)
  have hca := (hwi (fun _ => True) (fun _ => trivial) (fun _ _ _ _ => trivial)).1
  obtain ⟨e, ⟨k1, hk1⟩, -, hwe⟩ := hf 1 w a hca (in_of hca (hd M rfl hM)) ha (by norm_num) hB
  have he := hk1 k1 le_rfl
  have hde := (hg k1).denotes _ a e A (hd M rfl hM) he
  obtain ⟨e', hpl, k2, hk2⟩ := context_total (τ := τ) (outer := outer) (N := N) (base := baseId [M]) (n := (storedInputs [M]).length)
    (fun Q hc hE _ hv => (hg k1).within Q hc hE a e (hwi Q hc hv) he) (fun c hc => (hde.1 c hc).1) hwe hB
  refine ⟨e', hpl, max k0 (max k1 k2), fun j hj => ?_⟩
  obtain ⟨M', hg', e1, hM'⟩ := hk0 j (by omega)
  have hmap : [M'].map Object.expr = [M].map Object.expr := by simp [e1]
  have hj1 : f j a = some e := hk1 j (by omega)
  obtain ⟨o, ho, heo⟩ := hk2 j (by omega) [M'] (F A) (baseId_congr hmap) (storedInputs_congr hmap)
    ((hg j).denotes _ a e A (hd M' e1 hM') hj1)
  have hcall : call1 j τ outer (f j) M' = some o := by
    simp only [call1, arguments_congr _ _ _ hmap, baseId_congr hmap, h1, hj1, Option.bind_eq_bind, Option.bind_some, ho]
  refine ⟨o, ?_, heo, call1_holds hN (hg j) hM' hcall⟩
  simp only [hg', Option.bind_eq_bind, Option.bind_some, hcall]

theorem call2_evo (hN : N ≤ 63) {f : Nat → CSum → CSum → Option CSum} {F : MV ℝ → MV ℝ → MV ℝ} (hg : ∀ k, Good2 N (f k) F)
    {β δ : Nat → Nat → Nat} (hf : Tot2 N f β δ) (hδ : δ 1 1 < B) {g g' : Nat → Option Object} {v w : Nat} {A A' : MV ℝ}
    (h : EvO v A outer N g) (h' : EvO w A' outer N g') (hB : β v w < B) :
    EvO (β v w) (F A A') outer N fun j => g j >>= fun M => g' j >>= fun M' => call2 j τ outer (f j) M M' := by
  obtain ⟨s, hs, k0, hk0⟩ := h
  obtain ⟨M, -, rfl, hM⟩ := hk0 k0 le_rfl
  obtain ⟨s', hs', k0', hk0'⟩ := h'
  obtain ⟨L, -, rfl, hL⟩ := hk0' k0' le_rfl
  obtain ⟨as, h1, h2⟩ := arguments_total (baseId [M, L]) [M, L] [v, w] (by simpa using ⟨hM.1, hL.1⟩) (.cons hs (.cons hs' .nil))
  obtain ⟨a, _, ha, h3, rfl⟩ := List.forall₂_cons_right_iff.1 h2
  obtain ⟨b, _, hb, hnil, rfl⟩ := List.forall₂_cons_right_iff.1 h3
  cases hnil
  have hd : ∀ M' L' : Object, M'.expr = M.expr → L'.expr = L.expr → Holds outer N M' A → Holds outer N L' A' →
      SumDenotes (contextEnv outer (baseId [M', L']) (storedInputs [M', L'])) N a A ∧
      SumDenotes (contextEnv outer (baseId [M', L']) (storedInputs [M', L'])) N b A' := by
    intro M' L' e e' hM' hL'
    have hc := arguments_congr (baseId [M, L]) [M', L'] [M, L] (by simp [e, e'])
    rw [h1] at hc
    have hb := baseId_congr (Ms := [M', L']) (Ms' := [M, L]) (by simp [e, e'])
    rw [← hb] at hc
    have hd := arguments_reads hN (base := baseId [M', L']) [M', L'] [] _ [A, A'] hc (le_baseId (Ms := [M', L']))
      (.cons hM'.2 (.cons hL'.2 .nil))
    rw [List.nil_append] at hd
    exact ⟨(List.forall₂_cons.1 hd).1, (List.forall₂_cons.1 (List.forall₂_cons.1 hd).2).1⟩
  have hwi := fun Q hc hv => arguments_within (Q := Q) (base := baseId [M, L]) hc [M, L] [] _ (by simpa using ⟨hM.1, hL.1⟩) hv h1
  have hwa := fun Q hc hv => hwi Q hc hv a (by simp)
  have hwb := fun Q hc hv => hwi Q hc hv b (by simp)
  have hca := (hwa (fun _ => True) (fun _ => trivial) (fun _ _ _ _ => trivial)).1
  have hcb := (hwb (fun _ => True) (fun _ => trivial) (fun _ _ _ _ => trivial)).1
  obtain ⟨da, db⟩ := hd M L rfl rfl hM hL
  obtain ⟨e, ⟨k1, hk1⟩, -, hwe⟩ := hf 1 1 v w a b hca hcb (in_of hca da) (in_of hcb db) ha hb hδ hB
  have he := hk1 k1 le_rfl
  have hde := (hg k1).denotes _ a b e A A' (canonical_known hca) (canonical_known hcb) da db he
  obtain ⟨e', hpl, k2, hk2⟩ := context_total (τ := τ) (outer := outer) (N := N) (base := baseId [M, L]) (n := (storedInputs [M, L]).length)
    (fun Q hc hE _ hv => (hg k1).within Q hc hE a b e (hwa Q hc hv) (hwb Q hc hv) he) (fun c hc => (hde.1 c hc).1) hwe hB
  refine ⟨e', hpl, max (max k0 k0') (max k1 k2), fun j hj => ?_⟩
  obtain ⟨M', hg', e1, hM'⟩ := hk0 j (by omega)
  obtain ⟨L', hg'', e2, hL'⟩ := hk0' j (by omega)
  have hmap : [M', L'].map Object.expr = [M, L].map Object.expr := by simp [e1, e2]
  have hj1 : f j a b = some e := hk1 j (by omega)
  obtain ⟨da', db'⟩ := hd M' L' e1 e2 hM' hL'
  obtain ⟨o, ho, heo⟩ := hk2 j (by omega) [M', L'] (F A A') (baseId_congr hmap) (storedInputs_congr hmap)
    ((hg j).denotes _ a b e A A' (canonical_known hca) (canonical_known hcb) da' db' hj1)
  have hcall : call2 j τ outer (f j) M' L' = some o := by
    simp only [call2, arguments_congr _ _ _ hmap, baseId_congr hmap, h1, hj1, Option.bind_eq_bind, Option.bind_some, ho]
  refine ⟨o, ?_, heo, call2_holds hN (hg j) hM' hL' hcall⟩
  simp only [hg', hg'', Option.bind_eq_bind, Option.bind_some, hcall]

/-! ## Calls of lazy programs -/

/-- The same for types without storage; the coefficients have degree at most `D`. -/
def EvD (D w : Nat) (A : MV ℝ) (ρ : Env) (N : Nat) (Q : Expr → Prop) (g : Nat → Option Object) : Prop :=
  ∃ s, Weighs D s w ∧ ∃ k, ∀ j, k ≤ j → ∃ o, g j = some o ∧ o.expr = s ∧ Deferred ρ N Q o A

section
variable {Q : Expr → Prop} (hc : ∀ v, Q (.const v)) (hE : ExpClosed Q) (hQ : ∀ e, Q e → hasStored e = false)
include hc hE hQ

theorem contextObject_lazy {Ms : List Object} (h : ∀ M ∈ Ms, hasStoredC M.expr = false) (e : CSum) :
    ∃ o, contextObject k τ outer Ms e = some o ∧ o.expr = e :=
  ⟨_, by simp only [contextObject, contextEval_lazy h, Option.bind_eq_bind, Option.bind_some]; rfl, rfl⟩

theorem call1_evd {f : Nat → CSum → Option CSum} {F : MV ℝ → MV ℝ} (hg : ∀ k, Good1 N (f k) F) {β : Nat → Nat}
    (hf : Tot1 N f β) {g : Nat → Option Object} {D w : Nat} {A : MV ℝ} (h : EvD D w A ρ N Q g) (hD : D < B) (hB : β w < B) :
    EvD D (β w) (F A) ρ N Q fun j => g j >>= fun M => call1 j τ outer (f j) M := by
  obtain ⟨s, hs, k0, hk0⟩ := h
  obtain ⟨M, -, rfl, hM⟩ := hk0 k0 le_rfl
  obtain ⟨e, ⟨k1, hk1⟩, -, hwe⟩ := hf D w M.expr hM.1.1 (in_of hM.1.1 hM.2.1) hs hD hB
  refine ⟨e, hwe, max k0 k1, fun j hj => ?_⟩
  obtain ⟨M', hg', e1, hM'⟩ := hk0 j (by omega)
  have hj1 : f j M'.expr = some e := by rw [e1]; exact hk1 j (by omega)
  have hs' : ∀ X ∈ [M'], hasStoredC X.expr = false := by simpa using within_stored hQ hM'.1
  obtain ⟨o, ho, heo⟩ := contextObject_lazy (k := j) (τ := τ) (outer := outer) hc hE hQ hs' e
  have hcall : call1 j τ outer (f j) M' = some o := by
    simp only [call1, arguments_lazy [M'] hs', List.map_cons, List.map_nil, hj1, Option.bind_eq_bind, Option.bind_some, ho]
  refine ⟨o, ?_, heo, call1_deferred hc hE hQ (hg j) hM' hcall⟩
  simp only [hg', Option.bind_eq_bind, Option.bind_some, hcall]

theorem call2_evd {f : Nat → CSum → CSum → Option CSum} {F : MV ℝ → MV ℝ → MV ℝ} (hg : ∀ k, Good2 N (f k) F)
    {β δ : Nat → Nat → Nat} (hf : Tot2 N f β δ) {g g' : Nat → Option Object} {D D' v w : Nat} {A A' : MV ℝ}
    (h : EvD D v A ρ N Q g) (h' : EvD D' w A' ρ N Q g') (hD : δ D D' < B) (hB : β v w < B) :
    EvD (δ D D') (β v w) (F A A') ρ N Q fun j => g j >>= fun M => g' j >>= fun M' => call2 j τ outer (f j) M M' := by
  obtain ⟨s, hs, k0, hk0⟩ := h
  obtain ⟨M, -, rfl, hM⟩ := hk0 k0 le_rfl
  obtain ⟨s', hs', k0', hk0'⟩ := h'
  obtain ⟨L, -, rfl, hL⟩ := hk0' k0' le_rfl
  obtain ⟨e, ⟨k1, hk1⟩, -, hwe⟩ := hf D D' v w M.expr L.expr hM.1.1 hL.1.1 (in_of hM.1.1 hM.2.1) (in_of hL.1.1 hL.2.1) hs hs' hD hB
  refine ⟨e, hwe, max (max k0 k0') k1, fun j hj => ?_⟩
  obtain ⟨M', hg', e1, hM'⟩ := hk0 j (by omega)
  obtain ⟨L', hg'', e2, hL'⟩ := hk0' j (by omega)
  have hj1 : f j M'.expr L'.expr = some e := by rw [e1, e2]; exact hk1 j (by omega)
  have hs' : ∀ X ∈ [M', L'], hasStoredC X.expr = false := by simpa using ⟨within_stored hQ hM'.1, within_stored hQ hL'.1⟩
  obtain ⟨o, ho, heo⟩ := contextObject_lazy (k := j) (τ := τ) (outer := outer) hc hE hQ hs' e
  have hcall : call2 j τ outer (f j) M' L' = some o := by
    simp only [call2, arguments_lazy [M', L'] hs', List.map_cons, List.map_nil, hj1, Option.bind_eq_bind, Option.bind_some, ho]
  refine ⟨o, ?_, heo, call2_deferred hc hE hQ (hg j) hM' hL' hcall⟩
  simp only [hg', hg'', Option.bind_eq_bind, Option.bind_some, hcall]

end

/-! ## Programs -/

theorem weight_pos (Ms : List Object) : ∀ t : Program, 1 ≤ t.weight Ms
  | .input _ => le_max_left ..
  | .lit _ => le_max_left ..
  | .add s _ => (weight_pos Ms s).trans (Nat.le_add_right ..)
  | .sub s _ => (weight_pos Ms s).trans (Nat.le_add_right ..)
  | .neg t => weight_pos Ms t
  | .scale _ t => Nat.mul_pos (lt_of_lt_of_le Nat.one_pos (le_max_left ..)) (weight_pos Ms t)
  | .op s t => Nat.mul_pos (weight_pos Ms s) (weight_pos Ms t)
  | .rp s t => Nat.mul_pos (weight_pos Ms s) (weight_pos Ms t)
  | .graded _ s t => Nat.mul_pos (weight_pos Ms s) (weight_pos Ms t)
  | .reverse t => weight_pos Ms t
  | .involute t => weight_pos Ms t
  | .conjugate t => weight_pos Ms t

/-- Induction over programs: `J D w A g` says that the computation `g` eventually succeeds, with the value `A`. -/
theorem run_total {P Q R : Nat} (hN : P + Q + R ≤ 62) (lazy : Prop) {J : Nat → Nat → MV ℝ → (Nat → Option Object) → Prop}
    (h1 : ∀ f F β D w A g, (∀ k, Good1 (P + Q + R) (f k) F) → Tot1 (P + Q + R) f β → (lazy → D < B) → β w < B →
      J D w A g → J D (β w) (F A) fun j => g j >>= fun M => call1 j τ outer (f j) M)
    (h2 : ∀ f F β δ D D' v w A A' g g', (∀ k, Good2 (P + Q + R) (f k) F) → Tot2 (P + Q + R) f β δ → δ 1 1 < B →
      (lazy → δ D D' < B) → β v w < B → J D v A g → J D' w A' g' →
      J (δ D D') (β v w) (F A A') fun j => g j >>= fun M => g' j >>= fun M' => call2 j τ outer (f j) M M')
    {Ms Ns : List Object} {As : List (MV ℝ)}
    (hc : ∀ v : Int, J 0 (max 1 v.natAbs) (Finsupp.single 0 (v : ℝ)) fun _ => some (constObject v))
    (hi : ∀ i, i < Ms.length → J 1 ((Program.input i).weight Ms) (As.getD i 0) fun _ => Ns[i]?) (t : Program) :
    t.Uses Ms.length → t.weight Ms < B → (lazy → t.degree < B) →
    J t.degree (t.weight Ms) (t.value P Q R As) fun k => t.run P Q R k τ outer Ns := by
  have hB : 1 + 1 < B := by norm_num [B]
  induction t with
  | input i => exact fun h _ _ => hi i h
  | lit v => exact fun _ _ _ => hc v
  | add s t ihs iht =>
    intro hu hw hd
    have hw' : s.weight Ms + t.weight Ms < B := hw
    exact h2 _ _ _ _ _ _ _ _ _ _ _ _ (fun k => good_add (by omega)) tot_add (by norm_num [B]) hd hw
      (ihs hu.1 (by omega) fun h => lt_of_le_of_lt (le_max_left ..) (hd h))
      (iht hu.2 (by omega) fun h => lt_of_le_of_lt (le_max_right ..) (hd h))
  | sub s t ihs iht =>
    intro hu hw hd
    have hw' : s.weight Ms + t.weight Ms < B := hw
    exact h2 _ _ _ _ _ _ _ _ _ _ _ _ (fun k => good_sub hN) (tot_sub hN) (by norm_num [B]) hd hw
      (ihs hu.1 (by omega) fun h => lt_of_le_of_lt (le_max_left ..) (hd h))
      (iht hu.2 (by omega) fun h => lt_of_le_of_lt (le_max_right ..) (hd h))
  | neg t iht =>
    intro hu hw hd
    exact h1 _ _ _ _ _ _ _ (fun k => good_neg hN) (tot_neg hN) hd hw (iht hu hw hd)
  | scale v t iht =>
    intro hu hw hd
    have hw' : t.weight Ms < B := lt_of_le_of_lt (Nat.le_mul_of_pos_left _ (lt_of_lt_of_le Nat.one_pos (le_max_left ..))) hw
    exact h1 _ _ _ _ _ _ _ (fun k => good_scale hN v) (tot_scale hN v) hd hw (iht hu hw' hd)
  | op s t ihs iht =>
    intro hu hw hd
    exact h2 _ _ _ _ _ _ _ _ _ _ _ _ (fun k => good_op hN) (tot_mul (ext_sign hN)) hB hd hw
      (ihs hu.1 (lt_of_le_of_lt (Nat.le_mul_of_pos_right _ (weight_pos Ms t)) hw) fun h => lt_of_le_of_lt (Nat.le_add_right ..) (hd h))
      (iht hu.2 (lt_of_le_of_lt (Nat.le_mul_of_pos_left _ (weight_pos Ms s)) hw) fun h => lt_of_le_of_lt (Nat.le_add_left ..) (hd h))
  | rp s t ihs iht =>
    intro hu hw hd
    exact h2 _ _ _ _ _ _ _ _ _ _ _ _ (fun k => good_rp hN) (tot_mul (reg_sign hN)) hB hd hw
      (ihs hu.1 (lt_of_le_of_lt (Nat.le_mul_of_pos_right _ (weight_pos Ms t)) hw) fun h => lt_of_le_of_lt (Nat.le_add_right ..) (hd h))
      (iht hu.2 (lt_of_le_of_lt (Nat.le_mul_of_pos_left _ (weight_pos Ms s)) hw) fun h => lt_of_le_of_lt (Nat.le_add_left ..) (hd h))
  | graded g s t ihs iht =>
    intro hu hw hd
    exact h2 _ _ _ _ _ _ _ _ _ _ _ _ (fun k => good_graded hN g)
      (tot_mul (orth_sign hN le_rfl (by omega) (signedFactor_small P Q R) g)) hB hd hw
      (ihs hu.1 (lt_of_le_of_lt (Nat.le_mul_of_pos_right _ (weight_pos Ms t)) hw) fun h => lt_of_le_of_lt (Nat.le_add_right ..) (hd h))
      (iht hu.2 (lt_of_le_of_lt (Nat.le_mul_of_pos_left _ (weight_pos Ms s)) hw) fun h => lt_of_le_of_lt (Nat.le_add_left ..) (hd h))
  | reverse t iht =>
    intro hu hw hd
    exact h1 _ _ _ _ _ _ _ (fun k => good_reverse (by omega)) (tot_minus _) hd hw (iht hu hw hd)
  | involute t iht =>
    intro hu hw hd
    exact h1 _ _ _ _ _ _ _ (fun k => good_involute (by omega)) (tot_minus _) hd hw (iht hu hw hd)
  | conjugate t iht =>
    intro hu hw hd
    exact h1 _ _ _ _ _ _ _ (fun k => good_conjugate (by omega)) (tot_minus _) hd hw (iht hu hw hd)

theorem plainWs_weight : ∀ {s : CSum}, (∀ c ∈ s, c.coef = .stored ∨ ∃ v, c.coef = .const v) → PlainWs s (weightC s)
  | [], _ => trivial
  | c :: cs, h => by
    refine ⟨coefWeight c.coef, weightC cs, ?_, plainWs_weight fun c hc => h c (by simp [hc]), by simp [weightC]⟩
    rcases h c (by simp) with e | ⟨v, e⟩ <;> rw [e]
    · exact .inl ⟨rfl, le_rfl⟩
    · exact .inr ⟨v, rfl, le_rfl⟩

theorem plainWs_const (v : Int) : PlainWs (constSum v) (max 1 v.natAbs) :=
  ⟨max 1 v.natAbs, 0, .inr ⟨v, rfl, le_max_right ..⟩, trivial, le_rfl⟩

theorem forall₂_get {α β : Type*} {r : α → β → Prop} {d : β} : ∀ {l : List α} {l' : List β}, List.Forall₂ r l l' →
    ∀ {i}, i < l.length → ∃ a, l[i]? = some a ∧ r a (l'.getD i d)
  | _, _, .cons h _, 0, _ => ⟨_, rfl, by simpa using h⟩
  | _, _, .cons _ h, i + 1, hi => by
    obtain ⟨a, e, ha⟩ := forall₂_get (d := d) h (i := i) (by simpa using hi)
    exact ⟨a, by simpa using e, by simpa using ha⟩

/-- Eager programs compile. -/
theorem run_compiles {P Q R : Nat} (hN : P + Q + R ≤ 62) {Ms : List Object} {As : List (MV ℝ)}
    (hI : List.Forall₂ (Holds outer (P + Q + R)) Ms As) (t : Program) (hu : t.Uses Ms.length) (hw : t.weight Ms < B) :
    EvO (t.weight Ms) (t.value P Q R As) outer (P + Q + R) fun k => t.run P Q R k τ outer Ms := by
  refine run_total hN False (J := fun _ w A g => EvO w A outer (P + Q + R) g)
    (fun f F β D w A g hg hf _ hB h => call1_evo (by omega) hg hf h hB)
    (fun f F β δ D D' v w A A' g g' hg hf hδ _ hB h h' => call2_evo (by omega) hg hf hδ h h' hB) ?_ ?_ t hu hw (by simp)
  · exact fun v => ⟨constSum v, plainWs_const v, 0, fun j _ => ⟨_, rfl, rfl, holds_const v⟩⟩
  · intro i hi
    obtain ⟨M, hM, h⟩ := forall₂_get (d := 0) hI hi
    refine ⟨M.expr, ?_, 0, fun j _ => ⟨M, hM, rfl, h⟩⟩
    refine (plainWs_weight h.1.2).mono ?_
    simp only [Program.weight, hM, Option.map_some, Option.getD_some]
    exact le_max_right ..

/-- Lazy programs compile. -/
theorem runLazy_compiles {P Q R : Nat} (hN : P + Q + R ≤ 62) {Ms : List Object} {As : List (MV ℝ)}
    (hI : List.Forall₂ (Holds outer (P + Q + R)) Ms As) (t : Program) (hu : t.Uses Ms.length) (hw : t.weight Ms < B)
    (hdeg : t.degree < B) :
    EvO (t.weight Ms) (t.value P Q R As) outer (P + Q + R) fun k => t.runLazy P Q R k τ outer Ms := by
  have hp : ∀ M ∈ Ms, PlainC M.expr := by
    intro M hM
    clear hu hw hdeg
    induction hI with
    | nil => simp at hM
    | cons h _ ih =>
      rcases List.mem_cons.1 hM with rfl | hM
      · exact h.1
      · exact ih hM
  have hws : List.Forall₂ (fun M w => PlainWs M.expr w) Ms (Ms.map fun M => weightC M.expr) := by
    rw [List.forall₂_map_right_iff, List.forall₂_same]
    exact fun M h => plainWs_weight (hp M h).2
  obtain ⟨as, h1, has⟩ := arguments_total (baseId Ms) Ms _ hp hws
  have hd := arguments_reads (N := P + Q + R) (outer := outer) (by omega) (base := baseId Ms) Ms [] as As h1
    (le_baseId (Ms := Ms)) (hI.imp fun _ _ h => h.2)
  rw [List.nil_append] at hd
  have hlen := arguments_length _ _ _ h1
  let Ns := List.zipWith (fun M a => lazyObject M.floats a) Ms as
  have inputs : ∀ Q' : Expr → Prop, (∀ v, Q' (.const v)) → (∀ e, Q' e → hasStored e = false) →
      (∀ t i, baseId Ms < t → t ≤ baseId Ms + (storedInputs Ms).length → Q' (.value t i)) →
      List.Forall₂ (Deferred (contextEnv outer (baseId Ms) (storedInputs Ms)) (P + Q + R) Q') Ns As := by
    intro Q' hc hQ hv
    have hw := arguments_within (Q := Q') (base := baseId Ms) hc Ms [] as hp hv h1
    refine forall₂_zip (J := fun a A => Within Q' a ∧
      SumDenotes (contextEnv outer (baseId Ms) (storedInputs Ms)) (P + Q + R) a A)
      (fun M a A h => ⟨h.1, h.2, rfl, rfl⟩) Ms as As ?_ hlen
    clear h1 hlen hI Ns has
    induction hd with
    | nil => exact .nil
    | cons h _ ih => exact .cons ⟨hw _ (by simp), h⟩ (ih fun a ha => hw a (by simp [ha]))
  have hpoly := inputs (Poly (baseId Ms + 1) (baseId Ms + (storedInputs Ms).length)) poly_const poly_stored
    fun t i h1 h2 => .inr ⟨t, i, h1, h2, rfl⟩
  obtain ⟨s, hs, k0, hk0⟩ := run_total (τ := τ) (outer := outer) hN True (Ms := Ms) (Ns := Ns) (As := As)
    (J := fun D w A g => EvD D w A (contextEnv outer (baseId Ms) (storedInputs Ms)) (P + Q + R)
      (Poly (baseId Ms + 1) (baseId Ms + (storedInputs Ms).length)) g)
    (fun f F β D w A g hg hf hD hB h => call1_evd poly_const poly_closed poly_stored hg hf h (hD trivial) hB)
    (fun f F β δ D D' v w A A' g g' hg hf _ hD hB h h' => call2_evd poly_const poly_closed poly_stored hg hf h h' (hD trivial) hB)
    (fun v => ⟨constSum v, Weighs.one ((PW.const 0 v).mono le_rfl (le_max_right ..)), 0, fun j _ => ⟨_, rfl, rfl, deferred_const poly_const v⟩⟩)
    (by
      intro i hi
      obtain ⟨M, hM, h⟩ := forall₂_get (d := 0) hpoly (i := i) (by simpa [Ns, ← hlen] using hi)
      refine ⟨M.expr, ?_, 0, fun j _ => ⟨M, hM, rfl, h⟩⟩
      obtain ⟨a, ha, hwa⟩ := forall₂_get (d := 0) has (i := i) (by omega)
      have e : M.expr = a := by
        simp only [Ns, List.getElem?_zipWith, ha] at hM
        rw [List.getElem?_eq_getElem hi] at hM
        simp only [Option.some.injEq] at hM
        rw [← hM]
        rfl
      rw [e]
      refine hwa.mono le_rfl ?_
      simp only [Program.weight, List.getD_eq_getElem?_getD, List.getElem?_map]
      exact le_max_right ..) t hu hw fun _ => hdeg
  obtain ⟨r, hr, rfl, hdr⟩ := hk0 k0 le_rfl
  obtain ⟨e', hpl, k2, hk2⟩ := context_total (τ := τ) (outer := outer) (N := P + Q + R) (base := baseId Ms)
    (n := (storedInputs Ms).length) (e := r.expr)
    (fun Q' hc hE hQ hv => (run_keeps hN (fun _ _ _ _ _ hf hM h => call1_deferred hc hE hQ hf hM h)
      (fun _ _ _ _ _ _ _ hf hM hM' h => call2_deferred hc hE hQ hf hM hM' h)
      (deferred_const hc) (inputs Q' hc hQ hv) t r hr).1) (fun c hc => (hdr.2.1.1 c hc).1) hs hw
  refine ⟨e', hpl, max k0 k2, fun j hj => ?_⟩
  obtain ⟨r', hr', er, hd'⟩ := hk0 j (by omega)
  obtain ⟨o, ho, eo⟩ := hk2 j (by omega) Ms _ rfl rfl (er ▸ hd'.2.1)
  have hrun : t.runLazy P Q R j τ outer Ms = some o := by
    simp only [Program.runLazy, h1, Option.bind_eq_bind, Option.bind_some]
    have hr' : t.run P Q R j τ outer Ns = some r' := hr'
    change (t.run P Q R j τ outer Ns).bind _ = _
    rw [hr', Option.bind_some, er, ho]
  exact ⟨o, hrun, eo, runLazy_holds hN hI t o hrun⟩

end GATL.Total
