import Verif.Model.Unit
import Verif.Proofs.Tests

/-!
Products of a sum of components and a scalar: the type of the result.
-/

namespace GATL

open Expr Spec

variable {N : Nat}

theorem forall₂_mem {α β : Type*} {R : α → β → Prop} {s : List α} {t : List β} (h : List.Forall₂ R s t)
    {a : α} (ha : a ∈ s) : ∃ b ∈ t, R a b := by
  induction h with
  | nil => simp at ha
  | cons h1 h2 ih =>
    rcases List.mem_cons.1 ha with rfl | ha
    · exact ⟨_, by simp, h1⟩
    · obtain ⟨b, hb, h⟩ := ih ha
      exact ⟨b, by simp [hb], h⟩

/-- The basis blades of a sum of components lie in the space. -/
def InSpaceC (N : Nat) (s : CSum) : Prop := ∀ c ∈ s, ∀ b, c.blade = .const b → ∀ i ∈ vecs b, i.val < N

theorem inSpaceC_of {ρ : Env} {s : CSum} {A : MV ℝ} (h : SumDenotes ρ N s A) : InSpaceC N s := by
  obtain ⟨-, V, hV, hw, -⟩ := h
  intro c hc b eb
  obtain ⟨⟨x, t⟩, hv, hcv⟩ := forall₂_mem hV hc
  have := hw _ hv
  have hb := hcv.2
  rw [eb] at hb
  have hb : t = .const b := hb
  subst hb
  exact this

/-- The mapping of a product in which `1` is neutral. -/
def UnitRight (N : Nat) (M : CMapping) : Prop := ∀ k b r, (∀ i ∈ vecs b, i.val < N) →
  M k (.const b) (.const 0) = some r → r = [⟨.const 1, .const b⟩]

@[inherit_doc UnitRight]
def UnitLeft (N : Nat) (M : CMapping) : Prop := ∀ k b r, (∀ i ∈ vecs b, i.val < N) →
  M k (.const 0) (.const b) = some r → r = [⟨.const 1, .const b⟩]

theorem unit_of {ρ : Env} (hN : N ≤ 62) {M : CMapping} {P : Blade → Blade → Prop}
    {μ : MV ℝ →ₗ[ℝ] MV ℝ →ₗ[ℝ] MV ℝ} (hC : ConstMapping M) (hM : MapOk ρ N P M μ) {k : Nat} {x y b : Word}
    {r : CSum} (hx : ∀ i ∈ vecs x, i.val < N) (hy : ∀ i ∈ vecs y, i.val < N) (hP : P (.const x) (.const y))
    (hμ : μ (Finsupp.single x 1) (Finsupp.single y 1) = Finsupp.single b 1)
    (h : M k (.const x) (.const y) = some r) : r = [⟨.const 1, .const b⟩] := by
  obtain ⟨⟨c, bl⟩, rfl, ⟨v, e⟩, ⟨b', eb, -⟩⟩ := hC k x y r (fun i hi => by have := hx i hi; omega)
    (fun i hi => by have := hy i hi; omega) h
  dsimp only at e eb
  subst e eb
  obtain ⟨-, A, hA, -, hs⟩ := hM k (.const x) (.const y) _ (.const x) (.const y) 1 hP h
    (fun _ _ h => by cases h) (fun _ _ h => by cases h) rfl rfl hx hy
  obtain ⟨⟨z, t⟩, A', ⟨hz, ht⟩, hA', rfl⟩ := List.forall₂_cons_left_iff.1 hA
  obtain rfl := List.forall₂_nil_left_iff.1 hA'
  have ht : t = .const b' := ht
  have hz' : some (Val.num (v : ℝ)) = some (.num z) := hz
  simp only [Option.some.injEq, Val.num.injEq] at hz'
  subst ht hz'
  simp only [List.map_cons, List.map_nil, List.sum_cons, List.sum_nil, add_zero, one_mul, one_smul, hμ,
    TBlade.bits] at hs
  have := Finsupp.single_eq_single_iff .. |>.1 hs
  rcases this with ⟨rfl, h1⟩ | ⟨-, h1⟩
  · have : v = 1 := by exact_mod_cast h1
    rw [this]
  · simp at h1

theorem mapping_env : Nonempty Env := ⟨⟨fun _ _ => 0, fun _ _ => 0⟩⟩

theorem orth_unit (hN : N ≤ 62) {factor : Expr → Expr} (hc : ∀ b, IsConst (factor (.cbits b))) {q : Fin 64 → ℝ}
    (hf : ∀ ρ b w, BV ρ b w → V ρ (factor b) (diagFactor q w)) {d : Nat} (hd : d = N ∨ d = 63) :
    UnitRight N (orthMapping d factor .gp) ∧ UnitLeft N (orthMapping d factor .gp) := by
  obtain ⟨ρ⟩ := mapping_env
  have h1 := orthMapping_const (dims := d) (by omega) hc .gp
  have h2 := orthMapping_ok (ρ := ρ) hN (hf ρ) .gp d
  have hg : (Blade.const 0).grades = 1 := by decide
  refine ⟨fun k b r hb h => ?_, fun k b r hb h => ?_⟩
  · refine unit_of hN h1 h2 hb (by simp [vecs]) (hd.imp id fun h => ⟨h, .inr hg⟩) ?_ h
    exact Cl.gp_one_right (q := q) _
  · refine unit_of hN h1 h2 (by simp [vecs]) hb (hd.imp id fun h => ⟨h, .inl hg⟩) ?_ h
    exact Cl.gp_one_left (q := q) _

theorem ext_unit (hN : N ≤ 62) : UnitLeft N (extMapping N) := by
  obtain ⟨ρ⟩ := mapping_env
  intro k b r hb h
  refine unit_of (ρ := ρ) hN (extMapping_const (by omega)) (extMapping_ok hN N) (by simp [vecs]) hb (.inl rfl) ?_ h
  have := op_scalar_left (1 : ℝ) (Finsupp.single b 1)
  rw [one_smul] at this
  exact this

theorem simp_mul_one {n : Nat} {z y : Expr} (h : simp n .mul z (.const 1) = some y) : y = z := by
  cases n with
  | zero => simp [simp] at h
  | succ n =>
    by_cases h0 : z = .const 0
    · subst h0
      have : simp (n + 1) .mul (.const 0) (.const 1) = some (.const 0) := rfl
      rw [this] at h; cases h; rfl
    · have : simp (n + 1) .mul z (.const 1) = some z := by
        show applyRules (mulRules (simp n)) z (.const 1) = some z
        unfold mulRules
        rw [applyRules_skip (by simp [mulZero, h0])]
        by_cases h1 : z = .const 1
        · subst h1; rfl
        · exact applyRules_fire (o := some z) (by simp [mulOne, h1, fire])
      rw [this] at h; cases h; rfl

/-- What a product with a scalar gives: the blades of `a` and coefficients in `Q`. -/
def Scaled (Q : Expr → Prop) (a e : CSum) : Prop :=
  Within Q e ∧ (IsZero e ∨ ∀ d ∈ e, ∃ c ∈ a, d.blade = c.blade)

section
variable {M : CMapping} {Q : Expr → Prop} {w : Expr}

theorem scaled_comp {k : Nat} {c : Comp} {z : Expr} {r e : CSum} {b : Word} (hc : Known c) (hb : c.blade = .const b)
    (hr : r = [⟨.const 1, .const b⟩]) (hz : Q z) (h : distribute k z r = some e) : Scaled Q [c] e := by
  subst hr
  simp only [distribute, Option.bind_eq_bind, Option.bind_eq_some_iff, Option.some.injEq] at h
  obtain ⟨y, hy, rfl⟩ := h
  obtain rfl := simp_mul_one hy
  rw [← hb]
  obtain ⟨m1, m2, m3⟩ := mkComp_known (c := y) hc
  refine ⟨⟨canonical_single m1, by simpa [m2] using hz⟩, ?_⟩
  by_cases h0 : y = .const 0
  · exact .inl ⟨_, rfl, by rw [m2, h0]⟩
  · exact .inr (by simpa using m3 h0)

theorem scaled_cons {k : Nat} {c : Comp} {a s u e : CSum} (ha : ∀ d ∈ a, BeforeC c d)
    (hs : Scaled Q [c] s) (hl : ∃ d, s = [d]) (hu : Scaled Q a u) (h : addC k s u = some e) : Scaled Q (c :: a) e := by
  obtain ⟨c', rfl⟩ := hl
  have hk := canonical_known hs.1.1 c' (by simp)
  have hcond : IsZero u ∨ c'.coef = .const 0 ∨ ∀ x ∈ u, BeforeC c' x := by
    rcases hs.2 with ⟨x, hx, h0⟩ | hb
    · cases hx; exact .inr (.inl h0)
    · rcases hu.2 with hz | hbu
      · exact .inl hz
      · refine .inr (.inr fun x hx => ?_)
        obtain ⟨y, hy, e⟩ := hbu x hx
        obtain ⟨y', hy', e'⟩ := hb c' (by simp)
        rw [List.mem_singleton] at hy'
        subst hy'
        exact beforeC_congr_left (beforeC_congr_right (ha y hy) e) e'
  obtain ⟨h1, h2, h3⟩ := addC_front_eq hk hu.1.1 hcond h
  have hc' : c'.coef ≠ .const 0 → c'.blade = c.blade := by
    intro h0
    rcases hs.2 with ⟨x, hx, h0'⟩ | hb
    · cases hx; exact absurd h0' h0
    · obtain ⟨y', hy', e'⟩ := hb c' (by simp)
      rw [List.mem_singleton] at hy'
      rw [e', hy']
  have hQ := hs.1.2 c' (by simp)
  rcases h3 with ⟨h0, hz, rfl⟩ | ⟨h0, hz, rfl⟩ | ⟨h0, hz, rfl⟩ | ⟨h0, hz, rfl⟩
  · exact ⟨hs.1, .inl ⟨c', rfl, h0⟩⟩
  · refine ⟨hu.1, hu.2.imp id fun h d hd => ?_⟩
    obtain ⟨y, hy, e⟩ := h d hd
    exact ⟨y, by simp [hy], e⟩
  · exact ⟨hs.1, .inr (by simpa using .inl (hc' h0))⟩
  · refine ⟨⟨h1, ?_⟩, .inr ?_⟩
    · simp only [List.mem_cons, forall_eq_or_imp]
      exact ⟨hQ, hu.1.2⟩
    · simp only [List.mem_cons, forall_eq_or_imp]
      refine ⟨⟨c, by simp, hc' h0⟩, fun d hd => ?_⟩
      obtain ⟨y, hy, e⟩ := (hu.2.resolve_left hz) d hd
      exact ⟨y, by simp [hy], e⟩

theorem scaled_len {k : Nat} {c : Comp} {z : Expr} {r e : CSum} {b : Word}
    (hr : r = [⟨.const 1, .const b⟩]) (h : distribute k z r = some e) : ∃ d, e = [d] := by
  subst hr
  simp only [distribute, Option.bind_eq_bind, Option.bind_eq_some_iff, Option.some.injEq] at h
  obtain ⟨y, hy, rfl⟩ := h
  exact ⟨_, rfl⟩

theorem scale_right_one (hU : UnitRight N M) (h0 : Q (.const 0)) (hw : w ≠ .const 0) {k : Nat} {c : Comp}
    {e : CSum} (hc : Known c) (hs : InSpaceC N [c]) (hq : ∀ j z, simp j .mul c.coef w = some z → Q z)
    (h : mulC M k [c] [⟨w, .const 0⟩] = some e) : Scaled Q [c] e ∧ ∃ d, e = [d] := by
  cases k with
  | zero => simp [mulC] at h
  | succ k =>
    unfold mulC at h
    by_cases hz : c.coef = .const 0
    · rw [if_pos ⟨hz, rfl⟩] at h
      cases h
      exact ⟨⟨⟨canonical_single hc, by simpa [hz] using h0⟩, .inl ⟨c, rfl, hz⟩⟩, c, rfl⟩
    · rw [if_neg (by simp [hz]), if_neg (by simp [hw])] at h
      simp only [Option.bind_eq_bind, Option.bind_eq_some_iff] at h
      obtain ⟨z, hz, r, hr, h⟩ := h
      obtain ⟨b, eb, hb⟩ := id hc
      rw [eb] at hr
      have := hU k b r (hs c (by simp) b eb) hr
      exact ⟨scaled_comp hc eb this (hq _ _ hz) h, scaled_len (c := c) this h⟩

/-- The product with a scalar on the right. -/
theorem scale_right (hU : UnitRight N M) (h0 : Q (.const 0)) (hw : w ≠ .const 0) : ∀ (a : CSum) (k : Nat) (e : CSum),
    Canonical a → InSpaceC N a → (∀ c ∈ a, ∀ j z, simp j .mul c.coef w = some z → Q z) →
    mulC M k a [⟨w, .const 0⟩] = some e → Scaled Q a e
  | [], k, e, ha, _, _, _ => absurd rfl ha.1
  | [c], k, e, ha, hs, hq, h =>
    (scale_right_one hU h0 hw (canonical_known ha c (by simp)) hs (hq c (by simp)) h).1
  | c :: d :: a, k, e, ha, hs, hq, h => by
    cases k with
    | zero => simp [mulC] at h
    | succ k =>
      obtain ⟨t1, t2, t3, t4, t5⟩ := canonical_tail ha (by simp)
      unfold mulC at h
      rw [if_neg (by simp), if_neg (by simp [hw])] at h
      simp only [Option.bind_eq_bind, Option.bind_eq_some_iff] at h
      obtain ⟨s, h1, u, h2, h⟩ := h
      obtain ⟨s1, s2⟩ := scale_right_one hU h0 hw t3 (fun x hx => hs x (by simp at hx; simp [hx])) (hq c (by simp)) h1
      have s3 := scale_right hU h0 hw (d :: a) k u t1 (fun x hx => hs x (by simp at hx ⊢; tauto))
        (fun x hx => hq x (by simp at hx ⊢; tauto)) h2
      exact scaled_cons t2 s1 s2 s3 h

theorem scale_left_one (hU : UnitLeft N M) (h0 : Q (.const 0)) (hw : w ≠ .const 0) {k : Nat} {c : Comp}
    {e : CSum} (hc : Known c) (hs : InSpaceC N [c]) (hq : ∀ j z, simp j .mul w c.coef = some z → Q z)
    (h : mulC M k [⟨w, .const 0⟩] [c] = some e) : Scaled Q [c] e ∧ ∃ d, e = [d] := by
  cases k with
  | zero => simp [mulC] at h
  | succ k =>
    unfold mulC at h
    rw [if_neg (by simp [hw])] at h
    by_cases hz : c.coef = .const 0
    · rw [if_pos ⟨hz, rfl⟩] at h
      cases h
      exact ⟨⟨⟨canonical_single hc, by simpa [hz] using h0⟩, .inl ⟨c, rfl, hz⟩⟩, c, rfl⟩
    · rw [if_neg (by simp [hz])] at h
      simp only [Option.bind_eq_bind, Option.bind_eq_some_iff] at h
      obtain ⟨z, hz, r, hr, h⟩ := h
      obtain ⟨b, eb, hb⟩ := id hc
      rw [eb] at hr
      have := hU k b r (hs c (by simp) b eb) hr
      exact ⟨scaled_comp hc eb this (hq _ _ hz) h, scaled_len (c := c) this h⟩

/-- The product with a scalar on the left. -/
theorem scale_left (hU : UnitLeft N M) (h0 : Q (.const 0)) (hw : w ≠ .const 0) : ∀ (a : CSum) (k : Nat) (e : CSum),
    Canonical a → InSpaceC N a → (∀ c ∈ a, ∀ j z, simp j .mul w c.coef = some z → Q z) →
    mulC M k [⟨w, .const 0⟩] a = some e → Scaled Q a e
  | [], k, e, ha, _, _, _ => absurd rfl ha.1
  | [c], k, e, ha, hs, hq, h =>
    (scale_left_one hU h0 hw (canonical_known ha c (by simp)) hs (hq c (by simp)) h).1
  | c :: d :: a, k, e, ha, hs, hq, h => by
    cases k with
    | zero => simp [mulC] at h
    | succ k =>
      obtain ⟨t1, t2, t3, t4, t5⟩ := canonical_tail ha (by simp)
      unfold mulC at h
      rw [if_neg (by simp [hw]), if_neg (by simp)] at h
      simp only [Option.bind_eq_bind, Option.bind_eq_some_iff] at h
      obtain ⟨s, h1, u, h2, h⟩ := h
      obtain ⟨s1, s2⟩ := scale_left_one hU h0 hw t3 (fun x hx => hs x (by simp at hx; simp [hx])) (hq c (by simp)) h1
      have s3 := scale_left hU h0 hw (d :: a) k u t1 (fun x hx => hs x (by simp at hx ⊢; tauto))
        (fun x hx => hq x (by simp at hx ⊢; tauto)) h2
      exact scaled_cons t2 s1 s2 s3 h

end

end GATL
