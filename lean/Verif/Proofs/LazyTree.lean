import Verif.Proofs.LazyArgs
import Verif.Proofs.Canonical
import Verif.Proofs.Mappings
import Verif.Proofs.Leaves

/-!
# Sums and products of polynomial multivectors are polynomial
-/

namespace GATL

open Expr Spec

variable {n L U N : Nat} {ρ ρ' : Env}

/-! ## Products of static blades have constant coefficients -/

/-- A logical literal. -/
def IsBool (e : Expr) : Prop := ∃ b, e = .cbool b

theorem mkEqual_const (a b : Int) : IsBool (mkEqual (.const a) (.const b)) := by
  unfold mkEqual
  by_cases h : a = b
  · exact ⟨true, by simp [h, hasStored]⟩
  · exact ⟨false, by simp [h, isConstant]⟩

theorem mkEqual_cbits (a b : Word) : IsBool (mkEqual (.cbits a) (.cbits b)) := by
  unfold mkEqual
  by_cases h : a = b
  · exact ⟨true, by simp [h, hasStored]⟩
  · exact ⟨false, by simp [h, isConstant]⟩

theorem mkIfElse_const {t a b : Expr} (ht : IsBool t) (ha : IsConst a) (hb : IsConst b) :
    IsConst (mkIfElse t a b) := by
  obtain ⟨_ | _, rfl⟩ := ht
  · exact hb
  · exact ha

theorem mkIfElse_bool {t a b : Expr} (ht : IsBool t) (ha : IsBool a) (hb : IsBool b) :
    IsBool (mkIfElse t a b) := by
  obtain ⟨_ | _, rfl⟩ := ht
  · exact hb
  · exact ha

theorem mkLogicalOr_bool {a b : Expr} (ha : IsBool a) (hb : IsBool b) :
    IsBool (mkLogicalOr a b) := by
  obtain ⟨x, rfl⟩ := ha
  obtain ⟨y, rfl⟩ := hb
  cases x <;> cases y <;> simp [mkLogicalOr, IsBool]

theorem gradeDiff_const {l r : Int} {e : Expr} (h : gradeDiff n (.const l) (.const r) = some e) :
    IsConst e := by
  simp only [gradeDiff, Option.bind_eq_bind, Option.bind_eq_some_iff] at h
  obtain ⟨m, hm, h⟩ := h
  obtain ⟨v, rfl⟩ := (const_closed n).2.1 _ _ m hm
  exact (const_closed n).1 _ _ e h

theorem mkValidGrades_bool (g : GradedProduct) {l r res : Int} {e : Expr}
    (h : mkValidGrades n g (.const l) (.const r) (.const res) = some e) : IsBool e := by
  cases g <;> simp only [mkValidGrades, Option.bind_eq_bind, Option.bind_eq_some_iff,
    Option.some.injEq] at h
  · exact ⟨_, h.symm⟩
  · obtain ⟨d, hd, rfl⟩ := h
    obtain ⟨v, rfl⟩ := gradeDiff_const hd
    exact mkEqual_const _ _
  · obtain ⟨d, hd, rfl⟩ := h
    obtain ⟨v, rfl⟩ := gradeDiff_const hd
    exact mkEqual_const _ _
  · obtain ⟨d, hd, d', hd', rfl⟩ := h
    obtain ⟨v, rfl⟩ := gradeDiff_const hd
    obtain ⟨v', rfl⟩ := gradeDiff_const hd'
    exact mkIfElse_bool ⟨_, rfl⟩ (mkEqual_const _ _) (mkEqual_const _ _)
  · obtain ⟨d, hd, d', hd', rfl⟩ := h
    obtain ⟨v, rfl⟩ := gradeDiff_const hd
    obtain ⟨v', rfl⟩ := gradeDiff_const hd'
    exact mkIfElse_bool (mkLogicalOr_bool (mkEqual_const _ _) (mkEqual_const _ _)) ⟨_, rfl⟩
      (mkIfElse_bool ⟨_, rfl⟩ (mkEqual_const _ _) (mkEqual_const _ _))
  · subst h
    exact mkEqual_const _ _

theorem mkSignedFactor_const (P Q R : Nat) (b : Word) :
    IsConst (mkSignedFactor P Q R (.cbits b)) :=
  mkIfElse_const (mkEqual_cbits _ _)
    (mkIfElse_const (mkEqual_const _ _) ⟨_, rfl⟩ ⟨_, rfl⟩) ⟨_, rfl⟩

/-- Only basis vectors that the library can index. -/
def Indexed (b : Word) : Prop := ∀ i ∈ vecs b, i.val < 63

theorem indexed_of {a b r : Word} (ha : Indexed a) (hb : Indexed b)
    (h : ∀ i : Fin 64, r.getLsbD i = true → a.getLsbD i = true ∨ b.getLsbD i = true) : Indexed r := by
  intro i hi
  rw [mem_vecs] at hi
  rcases h i hi with h | h
  · exact ha i (by rw [mem_vecs]; exact h)
  · exact hb i (by rw [mem_vecs]; exact h)

theorem indexed_basisVectors {dims : Nat} (h : dims ≤ 63) : Indexed (basisVectors dims) := by
  intro i hi
  rw [mem_vecs] at hi
  rw [basisVectors_eq _ h] at hi
  rw [getLsbD_full _ _ i.isLt] at hi
  have := of_decide_eq_true hi
  omega

/-- The coefficients of a product of static blades are constants. -/
def ConstMapping (M : CMapping) : Prop := ∀ k a b r, Indexed a → Indexed b →
  M k (.const a) (.const b) = some r → ∃ c, r = [c] ∧ IsConst c.coef ∧ Known c

/-- The components of a product of static blades have constants as coefficients and static blades. -/
def KnownMapping (M : CMapping) : Prop := ∀ k a b r, Indexed a → Indexed b →
  M k (.const a) (.const b) = some r → ∀ c ∈ r, IsConst c.coef ∧ Known c

theorem ConstMapping.known {M : CMapping} (h : ConstMapping M) : KnownMapping M := by
  intro k a b r ha hb hr c hc
  obtain ⟨d, rfl, h1, h2⟩ := h k a b r ha hb hr
  rw [List.mem_singleton.1 hc]
  exact ⟨h1, h2⟩

theorem mkComp_const {c : Expr} {b : Word} (hc : IsConst c) (hb : Indexed b) :
    IsConst (mkComp c (.const b)).coef ∧ Known (mkComp c (.const b)) := by
  have := mkComp_known (c := c) (d := ⟨c, .const b⟩) ⟨b, rfl, hb⟩
  exact ⟨by rw [this.2.1]; exact hc, this.1⟩

theorem candidateBlade_const {dims : Nat} {G r : Word} (hd : dims ≤ 63) (hr : Indexed r) :
    ∃ b, candidateBlade dims G (.cbits r) = .const b ∧ Indexed b := by
  unfold candidateBlade
  split
  · exact ⟨_, rfl, indexed_basisVectors hd⟩
  · exact ⟨r, rfl, hr⟩

theorem extMapping_const {dims : Nat} (hd : dims ≤ 63) : ConstMapping (extMapping dims) := by
  intro k a b r ha hb h
  unfold extMapping at h
  split at h
  · simp only [Option.bind_eq_bind, Option.bind_eq_some_iff, Option.some.injEq] at h
    obtain ⟨G, hG, s, hs, rfl⟩ := h
    obtain ⟨v, rfl⟩ := (const_closed k).1 _ _ s hs
    obtain ⟨bl, e1, h1⟩ := candidateBlade_const (G := G) (r := a ||| b) hd
      (indexed_of ha hb (by intro i hi; simpa using hi))
    refine ⟨_, rfl, ?_⟩
    have hres : mkOr (Blade.const a).bits (Blade.const b).bits = .cbits (a ||| b) := rfl
    rw [hres, e1]
    refine mkComp_const (mkIfElse_const ?_ ⟨_, rfl⟩ ⟨_, rfl⟩) h1
    split
    · exact mkEqual_const _ _
    · exact ⟨_, rfl⟩
  · exact absurd h (by simp)

theorem regMapping_const {dims : Nat} (hd : dims ≤ 63) : ConstMapping (regMapping dims) := by
  intro k a b r ha hb h
  unfold regMapping at h
  split at h
  · simp only [Option.bind_eq_bind, Option.bind_eq_some_iff, Option.some.injEq] at h
    obtain ⟨G, hG, s, hs, m, hm, s', hs', rfl⟩ := h
    obtain ⟨v, rfl⟩ := (const_closed k).1 _ _ s hs
    obtain ⟨u, rfl⟩ := (const_closed k).2.1 _ _ m hm
    obtain ⟨w, rfl⟩ := (const_closed k).1 _ _ s' hs'
    obtain ⟨bl, e1, h1⟩ := candidateBlade_const (G := G) (r := a &&& b) hd
      (indexed_of ha hb (by intro i hi; simp at hi; exact .inl hi.1))
    refine ⟨_, rfl, ?_⟩
    have hres : mkAnd (Blade.const a).bits (Blade.const b).bits = .cbits (a &&& b) := rfl
    rw [hres, e1]
    refine mkComp_const (mkIfElse_const ?_ ⟨_, rfl⟩ ⟨_, rfl⟩) h1
    split
    · exact mkEqual_const _ _
    · exact ⟨_, rfl⟩
  · exact absurd h (by simp)

theorem orthMapping_const {dims : Nat} (hd : dims ≤ 63) {f : Expr → Expr}
    (hf : ∀ b, IsConst (f (.cbits b))) (g : GradedProduct) :
    ConstMapping (orthMapping dims f g) := by
  intro k a b r ha hb h
  unfold orthMapping at h
  split at h
  · simp only [Option.bind_eq_bind, Option.bind_eq_some_iff, Option.some.injEq] at h
    obtain ⟨G, hG, v, hv, c, hc, rfl⟩ := h
    have hv' := mkValidGrades_bool g (n := k) hv
    obtain ⟨x, hx⟩ := hf (a &&& b)
    have hres : mkXor (Blade.const a).bits (Blade.const b).bits = .cbits (a ^^^ b) := rfl
    have hand : mkAnd (Blade.const a).bits (Blade.const b).bits = .cbits (a &&& b) := rfl
    rw [hand, hx] at hc
    have hc' := (const_closed k).2.1 _ _ c hc
    obtain ⟨bl, e1, h1⟩ := candidateBlade_const (G := G) (r := a ^^^ b) hd
      (indexed_of ha hb (by
        intro i hi
        simp only [BitVec.getLsbD_xor] at hi
        cases h1 : a.getLsbD i <;> cases h2 : b.getLsbD i <;> simp_all))
    refine ⟨_, rfl, ?_⟩
    rw [hres, e1]
    refine mkComp_const (mkIfElse_const ?_ hc' ⟨_, rfl⟩) h1
    split
    · exact hv'
    · exact ⟨_, rfl⟩
  · exact absurd h (by simp)

/-! ## Sums and products keep to the vocabulary -/

section Vocabulary

variable {Q : Expr → Prop}

/-- Static blades in canonical order, coefficients satisfying `Q`. -/
def Within (Q : Expr → Prop) (s : CSum) : Prop :=
  Canonical s ∧ ∀ c ∈ s, Q c.coef

variable (hV : ∀ v, Q (.const v)) (hE : ExpClosed Q)
include hV hE

theorem over_mkComp {c : Expr} (b : Blade) (h : Q c) : Q (mkComp c b).coef := by
  simp only [mkComp]
  split
  · exact hV 0
  · exact h

theorem addC_over (k : Nat) : ∀ s t e : CSum, (∀ c ∈ s, Q c.coef) →
    (∀ c ∈ t, Q c.coef) → addC k s t = some e → ∀ c ∈ e, Q c.coef := by
  induction k with
  | zero => intro s t e _ _ h; simp [addC] at h
  | succ k ih =>
    intro s t e hs ht h
    rcases s with _ | ⟨a, as⟩
    · simp [addC] at h
    rcases t with _ | ⟨b, bs⟩
    · simp [addC] at h
    have ha := hs a (by simp)
    have hb := ht b (by simp)
    have has : ∀ c ∈ as, Q c.coef := fun c hc => hs c (by simp [hc])
    have hbs : ∀ c ∈ bs, Q c.coef := fun c hc => ht c (by simp [hc])
    unfold addC at h
    split_ifs at h with h1 h2 h3 h4 h5 h6 h7 h8
    · cases h; simpa using ha
    · cases h; exact ht
    · cases h; exact hs
    · simp only [Option.bind_eq_bind, Option.bind_eq_some_iff] at h
      obtain ⟨x, hx, h⟩ := h
      have hc : ∀ c ∈ [mkComp x a.blade], Q c.coef := by
        simpa using over_mkComp hV hE a.blade ((hE k _ _ ha hb).1 x hx)
      split at h
      · cases h; exact hc
      · exact ih _ _ _ hc hbs h
      · exact ih _ _ _ hc has h
      · simp only [Option.bind_eq_some_iff] at h
        obtain ⟨u, hu, h⟩ := h
        exact ih _ _ _ hc (ih _ _ _ has hbs hu) h
    · cases h
      intro c hc
      rcases List.mem_cons.1 hc with rfl | hc
      · exact ha
      · exact ht c hc
    · simp only [Option.bind_eq_bind, Option.bind_eq_some_iff] at h
      obtain ⟨u, hu, h⟩ := h
      exact ih _ _ _ (by simpa using ha) (ih _ _ _ has ht hu) h
    · cases h
      intro c hc
      rcases List.mem_cons.1 hc with rfl | hc
      · exact hb
      · exact hs c hc
    · simp only [Option.bind_eq_bind, Option.bind_eq_some_iff] at h
      obtain ⟨u, hu, h⟩ := h
      exact ih _ _ _ (by simpa using hb) (ih _ _ _ hs hbs hu) h

theorem within_add {k : Nat} {s t e : CSum} (hs : Within Q s) (ht : Within Q t)
    (h : addC k s t = some e) : Within Q e :=
  ⟨(addC_canonical k s t e hs.1 ht.1 h).1, addC_over hV hE k s t e hs.2 ht.2 h⟩

theorem within_single {c : Comp} (hk : Known c) (ho : Q c.coef) : Within Q [c] :=
  ⟨canonical_single hk, by simpa using ho⟩

omit hV hE in
theorem within_rest {a : Comp} {as : CSum} (h : Within Q (a :: as)) (hne : as ≠ []) :
    Within Q as :=
  ⟨canonical_rest h.1 hne, fun c hc => h.2 c (by simp [hc])⟩

omit hV hE in
theorem within_head {a : Comp} {as : CSum} (h : Within Q (a :: as)) :
    Known a ∧ Q a.coef := ⟨canonical_known h.1 a (by simp), h.2 a (by simp)⟩

theorem within_distribute {k : Nat} {x : Expr} (hx : Q x) : ∀ s e : CSum,
    (∀ c ∈ s, IsConst c.coef ∧ Known c) → distribute k x s = some e → Within Q e := by
  intro s
  induction s with
  | nil => intro e _ h; simp [distribute] at h
  | cons c cs ih =>
    intro e hs h
    obtain ⟨⟨v, hv⟩, hk⟩ := hs c (by simp)
    have one : ∀ y, simp k .mul x c.coef = some y → Within Q [mkComp y c.blade] := by
      intro y hy
      refine within_single hV hE (mkComp_known hk).1 ?_
      rw [(mkComp_known hk).2.1]
      exact (hE k _ _ hx (by rw [hv]; exact hV v)).2 y hy
    rcases cs with _ | ⟨d, ds⟩
    · simp only [distribute, Option.bind_eq_bind, Option.bind_eq_some_iff, Option.some.injEq] at h
      obtain ⟨y, hy, rfl⟩ := h
      exact one y hy
    · unfold distribute at h
      simp only [Option.bind_eq_bind, Option.bind_eq_some_iff] at h
      obtain ⟨y, hy, u, hu, h⟩ := h
      exact within_add hV hE (one y hy) (ih u (fun c hc => hs c (by simp [hc])) hu) h

theorem within_mul_known {M : CMapping} (hM : KnownMapping M) (k : Nat) : ∀ s t e : CSum,
    Within Q s → Within Q t → mulC M k s t = some e → Within Q e := by
  induction k with
  | zero => intro s t e _ _ h; simp [mulC] at h
  | succ k ih =>
    intro s t e hs ht h
    rcases s with _ | ⟨a, as⟩
    · simp [mulC] at h
    rcases t with _ | ⟨b, bs⟩
    · simp [mulC] at h
    obtain ⟨ka, oa⟩ := within_head hs
    obtain ⟨kb, ob⟩ := within_head ht
    have wa := within_single hV hE ka oa
    have wb := within_single hV hE kb ob
    unfold mulC at h
    split_ifs at h with h1 h2
    · cases h; exact wa
    · cases h; exact wb
    · split at h
      · simp only [Option.bind_eq_bind, Option.bind_eq_some_iff] at h
        obtain ⟨x, hx, r, hr, h⟩ := h
        obtain ⟨wa, e1, ha⟩ := ka
        obtain ⟨wb, e2, hb⟩ := kb
        rw [e1, e2] at hr
        exact within_distribute hV hE ((hE k _ _ oa ob).2 x hx) _ _ (hM k wa wb r ha hb hr) h
      · next hne =>
        simp only [Option.bind_eq_bind, Option.bind_eq_some_iff] at h
        obtain ⟨u, hu, w, hw, h⟩ := h
        exact within_add hV hE (ih _ _ _ wa wb hu) (ih _ _ _ wa (within_rest ht hne) hw) h
      · next hne =>
        simp only [Option.bind_eq_bind, Option.bind_eq_some_iff] at h
        obtain ⟨u, hu, w, hw, h⟩ := h
        exact within_add hV hE (ih _ _ _ wa wb hu) (ih _ _ _ (within_rest hs hne) wb hw) h
      · next ha' hb' _ =>
        simp only [Option.bind_eq_bind, Option.bind_eq_some_iff] at h
        obtain ⟨u1, hu1, u2, hu2, u3, hu3, u4, hu4, u5, hu5, u6, hu6, h⟩ := h
        have was := within_rest hs ha'
        have wbs := within_rest ht hb'
        exact within_add hV hE (within_add hV hE (ih _ _ _ wa wb hu1) (ih _ _ _ was wb hu2) hu3)
          (within_add hV hE (ih _ _ _ wa wbs hu4) (ih _ _ _ was wbs hu5) hu6) h

theorem within_mul {M : CMapping} (hM : ConstMapping M) (k : Nat) : ∀ s t e : CSum,
    Within Q s → Within Q t → mulC M k s t = some e → Within Q e := within_mul_known hV hE hM.known k

theorem within_minus {pattern : Word} (k : Nat) : ∀ s e : CSum,
    Within Q s → gradedMinusC k pattern s = some e → Within Q e := by
  have hcomp : ∀ c c', Known c → Q c.coef → gradedMinusComp k pattern c = some c' →
      Known c' ∧ Q c'.coef := by
    intro c c' hk ho h
    simp only [gradedMinusComp, Option.bind_eq_bind, Option.bind_eq_some_iff] at h
    obtain ⟨x, hx, h⟩ := h
    obtain ⟨b, e1, hb⟩ := id hk
    rw [e1] at h
    simp only [Option.some.injEq] at h
    subst h
    split
    · exact ⟨hk, ho⟩
    · rw [← e1]
      refine ⟨(mkComp_known hk).1, ?_⟩
      rw [(mkComp_known hk).2.1]
      exact (hE k _ _ (hV _) ho).2 x hx
  intro s
  induction s with
  | nil => intro e _ h; simp [gradedMinusC] at h
  | cons c cs ih =>
    intro e hs h
    obtain ⟨kc, oc⟩ := within_head hs
    rcases cs with _ | ⟨d, ds⟩
    · simp only [gradedMinusC, Option.bind_eq_bind, Option.bind_eq_some_iff, Option.some.injEq] at h
      obtain ⟨c', hc, rfl⟩ := h
      obtain ⟨h1, h2⟩ := hcomp c c' kc oc hc
      exact within_single hV hE h1 h2
    · simp only [gradedMinusC, Option.bind_eq_bind, Option.bind_eq_some_iff] at h
      obtain ⟨c', hc, u, hu, h⟩ := h
      obtain ⟨h1, h2⟩ := hcomp c c' kc oc hc
      exact within_add hV hE (within_single hV hE h1 h2) (ih _ (within_rest hs (by simp)) hu) h

end Vocabulary

end GATL
