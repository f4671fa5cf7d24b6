import Verif.Proofs.Depth
import Verif.Proofs.Components

/-!
# Canonical sums of components
-/

namespace GATL

open Expr Spec

theorem one_shift_toNat {i : Nat} (h : i ≤ 63) : ((1 : Word) <<< i).toNat = 2 ^ i := by
  rw [BitVec.toNat_shiftLeft, Nat.shiftLeft_eq]
  have : 2 ^ i < 2 ^ 64 := Nat.pow_lt_pow_right (by norm_num) (by omega)
  simp only [BitVec.ofNat_eq_ofNat, BitVec.toNat_ofNat]
  omega

/-- A statically known blade. -/
def Known (c : Comp) : Prop := ∃ b, c.blade = .const b ∧ ∀ i ∈ vecs b, i.val < 63

/-- The order of the blades of two components. -/
def BeforeC (c d : Comp) : Prop := ∀ a b, c.blade = .const a → d.blade = .const b → Before a b

theorem known_ones {b : Word} (h : ∀ i ∈ vecs b, i.val < 63) : ones b ≤ 63 :=
  inSpace_ones (n := 63) (by norm_num) fun i hi => h i (mem_vecs.2 hi)

theorem lt_const_iff {a b : Word} (ha : ones a ≤ 63) (hb : ones b ≤ 63) :
    Blade.lt (.const a) (.const b) = true ↔ Before a b := by
  unfold Before
  rw [gradeOf_eq, gradeOf_eq]
  simp only [Blade.lt, Bool.or_eq_true, decide_eq_true_eq, Bool.and_eq_true, beq_iff_eq,
    BitVec.lt_def, ← BitVec.toNat_inj, one_shift_toNat ha, one_shift_toNat hb]
  rw [Nat.pow_lt_pow_iff_right (by norm_num), Nat.pow_right_inj (le_refl 2)]

theorem before_trans {a b c : Word} (h : Before a b) (h' : Before b c) : Before a c := by
  unfold Before at *; omega

theorem before_irrefl (a : Word) : ¬ Before a a := by unfold Before; omega

theorem before_total {a b : Word} (h : a ≠ b) : Before a b ∨ Before b a := by
  unfold Before
  have : a.toNat ≠ b.toNat := fun e => h (BitVec.eq_of_toNat_eq e)
  omega

theorem known_lt {c d : Comp} (hc : Known c) (hd : Known d) :
    c.blade.lt d.blade = true ↔ BeforeC c d := by
  obtain ⟨a, ea, ha⟩ := hc
  obtain ⟨b, eb, hb⟩ := hd
  rw [ea, eb, lt_const_iff (known_ones ha) (known_ones hb)]
  constructor
  · intro h a' b' h1 h2
    rw [ea] at h1; rw [eb] at h2
    cases h1; cases h2; exact h
  · intro h; exact h a b ea eb

theorem beforeC_trans {c d e : Comp} (hd : Known d) (h : BeforeC c d) (h' : BeforeC d e) :
    BeforeC c e := by
  obtain ⟨b, eb, _⟩ := hd
  intro x y hx hy
  exact before_trans (h x b hx eb) (h' b y eb hy)

theorem beforeC_congr_left {c d e : Comp} (h : BeforeC c e) (hb : d.blade = c.blade) :
    BeforeC d e := by
  intro x y hx hy; exact h x y (hb ▸ hx) hy

theorem beforeC_congr_right {c d e : Comp} (h : BeforeC c d) (hb : e.blade = d.blade) :
    BeforeC c e := by
  intro x y hx hy; exact h x y hx (hb ▸ hy)

theorem beforeC_ne {c d : Comp} (hc : Known c) (h : BeforeC c d) : c.blade ≠ d.blade := by
  obtain ⟨a, ea, _⟩ := hc
  intro e
  exact before_irrefl a (h a a ea (e ▸ ea))

theorem beforeC_total {c d : Comp} (hc : Known c) (hd : Known d) (h : c.blade ≠ d.blade) :
    BeforeC c d ∨ BeforeC d c := by
  obtain ⟨a, ea, _⟩ := hc
  obtain ⟨b, eb, _⟩ := hd
  have hab : a ≠ b := by rintro rfl; exact h (ea.trans eb.symm)
  rcases before_total hab with h | h
  · left; intro x y hx hy; rw [ea] at hx; rw [eb] at hy; cases hx; cases hy; exact h
  · right; intro x y hx hy; rw [eb] at hx; rw [ea] at hy; cases hx; cases hy; exact h

/-- A single component with the constant zero as coefficient. -/
def IsZero (s : CSum) : Prop := ∃ c, s = [c] ∧ c.coef = .const 0

theorem canonical_iff {s : CSum} : Canonical s ↔ s ≠ [] ∧ (∀ c ∈ s, Known c) ∧
    s.Pairwise BeforeC ∧ (IsZero s ∨ ∀ c ∈ s, c.coef ≠ .const 0) := Iff.rfl

/-- Every blade of `e` is a blade of `s` or `t`, unless `e` is zero. -/
def From (s t e : CSum) : Prop := IsZero e ∨ ∀ d ∈ e, ∃ c ∈ s ++ t, d.blade = c.blade

theorem canonical_single {c : Comp} (h : Known c) : Canonical [c] := by
  refine canonical_iff.2 ⟨by simp, by simpa using h, by simp, ?_⟩
  by_cases h0 : c.coef = .const 0
  · exact .inl ⟨c, rfl, h0⟩
  · right; simpa using h0

theorem canonical_tail {a : Comp} {as : CSum} (h : Canonical (a :: as)) (hne : as ≠ []) :
    Canonical as ∧ (∀ c ∈ as, BeforeC a c) ∧ Known a ∧ a.coef ≠ .const 0 ∧ ¬ IsZero as := by
  obtain ⟨_, hk, hp, hz⟩ := canonical_iff.1 h
  rw [List.pairwise_cons] at hp
  have hz' : ∀ c ∈ a :: as, c.coef ≠ .const 0 := by
    rcases hz with ⟨c, hc, _⟩ | hz
    · simp only [List.cons.injEq] at hc; exact absurd hc.2 hne
    · exact hz
  refine ⟨canonical_iff.2 ⟨hne, fun c hc => hk c (by simp [hc]), hp.2,
    .inr fun c hc => hz' c (by simp [hc])⟩, hp.1, hk a (by simp), hz' a (by simp), ?_⟩
  rintro ⟨c, rfl, h0⟩
  exact hz' c (by simp) h0

/-- Adding a component that precedes all the others. -/
theorem addC_front {k : Nat} {c : Comp} {u : CSum} (hc : Known c) (hu : Canonical u)
    (h : IsZero u ∨ c.coef = .const 0 ∨ ∀ d ∈ u, BeforeC c d) :
    ∃ e, addC (k + 1) [c] u = some e ∧ Canonical e ∧ From [c] u e := by
  obtain ⟨hne, hk, hp, hz⟩ := canonical_iff.1 hu
  rcases u with _ | ⟨b, bs⟩
  · exact absurd rfl hne
  by_cases h0 : c.coef = .const 0
  · by_cases hb : b.coef = .const 0 ∧ bs = []
    · exact ⟨[c], by simp [addC, h0, hb], canonical_single hc, .inl ⟨c, rfl, h0⟩⟩
    · exact ⟨b :: bs, by simp only [addC, h0, hb, and_self, if_true, if_false], hu,
        .inr fun d hd => ⟨d, by simp at hd ⊢; tauto, rfl⟩⟩
  · by_cases hb : b.coef = .const 0 ∧ bs = []
    · exact ⟨[c], by simp [addC, h0, hb], canonical_single hc, .inr (by simp)⟩
    · have hnz : ¬ IsZero (b :: bs) := by
        rintro ⟨d, hd, h0'⟩
        simp only [List.cons.injEq] at hd
        exact hb ⟨hd.1 ▸ h0', hd.2⟩
      have hbef : ∀ d ∈ b :: bs, BeforeC c d := by
        rcases h with h | h | h
        · exact absurd h hnz
        · exact absurd h h0
        · exact h
      have hcb := hbef b (by simp)
      have hlt := (known_lt hc (hk b (by simp))).2 hcb
      refine ⟨c :: b :: bs, ?_, ?_, .inr fun d hd => ⟨d, by simp at hd ⊢; tauto, rfl⟩⟩
      · simp only [addC, h0, hb, false_and, if_false, beforeC_ne hc hcb, hlt, if_true]
      · refine canonical_iff.2 ⟨by simp, ?_, List.pairwise_cons.2 ⟨hbef, hp⟩, .inr ?_⟩
        · intro d hd
          rcases List.mem_cons.1 hd with rfl | hd
          · exact hc
          · exact hk d hd
        · intro d hd
          rcases List.mem_cons.1 hd with rfl | hd
          · exact h0
          · rcases hz with hz | hz
            · exact absurd hz hnz
            · exact hz d hd

theorem mkComp_known {c : Expr} {d : Comp} (hd : Known d) :
    Known (mkComp c d.blade) ∧ (mkComp c d.blade).coef = c ∧
      (c ≠ .const 0 → (mkComp c d.blade).blade = d.blade) := by
  obtain ⟨b, eb, hb⟩ := hd
  have hg : (Blade.const b).grades ≠ 0 := by
    intro h
    have := congrArg BitVec.toNat h
    simp only [Blade.grades, one_shift_toNat (known_ones hb)] at this
    have h2 : 0 < 2 ^ ones b := by positivity
    simp at this
  rw [eb]
  refine ⟨?_, by simp only [mkComp, hg, if_false], fun h => by
    simp only [mkComp, hg, h, or_self, if_false]⟩
  by_cases h0 : c = .const 0
  · exact ⟨0, by simp [mkComp, h0], by simp [vecs]⟩
  · exact ⟨b, by simp only [mkComp, hg, h0, or_self, if_false], hb⟩

theorem from_mono {s t s' t' e : CSum} (h : From s t e) (hs : ∀ c ∈ s ++ t, ∃ d ∈ s' ++ t', c.blade = d.blade) :
    From s' t' e := by
  rcases h with h | h
  · exact .inl h
  · refine .inr fun d hd => ?_
    obtain ⟨c, hc, e1⟩ := h d hd
    obtain ⟨c', hc', e2⟩ := hs c hc
    exact ⟨c', hc', e1.trans e2⟩

theorem from_before {a : Comp} {s t u : CSum} (h : From s t u) (hs : ∀ c ∈ s, BeforeC a c)
    (ht : ∀ c ∈ t, BeforeC a c) : IsZero u ∨ ∀ d ∈ u, BeforeC a d := by
  rcases h with h | h
  · exact .inl h
  · refine .inr fun d hd => ?_
    obtain ⟨c, hc, e1⟩ := h d hd
    rcases List.mem_append.1 hc with hc | hc
    · exact beforeC_congr_right (hs c hc) e1
    · exact beforeC_congr_right (ht c hc) e1

/-- Adding a collected component to components that follow it. -/
theorem addC_collected {k : Nat} {x : Expr} {a : Comp} {u e : CSum} (ha : Known a)
    (hu : Canonical u) (h : IsZero u ∨ ∀ d ∈ u, BeforeC a d)
    (he : addC (k + 1) [mkComp x a.blade] u = some e) :
    Canonical e ∧ From [a] u e := by
  obtain ⟨hk, hc, hb⟩ := mkComp_known (c := x) ha
  have h' : IsZero u ∨ (mkComp x a.blade).coef = .const 0 ∨
      ∀ d ∈ u, BeforeC (mkComp x a.blade) d := by
    by_cases hx : x = .const 0
    · right; left; rw [hc, hx]
    · rcases h with h | h
      · exact .inl h
      · exact .inr (.inr fun d hd => beforeC_congr_left (h d hd) (hb hx))
  obtain ⟨e', he', hce, hf⟩ := addC_front (k := k) hk hu h'
  rw [he'] at he
  cases he
  refine ⟨hce, ?_⟩
  by_cases hx : x = .const 0
  · have h0 : (mkComp x a.blade).coef = .const 0 := by rw [hc, hx]
    rcases u with _ | ⟨b, bs⟩
    · exact absurd rfl hu.1
    · by_cases hb : b.coef = .const 0 ∧ bs = []
      · simp only [addC, h0, hb, and_self, if_true, Option.some.injEq] at he'
        subst he'
        exact .inl ⟨_, rfl, h0⟩
      · simp only [addC, h0, hb, and_self, if_true, if_false, Option.some.injEq] at he'
        subst he'
        exact .inr fun d hd => ⟨d, by simp at hd ⊢; tauto, rfl⟩
  · refine from_mono hf fun c hc' => ?_
    rcases List.mem_append.1 hc' with h1 | h1
    · rw [List.mem_singleton] at h1
      exact ⟨a, by simp, by rw [h1, hb hx]⟩
    · exact ⟨c, by simp [h1], rfl⟩

theorem not_isZero {b : Comp} {bs : CSum} (h : ¬ (b.coef = .const 0 ∧ bs = [])) :
    ¬ IsZero (b :: bs) := by
  rintro ⟨d, hd, h0⟩
  simp only [List.cons.injEq] at hd
  exact h ⟨hd.1 ▸ h0, hd.2⟩

/-- The components after the first one follow it. -/
theorem canonical_head {a : Comp} {as : CSum} (h : Canonical (a :: as)) :
    Known a ∧ ∀ c ∈ as, BeforeC a c := by
  obtain ⟨_, hk, hp, _⟩ := canonical_iff.1 h
  rw [List.pairwise_cons] at hp
  exact ⟨hk a (by simp), hp.1⟩

theorem canonical_rest {a : Comp} {as : CSum} (h : Canonical (a :: as)) (hne : as ≠ []) :
    Canonical as := (canonical_tail h hne).1

theorem canonical_known {s : CSum} (h : Canonical s) : ∀ c ∈ s, Known c := h.2.1

theorem addC_pos {k : Nat} {s t e : CSum} (h : addC k s t = some e) : ∃ j, k = j + 1 := by
  cases k with
  | zero => simp [addC] at h
  | succ j => exact ⟨j, rfl⟩

theorem addC_canonical (k : Nat) : ∀ s t e : CSum, Canonical s → Canonical t →
    addC k s t = some e → Canonical e ∧ From s t e := by
  induction k with
  | zero => intro s t e _ _ h; simp [addC] at h
  | succ k ih =>
    intro s t e hs ht he
    rcases s with _ | ⟨a, as⟩
    · exact absurd rfl hs.1
    rcases t with _ | ⟨b, bs⟩
    · exact absurd rfl ht.1
    obtain ⟨ha, has⟩ := canonical_head hs
    obtain ⟨hb, hbs⟩ := canonical_head ht
    unfold addC at he
    by_cases ha0 : a.coef = .const 0 ∧ as = []
    · rw [if_pos ha0] at he
      by_cases hb0 : b.coef = .const 0 ∧ bs = []
      · rw [if_pos hb0] at he
        cases he
        exact ⟨canonical_single ha, .inl ⟨a, rfl, ha0.1⟩⟩
      · rw [if_neg hb0] at he
        cases he
        exact ⟨ht, .inr fun d hd => ⟨d, by simp at hd ⊢; tauto, rfl⟩⟩
    rw [if_neg ha0] at he
    by_cases hb0 : b.coef = .const 0 ∧ bs = []
    · rw [if_pos hb0] at he
      cases he
      exact ⟨hs, .inr fun d hd => ⟨d, by simp at hd ⊢; tauto, rfl⟩⟩
    rw [if_neg hb0] at he
    have hsz := not_isZero ha0
    have htz := not_isZero hb0
    by_cases hab : a.blade = b.blade
    · rw [if_pos hab] at he
      simp only [Option.bind_eq_bind, Option.bind_eq_some_iff] at he
      obtain ⟨x, -, he⟩ := he
      have hbs' : ∀ c ∈ bs, BeforeC a c := fun c hc => beforeC_congr_left (hbs c hc) hab
      have key : ∀ u : CSum, Canonical u → (IsZero u ∨ ∀ d ∈ u, BeforeC a d) →
          addC k [mkComp x a.blade] u = some e → (∀ c ∈ u, ∃ d ∈ (a :: as) ++ b :: bs, c.blade = d.blade) ∨ IsZero u →
          Canonical e ∧ From (a :: as) (b :: bs) e := by
        intro u hu hz he hsub
        obtain ⟨j, rfl⟩ := addC_pos he
        obtain ⟨hce, hf⟩ := addC_collected ha hu hz he
        refine ⟨hce, ?_⟩
        rcases hsub with hsub | hzu
        · refine from_mono hf fun c hc => ?_
          rcases List.mem_append.1 hc with h1 | h1
          · rw [List.mem_singleton] at h1; exact ⟨a, by simp, by rw [h1]⟩
          · exact hsub c h1
        · obtain ⟨z, rfl, hz0⟩ := hzu
          obtain ⟨_, hcx, hbx⟩ := mkComp_known (c := x) ha
          by_cases hx : x = .const 0
          · rw [hx] at hcx
            simp only [addC, hx, hcx, hz0, and_self, if_true, Option.some.injEq] at he
            subst he
            exact .inl ⟨_, rfl, hcx⟩
          · simp only [addC, hcx, hx, hz0, and_self, false_and, if_false, if_true,
              Option.some.injEq] at he
            subst he
            exact .inr fun d hd => ⟨a, by simp, by
              rw [List.mem_singleton] at hd; rw [hd, hbx hx]⟩
      rcases as with _ | ⟨a', as⟩ <;> rcases bs with _ | ⟨b', bs⟩
      · simp only [Option.some.injEq] at he
        subst he
        obtain ⟨h1, h2, h3⟩ := mkComp_known (c := x) ha
        refine ⟨canonical_single h1, ?_⟩
        by_cases hx : x = .const 0
        · exact .inl ⟨_, rfl, by rw [h2, hx]⟩
        · exact .inr fun d hd => ⟨a, by simp, by rw [List.mem_singleton] at hd; rw [hd, h3 hx]⟩
      · exact key _ (canonical_rest ht (by simp)) (.inr hbs') he
          (.inl fun c hc => ⟨c, by simp at hc ⊢; tauto, rfl⟩)
      · exact key _ (canonical_rest hs (by simp)) (.inr has) he
          (.inl fun c hc => ⟨c, by simp at hc ⊢; tauto, rfl⟩)
      · simp only [Option.bind_eq_bind, Option.bind_eq_some_iff] at he
        obtain ⟨u, hu, he⟩ := he
        obtain ⟨hcu, hf⟩ := ih _ _ _ (canonical_rest hs (by simp)) (canonical_rest ht (by simp)) hu
        refine key u hcu (from_before hf has hbs') he ?_
        rcases hf with hf | hf
        · exact .inr hf
        · refine .inl fun c hc => ?_
          obtain ⟨d, hd, e1⟩ := hf c hc
          exact ⟨d, by simp at hd ⊢; tauto, e1⟩
    rw [if_neg hab] at he
    by_cases hlt : a.blade.lt b.blade = true
    · rw [if_pos hlt] at he
      have hba : BeforeC a b := (known_lt ha hb).1 hlt
      have hall : ∀ c ∈ b :: bs, BeforeC a c := by
        intro c hc
        rcases List.mem_cons.1 hc with rfl | hc
        · exact hba
        · exact beforeC_trans hb hba (hbs c hc)
      by_cases hnil : as = []
      · subst hnil
        rw [if_pos rfl] at he
        obtain ⟨e', he', hce, hf⟩ := addC_front (k := 0) ha ht (.inr (.inr hall))
        unfold addC at he'
        rw [if_neg ha0, if_neg hb0, if_neg hab, if_pos hlt, if_pos rfl] at he'
        cases he
        cases he'
        exact ⟨hce, hf⟩
      · rw [if_neg hnil] at he
        simp only [Option.bind_eq_bind, Option.bind_eq_some_iff] at he
        obtain ⟨u, hu, he⟩ := he
        obtain ⟨hcu, hf⟩ := ih _ _ _ (canonical_rest hs hnil) ht hu
        obtain ⟨j, rfl⟩ := addC_pos he
        have hz := from_before hf has hall
        obtain ⟨e', he', hce, hf'⟩ := addC_front (k := j) ha hcu (hz.imp_right .inr)
        rw [he'] at he
        cases he
        refine ⟨hce, ?_⟩
        rcases hf with hf | hf
        · obtain ⟨z, rfl, hz0⟩ := hf
          have hane := (canonical_tail hs hnil).2.2.2.1
          simp only [addC, hane, hz0, and_self, false_and, if_false, if_true,
            Option.some.injEq] at he'
          subst he'
          exact .inr fun d hd => ⟨d, by simp at hd ⊢; tauto, rfl⟩
        · refine from_mono hf' fun c hc => ?_
          rcases List.mem_append.1 hc with h1 | h1
          · exact ⟨c, by simp at h1 ⊢; tauto, rfl⟩
          · obtain ⟨d, hd, e1⟩ := hf c h1
            exact ⟨d, by simp at hd ⊢; tauto, e1⟩
    rw [if_neg hlt] at he
    by_cases hgt : b.blade.lt a.blade = true
    · rw [if_pos hgt] at he
      have hba : BeforeC b a := (known_lt hb ha).1 hgt
      have hall : ∀ c ∈ a :: as, BeforeC b c := by
        intro c hc
        rcases List.mem_cons.1 hc with rfl | hc
        · exact hba
        · exact beforeC_trans ha hba (has c hc)
      by_cases hnil : bs = []
      · subst hnil
        rw [if_pos rfl] at he
        obtain ⟨e', he', hce, hf⟩ := addC_front (k := 0) hb hs (.inr (.inr hall))
        unfold addC at he'
        rw [if_neg hb0, if_neg ha0, if_neg (Ne.symm hab), if_pos hgt, if_pos rfl] at he'
        cases he
        cases he'
        exact ⟨hce, from_mono hf fun c hc => ⟨c, by simp at hc ⊢; tauto, rfl⟩⟩
      · rw [if_neg hnil] at he
        simp only [Option.bind_eq_bind, Option.bind_eq_some_iff] at he
        obtain ⟨u, hu, he⟩ := he
        obtain ⟨hcu, hf⟩ := ih _ _ _ hs (canonical_rest ht hnil) hu
        obtain ⟨j, rfl⟩ := addC_pos he
        have hz := from_before hf hall hbs
        obtain ⟨e', he', hce, hf'⟩ := addC_front (k := j) hb hcu (hz.imp_right .inr)
        rw [he'] at he
        cases he
        refine ⟨hce, ?_⟩
        rcases hf with hf | hf
        · obtain ⟨z, rfl, hz0⟩ := hf
          have hane := (canonical_tail ht hnil).2.2.2.1
          simp only [addC, hane, hz0, and_self, false_and, if_false, if_true,
            Option.some.injEq] at he'
          subst he'
          exact .inr fun d hd => ⟨d, by simp at hd ⊢; tauto, rfl⟩
        · refine from_mono hf' fun c hc => ?_
          rcases List.mem_append.1 hc with h1 | h1
          · exact ⟨c, by simp at h1 ⊢; tauto, rfl⟩
          · obtain ⟨d, hd, e1⟩ := hf c h1
            exact ⟨d, by simp at hd ⊢; tauto, e1⟩
    · rw [if_neg hgt] at he
      simp at he

/-- The coefficients of equal blades can be added. -/
def Addable (s t : CSum) : Prop := ∀ a ∈ s, ∀ b ∈ t, a.blade = b.blade →
  ∃ k e, simp k .add a.coef b.coef = some e

theorem addC_exists (N : Nat) : ∀ s t : CSum, s.length + t.length ≤ N → Canonical s →
    Canonical t → Addable s t → ∃ k e, addC k s t = some e := by
  induction N with
  | zero =>
    intro s t hl hs
    rcases s with _ | ⟨a, as⟩
    · exact absurd rfl hs.1
    · simp at hl
  | succ N ih =>
    intro s t hl hs ht hadd
    rcases s with _ | ⟨a, as⟩
    · exact absurd rfl hs.1
    rcases t with _ | ⟨b, bs⟩
    · exact absurd rfl ht.1
    obtain ⟨ha, has⟩ := canonical_head hs
    obtain ⟨hb, hbs⟩ := canonical_head ht
    simp only [List.length_cons] at hl
    by_cases ha0 : a.coef = .const 0 ∧ as = []
    · by_cases hb0 : b.coef = .const 0 ∧ bs = []
      · exact ⟨1, _, by unfold addC; rw [if_pos ha0, if_pos hb0]⟩
      · exact ⟨1, _, by unfold addC; rw [if_pos ha0, if_neg hb0]⟩
    by_cases hb0 : b.coef = .const 0 ∧ bs = []
    · exact ⟨1, _, by unfold addC; rw [if_neg ha0, if_pos hb0]⟩
    by_cases hab : a.blade = b.blade
    · obtain ⟨k₁, x, hx⟩ := hadd a (by simp) b (by simp) hab
      have hbs' : ∀ c ∈ bs, BeforeC a c := fun c hc => beforeC_congr_left (hbs c hc) hab
      have front : ∀ (k : Nat) (u : CSum), Canonical u → (IsZero u ∨ ∀ d ∈ u, BeforeC a d) →
          ∃ e, addC (k + 1) [mkComp x a.blade] u = some e := by
        intro k u hu hz
        obtain ⟨h1, h2, h3⟩ := mkComp_known (c := x) ha
        obtain ⟨e, he, _⟩ := addC_front (k := k) h1 hu (by
          by_cases hx0 : x = .const 0
          · right; left; rw [h2, hx0]
          · rcases hz with hz | hz
            · exact .inl hz
            · exact .inr (.inr fun d hd => beforeC_congr_left (hz d hd) (h3 hx0)))
        exact ⟨e, he⟩
      rcases as with _ | ⟨a', as⟩ <;> rcases bs with _ | ⟨b', bs⟩
      · refine ⟨k₁ + 1, [mkComp x a.blade], ?_⟩
        unfold addC
        rw [if_neg ha0, if_neg hb0, if_pos hab, hx]
        rfl
      · obtain ⟨e, he⟩ := front k₁ _ (canonical_rest ht (by simp)) (.inr hbs')
        refine ⟨k₁ + 2, e, ?_⟩
        unfold addC
        rw [if_neg ha0, if_neg hb0, if_pos hab, simp_mono (Nat.le_succ k₁) _ _ _ _ hx]
        exact he
      · obtain ⟨e, he⟩ := front k₁ _ (canonical_rest hs (by simp)) (.inr has)
        refine ⟨k₁ + 2, e, ?_⟩
        unfold addC
        rw [if_neg ha0, if_neg hb0, if_pos hab, simp_mono (Nat.le_succ k₁) _ _ _ _ hx]
        exact he
      · have hs' := canonical_rest hs (by simp)
        have ht' := canonical_rest ht (by simp)
        obtain ⟨k₂, u, hu⟩ := ih (a' :: as) (b' :: bs) (by simp at hl ⊢; omega) hs' ht'
          fun c hc d hd => hadd c (List.mem_cons_of_mem _ hc) d (List.mem_cons_of_mem _ hd)
        obtain ⟨hcu, hf⟩ := addC_canonical _ _ _ _ hs' ht' hu
        obtain ⟨e, he⟩ := front (max k₁ k₂) u hcu (from_before hf has hbs')
        refine ⟨max k₁ k₂ + 2, e, ?_⟩
        unfold addC
        rw [if_neg ha0, if_neg hb0, if_pos hab, simp_mono (by omega) _ _ _ _ hx]
        have hu' := addC_mono (k := max k₁ k₂ + 1) (by omega) _ _ u hu
        simp only [Option.bind_eq_bind, Option.bind_some, hu']
        exact he
    rcases beforeC_total ha hb hab with hba | hba
    · have hlt := (known_lt ha hb).2 hba
      have hall : ∀ c ∈ b :: bs, BeforeC a c := by
        intro c hc
        rcases List.mem_cons.1 hc with rfl | hc
        · exact hba
        · exact beforeC_trans hb hba (hbs c hc)
      by_cases hnil : as = []
      · exact ⟨1, _, by unfold addC; rw [if_neg ha0, if_neg hb0, if_neg hab, if_pos hlt, if_pos hnil]⟩
      · have hs' := canonical_rest hs hnil
        obtain ⟨k₂, u, hu⟩ := ih as (b :: bs) (by simp; omega) hs' ht
          fun c hc d hd => hadd c (List.mem_cons_of_mem _ hc) d hd
        obtain ⟨hcu, hf⟩ := addC_canonical _ _ _ _ hs' ht hu
        obtain ⟨e, he, _⟩ := addC_front (k := k₂) ha hcu ((from_before hf has hall).imp_right .inr)
        refine ⟨k₂ + 2, e, ?_⟩
        unfold addC
        rw [if_neg ha0, if_neg hb0, if_neg hab, if_pos hlt, if_neg hnil,
          addC_mono (Nat.le_succ k₂) _ _ u hu]
        exact he
    · have hgt := (known_lt hb ha).2 hba
      have hlt : ¬ a.blade.lt b.blade = true := fun h =>
        beforeC_ne ha (beforeC_trans hb ((known_lt ha hb).1 h) hba) rfl
      have hall : ∀ c ∈ a :: as, BeforeC b c := by
        intro c hc
        rcases List.mem_cons.1 hc with rfl | hc
        · exact hba
        · exact beforeC_trans ha hba (has c hc)
      by_cases hnil : bs = []
      · exact ⟨1, _, by
          unfold addC
          rw [if_neg ha0, if_neg hb0, if_neg hab, if_neg hlt, if_pos hgt, if_pos hnil]⟩
      · have ht' := canonical_rest ht hnil
        obtain ⟨k₂, u, hu⟩ := ih (a :: as) bs (by simp; omega) hs ht'
          fun c hc d hd => hadd c hc d (List.mem_cons_of_mem _ hd)
        obtain ⟨hcu, hf⟩ := addC_canonical _ _ _ _ hs ht' hu
        obtain ⟨e, he, _⟩ := addC_front (k := k₂) hb hcu ((from_before hf hall hbs).imp_right .inr)
        refine ⟨k₂ + 2, e, ?_⟩
        unfold addC
        rw [if_neg ha0, if_neg hb0, if_neg hab, if_neg hlt, if_pos hgt, if_neg hnil,
          addC_mono (Nat.le_succ k₂) _ _ u hu]
        exact he

end GATL
