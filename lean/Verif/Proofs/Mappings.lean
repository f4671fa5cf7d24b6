import Verif.Proofs.Components
import Verif.Proofs.Linear

/-!
# The mappings compute the products of basis blades
-/

namespace GATL

open Expr Spec

variable {ρ : Env} {n : Nat}

/-- A bitset expression with a value; if it is a constant, it is a literal. -/
def BV (ρ : Env) (b : Expr) (w : Word) : Prop :=
  Built b ∧ den ρ b = some (.bits w) ∧ (isConstant b = true → b = .cbits w)

/-- An expression with an integer value; if it is a constant, it is a literal. -/
def IV (ρ : Env) (e : Expr) (k : Int) : Prop :=
  V ρ e k ∧ (isConstant e = true → isLiteral e = true)

theorem BV.cbits (w : Word) : BV ρ (.cbits w) w := ⟨.cbits w, by simp [den], fun _ => rfl⟩

theorem IV.const (k : Int) : IV ρ (.const k) k := ⟨V.const k, fun _ => rfl⟩

theorem BV.of_blade {b : Blade} {t : TBlade} (hb : BladeBuilt b) (ht : BladeDenotes ρ b t) :
    BV ρ b.bits t.bits := by
  cases b with
  | const b => rw [show t = _ from ht]; exact BV.cbits b
  | dyn G e =>
    obtain ⟨w, hw, rfl⟩ := ht
    obtain ⟨h1, h2⟩ := hb G e rfl
    exact ⟨h1, hw, fun h => by simp [Blade.bits, h2] at h⟩

theorem BV.ne_const {b : Expr} {w : Word} (h : BV ρ b w) (k : Int) : b ≠ .const k := by
  rintro rfl
  simp [BV, den] at h

theorem BV.eq_of_cbits {b : Expr} {w v : Word} (h : BV ρ b w) (hb : b = .cbits v) : v = w := by
  subst hb
  have := h.2.1
  simpa [den] using this

theorem built_fn {name : Name} {args : List Expr} (h : ∀ a ∈ args, Built a) (h1 : name ≠ .add)
    (h2 : name ≠ .mul) (h3 : name ≠ .power) : Built (.fn name args) :=
  .fn name args h (fun h => absurd h h1) (fun h => absurd h h2) (fun h => absurd h h3)

theorem built_fn1 {name : Name} {a : Expr} (h : Built a) (h1 : name ≠ .add)
    (h2 : name ≠ .mul) (h3 : name ≠ .power) : Built (.fn name [a]) :=
  built_fn (by simpa using h) h1 h2 h3

theorem built_fn2 {name : Name} {a b : Expr} (h : Built a) (h' : Built b) (h1 : name ≠ .add)
    (h2 : name ≠ .mul) (h3 : name ≠ .power) : Built (.fn name [a, b]) :=
  built_fn (by simpa using ⟨h, h'⟩) h1 h2 h3

theorem built_fn3 {name : Name} {a b c : Expr} (h : Built a) (h' : Built b) (h'' : Built c)
    (h1 : name ≠ .add) (h2 : name ≠ .mul) (h3 : name ≠ .power) : Built (.fn name [a, b, c]) :=
  built_fn (by simpa using ⟨h, h', h''⟩) h1 h2 h3

theorem not_constant_fn2 {name : Name} {a b : Expr} {v w : Word} (ha : BV ρ a v) (hb : BV ρ b w)
    (h : isConstant (.fn name [a, b]) = true) : a = .cbits v ∧ b = .cbits w := by
  simp only [isConstant, isConstantAll, Bool.and_true, Bool.and_eq_true] at h
  exact ⟨ha.2.2 h.1, hb.2.2 h.2⟩

theorem BV.or {l r : Expr} {a b : Word} (hl : BV ρ l a) (hr : BV ρ r b) :
    BV ρ (mkOr l r) (a ||| b) := by
  have hv : den ρ (mkOr l r) = some (.bits (a ||| b)) :=
    mkOr_ok l r _ (by simp [denList, hl.2.1, hr.2.1, interp])
  refine ⟨?_, hv, ?_⟩
  · unfold mkOr
    split
    · exact .const _
    · exact .cbits _
    · split_ifs
      · exact hr.1
      · exact hl.1
      · exact built_fn2 hl.1 hr.1 (by simp) (by simp) (by simp)
  · intro hc
    revert hv hc
    unfold mkOr
    split
    · exact absurd rfl (hl.ne_const _)
    · intro hv _; simp [den] at hv; simp [hv]
    · rename_i h1 h2
      split_ifs with h3 h4
      · intro hv hc
        have := hr.2.2 hc
        rw [this] at hv ⊢
        simpa [den] using hv
      · intro hv hc
        have := hl.2.2 hc
        rw [this] at hv ⊢
        simpa [den] using hv
      · intro _ hc
        obtain ⟨e1, e2⟩ := not_constant_fn2 hl hr hc
        exact absurd e2 (h2 _ _ e1)

theorem BV.xor {l r : Expr} {a b : Word} (hl : BV ρ l a) (hr : BV ρ r b) :
    BV ρ (mkXor l r) (a ^^^ b) := by
  have hv : den ρ (mkXor l r) = some (.bits (a ^^^ b)) :=
    mkXor_ok l r _ (by simp [denList, hl.2.1, hr.2.1, interp])
  refine ⟨?_, hv, ?_⟩
  · unfold mkXor
    split
    · exact .const _
    · exact .cbits _
    · split_ifs
      · exact hr.1
      · exact hl.1
      · exact built_fn2 hl.1 hr.1 (by simp) (by simp) (by simp)
  · intro hc
    revert hv hc
    unfold mkXor
    split
    · exact absurd rfl (hl.ne_const _)
    · intro hv _; simp [den] at hv; simp [hv]
    · rename_i h1 h2
      split_ifs with h3 h4
      · intro hv hc
        have := hr.2.2 hc
        rw [this] at hv ⊢
        simpa [den] using hv
      · intro hv hc
        have := hl.2.2 hc
        rw [this] at hv ⊢
        simpa [den] using hv
      · intro _ hc
        obtain ⟨e1, e2⟩ := not_constant_fn2 hl hr hc
        exact absurd e2 (h2 _ _ e1)

theorem BV.and {l r : Expr} {a b : Word} (hl : BV ρ l a) (hr : BV ρ r b) :
    BV ρ (mkAnd l r) (a &&& b) := by
  have hv : den ρ (mkAnd l r) = some (.bits (a &&& b)) :=
    mkAnd_ok l r _ (by simp [denList, hl.2.1, hr.2.1, interp])
  refine ⟨?_, hv, ?_⟩
  · unfold mkAnd
    split
    · exact .const _
    · exact .cbits _
    · split_ifs
      · exact .const _
      · exact .cbits _
      · exact built_fn2 hl.1 hr.1 (by simp) (by simp) (by simp)
  · intro hc
    revert hv hc
    unfold mkAnd
    split
    · exact absurd rfl (hl.ne_const _)
    · intro hv _; simp [den] at hv; simp [hv]
    · rename_i h1 h2
      split_ifs with h3 h4
      · rcases h3 with h3 | h3
        · exact absurd h3 (hl.ne_const _)
        · exact absurd h3 (hr.ne_const _)
      · intro hv _; simpa [den] using hv
      · intro _ hc
        obtain ⟨e1, e2⟩ := not_constant_fn2 hl hr hc
        exact absurd e2 (h2 _ _ e1)

theorem IV.count {b : Expr} {w : Word} (h : BV ρ b w) : IV ρ (mkCountOneBits b) (ones w) := by
  have hv : den ρ (mkCountOneBits b) = some (.num ((ones w : Int) : ℝ)) :=
    mkCountOneBits_ok b _ (by simp [denList, h.2.1, interp, ones_eq_card])
  refine ⟨⟨?_, hv⟩, ?_⟩
  · unfold mkCountOneBits
    split
    · exact .const _
    · exact built_fn1 h.1 (by simp) (by simp) (by simp)
  · unfold mkCountOneBits
    split
    · intro _; rfl
    · rename_i hb
      intro hc
      simp only [isConstant, isConstantAll, Bool.and_true] at hc
      exact absurd (h.2.2 hc) (hb _)

/-- The value of the sign of a reordering. -/
theorem reorderingSign_v {l r : Expr} {a b : Word} (hl : BV ρ l a) (hr : BV ρ r b) :
    V ρ (mkReorderingSign l r) (reorderingSign a b) := by
  refine ⟨?_, mkReorderingSign_ok l r _ (by simp [denList, hl.2.1, hr.2.1, interp, orderSign_eq])⟩
  unfold mkReorderingSign
  split
  · exact .const _
  · split_ifs
    · exact .const _
    · exact built_fn2 hl.1 hr.1 (by simp) (by simp) (by simp)

/-- A test with a value. -/
def TV (ρ : Env) (t : Expr) (b : Bool) : Prop := Built t ∧ den ρ t = some (.bool b)

theorem TV.cbool (b : Bool) : TV ρ (.cbool b) b := ⟨.cbool b, by simp [den]⟩

theorem mkEqual_built {l r : Expr} (hl : Built l) (hr : Built r) : Built (mkEqual l r) := by
  unfold mkEqual
  split_ifs
  · exact .cbool _
  · exact .cbool _
  · exact built_fn2 hl hr (by simp) (by simp) (by simp)

theorem TV.equal {l r : Expr} {a b : Int} (hl : IV ρ l a) (hr : IV ρ r b) :
    TV ρ (mkEqual l r) (a = b) := by
  refine ⟨mkEqual_built hl.1.1 hr.1.1, mkEqual_ok (fun _ h1 h2 => ⟨hl.2 h1, hr.2 h2⟩) _ ?_⟩
  have h1 : den ρ l = _ := hl.1.2
  have h2 : den ρ r = _ := hr.1.2
  simp [denList, h1, h2, interp]

theorem TV.equal_bits {l r : Expr} {a b : Word} (hl : BV ρ l a) (hr : BV ρ r b) :
    TV ρ (mkEqual l r) (a = b) := by
  refine ⟨mkEqual_built hl.1 hr.1, mkEqual_ok (fun _ h1 h2 => ?_) _ ?_⟩
  · rw [hl.2.2 h1, hr.2.2 h2]; exact ⟨rfl, rfl⟩
  · simp [denList, hl.2.1, hr.2.1, interp]

theorem TV.le {l r : Expr} {a b : Int} (hl : V ρ l a) (hr : V ρ r b) :
    TV ρ (mkLessOrEqual l r) (a ≤ b) := by
  have h1 : den ρ l = _ := hl.2
  have h2 : den ρ r = _ := hr.2
  refine ⟨?_, mkLessOrEqual_ok l r _ (by simp [denList, h1, h2, interp])⟩
  unfold mkLessOrEqual
  split
  · exact .cbool _
  · exact .cbool _
  · split_ifs
    · exact .cbool _
    · exact built_fn2 hl.1 hr.1 (by simp) (by simp) (by simp)

theorem TV.or {l r : Expr} {a b : Bool} (hl : TV ρ l a) (hr : TV ρ r b) :
    TV ρ (mkLogicalOr l r) (a || b) := by
  refine ⟨?_, mkLogicalOr_ok l r _ (by cases a <;> simp [denList, hl.2, hr.2, interp])⟩
  unfold mkLogicalOr
  split_ifs
  · exact .cbool _
  · exact hl.1
  · exact hr.1
  · exact built_fn2 hl.1 hr.1 (by simp) (by simp) (by simp)

theorem mkIfElse_built {t a b : Expr} (ht : Built t) (ha : Built a) (hb : Built b) :
    Built (mkIfElse t a b) := by
  unfold mkIfElse
  split
  · exact ha
  · exact hb
  · split_ifs
    · exact ha
    · exact built_fn3 ht ha hb (by simp) (by simp) (by simp)

theorem TV.ite {t a b : Expr} {c x y : Bool} (ht : TV ρ t c) (ha : TV ρ a x) (hb : TV ρ b y) :
    TV ρ (mkIfElse t a b) (if c then x else y) := by
  refine ⟨mkIfElse_built ht.1 ha.1 hb.1, mkIfElse_ok t a b _ ?_⟩
  cases c <;> simp [denList, ht.2, ha.2, hb.2, interp]

theorem V.ite {t a b : Expr} {c : Bool} {x y : ℝ} (ht : TV ρ t c) (ha : V ρ a x) (hb : V ρ b y) :
    V ρ (mkIfElse t a b) (if c then x else y) := by
  refine ⟨mkIfElse_built ht.1 ha.1 hb.1, mkIfElse_ok t a b _ ?_⟩
  have h1 : den ρ a = _ := ha.2
  have h2 : den ρ b = _ := hb.2
  cases c <;> simp [denList, ht.2, h1, h2, interp]

/-- Only in its own space can a value have the top grade. -/
theorem top_grade (hn : n ≤ 63) {d : Nat} (hd : d = n ∨ n ≤ 62 ∧ d = 63) {G : Word}
    (hG : InSpace (n + 1) G) (h : G = (1 : Word) <<< d) : n = d := by
  rcases hd with rfl | ⟨h62, rfl⟩
  · rfl
  · exfalso
    have := hG ⟨63, by omega⟩ (by
      show G.getLsbD 63 = true
      rw [h]
      change (bit 63).getLsbD 63 = true
      rw [getLsbD_bit _ _ (by omega)]; simp)
    simp at this
    omega

/-- The declared grades and the value of the component a mapping returns. -/
theorem typedComponent_spec (hn : n ≤ 63) {d : Nat} (hd : d = n ∨ n ≤ 62 ∧ d = 63) {G : Word} (hG : InSpace (n + 1) G) {static : Bool}
    {m : ℝ × Word} (hst : InSpace n m.2) {s : ℝ}
    (h : s ≠ 0 → m.1 ≠ 0 → G.getLsbD (ones m.2) = true) :
    WellTyped n (s * (typedComponent d G static m).1, (typedComponent d G static m).2) ∧
      (Finsupp.single (typedComponent d G static m).2.bits
        (s * (typedComponent d G static m).1) : MV ℝ) = Finsupp.single m.2 (s * m.1) := by
  by_cases hz : s * m.1 = 0
  · unfold typedComponent
    split_ifs with h1 h2 h3 h4
    · refine ⟨wellTyped_const.mpr (by intro i hi; simp at hi), ?_⟩
      rw [hz]; simp
    · refine ⟨wellTyped_const.mpr ?_, by dsimp only; rw [hz]; simp⟩
      obtain rfl := top_grade hn hd hG h2
      rw [basisVectors_eq n (by omega)]; exact inSpace_full n
    · exact ⟨wellTyped_const.mpr hst, by dsimp only; rw [hz]; simp⟩
    · exact ⟨wellTyped_const.mpr (by intro i hi; simp at hi), by dsimp only; rw [hz]; simp⟩
    · exact ⟨wellTyped_dyn.mpr ⟨hG, hst, fun h => absurd hz h⟩, by dsimp only; rw [hz]; simp⟩
  · have hs0 : s ≠ 0 := fun h => hz (by rw [h]; ring)
    have hm0 : m.1 ≠ 0 := fun h => hz (by rw [h]; ring)
    have hspace := hst
    have hgrade := h hs0 hm0
    unfold typedComponent
    split_ifs with h1 h2 h3 h4
    · rw [zero_getLsbD h1] at hgrade; exact absurd hgrade (by simp)
    · obtain rfl := top_grade hn hd hG h2
      have hn' : ones m.2 = n := by
        rw [h2] at hgrade
        change (bit n).getLsbD (ones m.2) = true at hgrade
        rw [getLsbD_bit _ _ (by omega)] at hgrade
        simpa using hgrade
      rw [basisVectors_eq n (by omega), ← eq_full (by omega) hspace hn']
      exact ⟨wellTyped_const.mpr hspace, rfl⟩
    · exact ⟨wellTyped_const.mpr hspace, rfl⟩
    · have hn' : ones m.2 = 0 := by
        rw [h4] at hgrade
        change (bit 0).getLsbD (ones m.2) = true at hgrade
        rw [getLsbD_bit _ _ (by omega)] at hgrade
        simpa using hgrade
      rw [ones_eq_zero] at hn'
      rw [hn']
      exact ⟨wellTyped_const.mpr (by intro i hi; simp at hi), rfl⟩
    · exact ⟨wellTyped_dyn.mpr ⟨hG, hspace, fun _ => hgrade⟩, rfl⟩

/-- The single component a mapping returns: coefficient `c`, possible grades `G`, bitset `res`. -/
theorem mapping_single (hn : n ≤ 63) {d : Nat} (hd : d = n ∨ n ≤ 62 ∧ d = 63) {G : Word} (hG : InSpace (n + 1) G) {c res : Expr}
    {m : ℝ × Word} (hc : V ρ c (if G ≠ 0 then m.1 else 0)) (hres : BV ρ res m.2) {s : ℝ}
    (hst : InSpace n m.2)
    (h : s ≠ 0 → m.1 ≠ 0 → G.getLsbD (ones m.2) = true) :
    (∀ x ∈ [mkComp c (candidateBlade d G res)], CompBuilt x) ∧
      ∃ A : List (ℝ × TBlade),
        List.Forall₂ (CompDenotes ρ) [mkComp c (candidateBlade d G res)] A ∧
        (∀ a ∈ A, WellTyped n (s * a.1, a.2)) ∧
        (A.map fun a => (Finsupp.single a.2.bits (s * a.1) : MV ℝ)).sum =
          Finsupp.single m.2 (s * m.1) := by
  have hzero : CompBuilt Comp.zero := ⟨.const 0, by simp⟩
  have hzd : CompDenotes ρ Comp.zero (0, .const 0) := ⟨by simp [Denotes, den], rfl⟩
  -- the component is zero
  have hz0 : s * m.1 = 0 → (∀ x ∈ [Comp.zero], CompBuilt x) ∧
      ∃ A : List (ℝ × TBlade), List.Forall₂ (CompDenotes ρ) [Comp.zero] A ∧
        (∀ a ∈ A, WellTyped n (s * a.1, a.2)) ∧
        (A.map fun a => (Finsupp.single a.2.bits (s * a.1) : MV ℝ)).sum =
          Finsupp.single m.2 (s * m.1) := by
    intro h0
    refine ⟨by simpa using hzero, [(0, .const 0)], by simpa using hzd, ?_, by simp [h0]⟩
    simpa using wellTyped_zero
  obtain ⟨static, hs1⟩ : ∃ static : Bool, (static = true ↔ ∃ w, res = .cbits w) := by
    by_cases hw : ∃ w, res = .cbits w
    · exact ⟨true, by simpa using hw⟩
    · exact ⟨false, by simpa using hw⟩
  obtain ⟨hwt, hval⟩ := typedComponent_spec hn hd hG (static := static) hst h
  by_cases hG0 : G = 0
  · -- no possible grade
    subst hG0
    have hm0 : s * m.1 = 0 := by
      by_contra h0
      have := h (fun h => h0 (by rw [h]; ring)) (fun h => h0 (by rw [h]; ring))
      simp at this
    have hcomp : mkComp c (candidateBlade d 0 res) = Comp.zero ∨
        (∃ b, candidateBlade d 0 res = .const b ∧ (∃ w, res = .cbits w)) := by
      unfold candidateBlade
      have : (0 : Word) ≠ (1 : Word) <<< d := by
        intro h
        have := congrArg (fun w => w.getLsbD d) h
        change (0 : Word).getLsbD d = (bit d).getLsbD d at this
        rw [getLsbD_bit _ _ (by omega)] at this
        simp at this
      rw [if_neg this]
      unfold Blade.deduce
      split
      · exact Or.inr ⟨_, rfl, _, rfl⟩
      · rw [if_neg (by decide)]
        left
        unfold mkComp
        have h0 : (Blade.dyn 0 res).grades = 0 := rfl
        rw [if_pos h0, if_pos (Or.inr h0)]
    rcases hcomp with hcomp | ⟨b, hb, w, hw⟩
    · rw [hcomp]; exact hz0 hm0
    · have hc0 : V ρ c 0 := by simpa using hc
      have hbw : b = m.2 := by
        have e1 := hres.eq_of_cbits hw
        unfold candidateBlade at hb
        split_ifs at hb with h1
        · have := congrArg (fun w => w.getLsbD d) h1
          change (0 : Word).getLsbD d = (bit d).getLsbD d at this
          rw [getLsbD_bit _ _ (by omega)] at this
          simp at this
        · subst hw
          simp only [Blade.deduce, Blade.const.injEq] at hb
          rw [← hb, e1]
      have hin := hst
      rw [hb]
      have hsd : SumDenotes ρ n [mkComp c (.const b)] 0 := by
        apply mkComp_ok hn
        rw [SumDenotes.single_iff]
        exact ⟨⟨hc0.1, by simp⟩, (0, .const b), ⟨hc0.2, rfl⟩, wellTyped_const.2 (hbw ▸ hin),
          by simp⟩
      obtain ⟨h1, ⟨x, t⟩, h2, h3, h4⟩ := SumDenotes.single_iff.1 hsd
      refine ⟨by simpa using h1, [(x, t)], by simpa using h2, ?_, ?_⟩
      · simpa using wellTyped_mul_right s h3
      · rw [hm0]
        have hx : x = 0 := by simpa using h4
        simp [hx]
  · -- the general case
    rw [if_pos hG0] at hc
    have hblade : BladeDenotes ρ (candidateBlade d G res) (typedComponent d G static m).2 ∧
        (typedComponent d G static m).1 = m.1 ∧ BladeBuilt (candidateBlade d G res) := by
      unfold candidateBlade typedComponent
      rw [if_neg hG0]
      by_cases h1 : G = (1 : Word) <<< d
      · rw [if_pos h1, if_pos h1]
        exact ⟨rfl, rfl, by intro _ _ h; simp at h⟩
      · rw [if_neg h1, if_neg h1]
        by_cases h2 : static = true
        · obtain ⟨w, hw⟩ := hs1.1 h2
          rw [if_pos h2]
          have e1 := hres.eq_of_cbits hw
          subst hw
          exact ⟨by rw [e1]; rfl, rfl, by intro _ _ h; simp [Blade.deduce] at h⟩
        · rw [if_neg h2]
          have hne : ∀ w, res ≠ .cbits w := fun w hw => h2 (hs1.2 ⟨w, hw⟩)
          have hd : Blade.deduce G res = if G = 1 then .const 0 else .dyn G res := by
            unfold Blade.deduce
            split
            · exact absurd rfl (hne _)
            · rfl
          rw [hd]
          by_cases h3 : G = 1
          · rw [if_pos h3, if_pos h3]
            exact ⟨rfl, rfl, by intro _ _ h; simp at h⟩
          · rw [if_neg h3, if_neg h3]
            refine ⟨⟨m.2, hres.2.1, rfl⟩, rfl, ?_⟩
            intro _ _ h
            obtain ⟨rfl, rfl⟩ := Blade.dyn.inj h
            refine ⟨hres.1, ?_⟩
            by_contra hcon
            exact hne _ (hres.2.2 (by simpa using hcon))
    obtain ⟨hbd, h1, hbb⟩ := hblade
    have hgr := bladeDenotes_grades hbd
    by_cases hc0 : c = .const 0
    · have : m.1 = 0 := by rw [hc0] at hc; simpa using hc.const_eq
      have hcomp : mkComp c (candidateBlade d G res) = Comp.zero := by
        unfold mkComp
        rw [hc0, if_pos (Or.inl rfl), ite_self]
      rw [hcomp]
      exact hz0 (by rw [this]; ring)
    · by_cases hg0 : (candidateBlade d G res).grades = 0
      · have hcomp : mkComp c (candidateBlade d G res) = Comp.zero := by
          unfold mkComp
          rw [if_pos hg0, if_pos (Or.inr hg0)]
        rw [hcomp]
        refine hz0 ?_
        have := wellTyped_grades_zero hn hwt (by rw [hgr]; exact hg0)
        rw [h1] at this
        exact this
      · have hcomp : mkComp c (candidateBlade d G res) = ⟨c, candidateBlade d G res⟩ := by
          unfold mkComp
          rw [if_neg hg0, if_neg (not_or.2 ⟨hc0, hg0⟩)]
        rw [hcomp]
        have hcb : CompBuilt ⟨c, candidateBlade d G res⟩ := ⟨hc.1, hbb⟩
        refine ⟨by simpa using hcb,
          [((typedComponent d G static m).1, (typedComponent d G static m).2)], ?_, ?_, ?_⟩
        · have : CompDenotes ρ ⟨c, candidateBlade d G res⟩
              ((typedComponent d G static m).1, (typedComponent d G static m).2) :=
            ⟨by rw [h1]; exact hc.2, hbd⟩
          exact List.Forall₂.cons this List.Forall₂.nil
        · simpa using hwt
        · simpa using hval

/-! ### the mappings -/

theorem count_lin {b : Expr} {w : Word} (h : BV ρ b w) : Mono (mkCountOneBits b) := by
  unfold mkCountOneBits
  split
  · exact .inl ⟨_, rfl⟩
  · rename_i hb
    refine .inr (.inl ⟨b, rfl, ?_⟩)
    by_contra hc
    exact hb _ (h.2.2 (by simpa using hc))

theorem gradeDiff_iv {k : Nat} {l r : Expr} {a b : Word} (hl : BV ρ l a) (hr : BV ρ r b)
    {e : Expr} (h : gradeDiff k (mkCountOneBits l) (mkCountOneBits r) = some e) :
    IV ρ e (ones b + -1 * ones a) := by
  simp only [gradeDiff, Option.bind_eq_bind, Option.bind_eq_some_iff] at h
  obtain ⟨m, hm, h⟩ := h
  have h1 := (simp_sound ρ k).mul _ _ _ _ _ (V.const (-1)) (IV.count hl).1 hm
  have h2 := (simp_sound ρ k).add _ _ _ _ _ (IV.count hr).1 h1 h
  refine ⟨by push_cast at h2 ⊢; exact h2, ?_⟩
  exact (add_lin k (.inl (count_lin hr)) (.inl (mul_mono k (count_lin hl) hm)) h).literal

theorem sum_iv {k : Nat} {l r : Expr} {a b : Word} (hl : BV ρ l a) (hr : BV ρ r b)
    {e : Expr} (h : simp k .add (mkCountOneBits l) (mkCountOneBits r) = some e) :
    IV ρ e (ones a + ones b) ∧ Lin e := by
  have h2 := (simp_sound ρ k).add _ _ _ _ _ (IV.count hl).1 (IV.count hr).1 h
  have hL := add_lin k (.inl (count_lin hl)) (.inl (count_lin hr)) h
  exact ⟨⟨by push_cast at h2 ⊢; exact h2, hL.literal⟩, hL⟩

theorem validGrades_tv {k : Nat} (g : GradedProduct) {l r res : Expr} {a b c : Word}
    (hl : BV ρ l a) (hr : BV ρ r b) (hres : BV ρ res c) {e : Expr}
    (h : mkValidGrades k g (mkCountOneBits l) (mkCountOneBits r) (mkCountOneBits res) = some e) :
    TV ρ e (areValidGrades g (ones a) (ones b) (ones c)) := by
  cases g with
  | gp =>
    simp only [mkValidGrades, Option.some.injEq] at h
    subst h; exact TV.cbool true
  | lcont =>
    simp only [mkValidGrades, Option.bind_eq_bind, Option.bind_eq_some_iff, Option.some.injEq] at h
    obtain ⟨d, hd, rfl⟩ := h
    exact TV.equal (gradeDiff_iv hl hr hd) (IV.count hres)
  | rcont =>
    simp only [mkValidGrades, Option.bind_eq_bind, Option.bind_eq_some_iff, Option.some.injEq] at h
    obtain ⟨d, hd, rfl⟩ := h
    exact TV.equal (gradeDiff_iv hr hl hd) (IV.count hres)
  | dot =>
    simp only [mkValidGrades, Option.bind_eq_bind, Option.bind_eq_some_iff, Option.some.injEq] at h
    obtain ⟨d, hd, d', hd', rfl⟩ := h
    have := TV.ite (TV.le (IV.count hl).1 (IV.count hr).1)
      (TV.equal (IV.count hres) (gradeDiff_iv hl hr hd))
      (TV.equal (IV.count hres) (gradeDiff_iv hr hl hd'))
    simpa [areValidGrades] using this
  | hip =>
    simp only [mkValidGrades, Option.bind_eq_bind, Option.bind_eq_some_iff, Option.some.injEq] at h
    obtain ⟨d, hd, d', hd', rfl⟩ := h
    have := TV.ite (TV.or (TV.equal (IV.count hl) (IV.const 0)) (TV.equal (IV.count hr) (IV.const 0)))
      (TV.cbool false)
      (TV.ite (TV.le (IV.count hl).1 (IV.count hr).1)
      (TV.equal (IV.count hres) (gradeDiff_iv hl hr hd))
      (TV.equal (IV.count hres) (gradeDiff_iv hr hl hd')))
    simpa [areValidGrades] using this
  | sp =>
    simp only [mkValidGrades, Option.some.injEq] at h
    subst h; exact TV.equal (IV.count hres) (IV.const 0)

/-- **The exterior product mapping** computes the outer product of basis blades. -/
theorem extMapping_ok (hn : n ≤ 62) (d : Nat) :
    MapOk ρ n (fun L R => SpaceOk n d L.grades R.grades) (extMapping d)
    (bilin fun L R => (((extMul L R).1 : ℝ), (extMul L R).2)) := by
  intro k L R es tl tr s hP h hbL hbR hdL hdR hwL hwR
  unfold extMapping at h
  split_ifs at h
  · simp only [Option.bind_eq_bind, Option.bind_eq_some_iff, Option.some.injEq] at h
    obtain ⟨G, hG, sum, hsum, rfl⟩ := h
    obtain ⟨G', hG', hin, hgr⟩ := extGrades_ok (K := ℝ) n d hn tl.grades tr.grades
      (by rw [bladeDenotes_grades hdL, bladeDenotes_grades hdR]; exact hP)
      (wellTyped_grades hn hwL) (wellTyped_grades hn hwR)
    rw [bladeDenotes_grades hdL, bladeDenotes_grades hdR, hG] at hG'
    obtain rfl := Option.some.inj hG'
    have vl := BV.of_blade hbL hdL
    have vr := BV.of_blade hbR hdR
    rw [bilin_single, Finsupp.smul_single, smul_eq_mul, one_mul, one_mul]
    refine mapping_single (m := (((extMul tl.bits tr.bits).1 : ℝ), (extMul tl.bits tr.bits).2))
      (by omega) (hP.imp id fun h => ⟨hn, h.1⟩) hin ?_ (vl.or vr) ?_ ?_
    · by_cases hG0 : G = 0
      · rw [if_neg (not_not.2 hG0), if_neg (not_not.2 hG0)]
        exact V.ite (TV.cbool false) (reorderingSign_v vl vr) (by simpa using V.const 0)
      · rw [if_pos hG0, if_pos hG0]
        have h3 := V.ite (TV.equal (sum_iv vl vr hsum).1 (IV.count (vl.or vr)))
          (reorderingSign_v vl vr) (V.const 0)
        convert h3 using 1
        unfold extMul
        have : ((ones tl.bits : Int) + ones tr.bits = ones (tl.bits ||| tr.bits)) ↔
            ones tl.bits + ones tr.bits = ones (tl.bits ||| tr.bits) := by omega
        simp only [this, decide_eq_true_eq]
        split_ifs <;> simp
    · exact inSpace_or (wellTyped_space hwL) (wellTyped_space hwR)
    · intro hs hm
      obtain ⟨i1, g1⟩ := wellTyped_bits hn hwL hs
      obtain ⟨i2, g2⟩ := wellTyped_bits hn hwR hs
      exact hgr _ _ i1 i2 g1 g2 hm

/-- **The regressive product mapping** computes the regressive product of basis blades. -/
theorem regMapping_ok (hn : n ≤ 62) : MapOk ρ n (fun _ _ => True) (regMapping n)
    (bilin fun L R => (((regMul n L R).1 : ℝ), (regMul n L R).2)) := by
  intro k L R es tl tr s hP h hbL hbR hdL hdR hwL hwR
  unfold regMapping at h
  split_ifs at h
  · simp only [Option.bind_eq_bind, Option.bind_eq_some_iff, Option.some.injEq] at h
    obtain ⟨G, hG, sum, hsum, neg, hneg, sum', hsum', rfl⟩ := h
    obtain ⟨G', hG', hin, hgr⟩ := regGrades_ok (K := ℝ) n hn tl.grades tr.grades
      (wellTyped_grades hn hwL) (wellTyped_grades hn hwR)
    rw [bladeDenotes_grades hdL, bladeDenotes_grades hdR, hG] at hG'
    obtain rfl := Option.some.inj hG'
    have vl := BV.of_blade hbL hdL
    have vr := BV.of_blade hbR hdR
    have va := vl.and vr
    rw [bilin_single, Finsupp.smul_single, smul_eq_mul, one_mul, one_mul]
    have hiv : IV ρ sum' (ones tl.bits + ones tr.bits + -1 * ones (tl.bits &&& tr.bits)) := by
      obtain ⟨⟨h1, -⟩, hL⟩ := sum_iv vl vr hsum
      have h2 := (simp_sound ρ k).mul _ _ _ _ _ (V.const (-1)) (IV.count va).1 hneg
      have h3 := (simp_sound ρ k).add _ _ _ _ _ h1 h2 hsum'
      refine ⟨by push_cast at h3 ⊢; exact h3, ?_⟩
      exact (add_lin k hL (.inl (mul_mono k (count_lin va) hneg)) hsum').literal
    refine mapping_single (m := (((regMul n tl.bits tr.bits).1 : ℝ), (regMul n tl.bits tr.bits).2))
      (by omega) (.inl rfl) hin ?_ va ?_ ?_
    · have hsg := reorderingSign_v (vl.xor va) (vr.xor va)
      by_cases hG0 : G = 0
      · rw [if_neg (not_not.2 hG0), if_neg (not_not.2 hG0)]
        exact V.ite (TV.cbool false) hsg (by simpa using V.const 0)
      · rw [if_pos hG0, if_pos hG0]
        have h3 := V.ite (TV.equal hiv (IV.const n)) hsg (V.const 0)
        convert h3 using 1
        unfold regMul
        simp only [decide_eq_true_eq]
        split_ifs <;> simp
    · exact inSpace_and' (wellTyped_space hwL)
    · intro hs hm
      obtain ⟨i1, g1⟩ := wellTyped_bits hn hwL hs
      obtain ⟨i2, g2⟩ := wellTyped_bits hn hwR hs
      exact hgr _ _ i1 i2 g1 g2 hm

/-- **The orthogonal metric mapping** computes the metric products of basis blades. -/
theorem orthMapping_ok (hn : n ≤ 62) {factor : Expr → Expr} {f : Word → ℝ}
    (hf : ∀ b w, BV ρ b w → V ρ (factor b) (f w)) (g : GradedProduct) (d : Nat) :
    MapOk ρ n (fun L R => SpaceOk n d L.grades R.grades) (orthMapping d factor g) (bilin (orthMul f g)) := by
  intro k L R es tl tr s hP h hbL hbR hdL hdR hwL hwR
  unfold orthMapping at h
  split_ifs at h
  · simp only [Option.bind_eq_bind, Option.bind_eq_some_iff, Option.some.injEq] at h
    obtain ⟨G, hG, valid, hvalid, coef, hcoef, rfl⟩ := h
    obtain ⟨G', hG', hin, hgr⟩ := gradedGrades_ok (K := ℝ) n d hn f g tl.grades tr.grades
      (by rw [bladeDenotes_grades hdL, bladeDenotes_grades hdR]; exact hP)
      (wellTyped_grades hn hwL) (wellTyped_grades hn hwR)
    rw [bladeDenotes_grades hdL, bladeDenotes_grades hdR, hG] at hG'
    obtain rfl := Option.some.inj hG'
    have vl := BV.of_blade hbL hdL
    have vr := BV.of_blade hbR hdR
    have va := vl.and vr
    have vx := vl.xor vr
    rw [bilin_single, Finsupp.smul_single, smul_eq_mul, one_mul, one_mul]
    refine mapping_single (m := orthMul f g tl.bits tr.bits) (by omega)
      (hP.imp id fun h => ⟨hn, h.1⟩) hin ?_ vx ?_ ?_
    · have hcf := (simp_sound ρ k).mul _ _ _ _ _ (reorderingSign_v vl vr) (hf _ _ va) hcoef
      by_cases hG0 : G = 0
      · rw [if_neg (not_not.2 hG0), if_neg (not_not.2 hG0)]
        exact V.ite (TV.cbool false) hcf (by simpa using V.const 0)
      · rw [if_pos hG0, if_pos hG0]
        have h3 := V.ite (validGrades_tv g vl vr vx hvalid) hcf (V.const 0)
        convert h3 using 1
        unfold orthMul
        dsimp only
        split_ifs <;> simp
    · exact inSpace_xor (wellTyped_space hwL) (wellTyped_space hwR)
    · intro hs hm
      obtain ⟨i1, g1⟩ := wellTyped_bits hn hwL hs
      obtain ⟨i2, g2⟩ := wellTyped_bits hn hwR hs
      exact hgr _ _ i1 i2 g1 g2 hm

theorem isLiteral_num {e : Expr} {k : Int} (h : IV ρ e k) (hl : isLiteral e = true) :
    e = .const k := by
  have hd := h.1.2
  cases e <;> simp [isLiteral] at hl
  · rename_i v
    have := h.1.const_eq
    simp only [Int.cast_inj] at this
    rw [this]
  all_goals simp [Denotes, den] at hd

theorem IV.and_one {c : Expr} {k : Nat} (h : IV ρ c k) : IV ρ (mkAnd c (.const 1)) (k &&& 1 : Nat) := by
  have hd : den ρ c = _ := h.1.2
  have hv : den ρ (mkAnd c (.const 1)) = some (.num (((k &&& 1 : Nat) : Int) : ℝ)) := by
    refine mkAnd_ok c (.const 1) _ ?_
    simp only [denList, hd, den, interp]
    rw [if_pos (by constructor <;> simp)]
    simp only [Int.cast_natCast, Nat.floor_natCast, Nat.floor_one, Int.cast_one]
  refine ⟨⟨?_, hv⟩, ?_⟩
  · unfold mkAnd
    split
    · exact .const _
    · exact .cbits _
    · split_ifs
      · exact .const _
      · exact .cbits _
      · exact built_fn2 h.1.1 (.const 1) (by simp) (by simp) (by simp)
  · intro hc
    revert hc
    unfold mkAnd
    split
    · intro _; rfl
    · intro _; rfl
    · rename_i h1 h2
      split_ifs
      · intro _; rfl
      · intro _; rfl
      · intro hc
        simp only [isConstant, isConstantAll, Bool.and_true] at hc
        exact absurd rfl (h1 _ _ (isLiteral_num h (h.2 hc)))

/-- The metric factor of a signed space. -/
theorem signedFactor_ok (P Q R : Nat) (b : Expr) (w : Word) (h : BV ρ b w) :
    V ρ (mkSignedFactor P Q R b) (signedFactor P Q R w) := by
  have h1 := TV.equal_bits (h.and (BV.cbits (zeroMask P Q R))) (BV.cbits (ρ := ρ) 0)
  have h2 := TV.equal (IV.and_one (IV.count (h.and (BV.cbits (negativeMask P Q R))))) (IV.const 0)
  have := V.ite h1 (V.ite h2 (V.const 1) (V.const (-1))) (V.const 0)
  unfold mkSignedFactor
  convert this using 1
  unfold signedFactor
  simp only [decide_eq_true_eq, Nat.cast_eq_zero]
  split_ifs <;> simp

/-! ### sign changes by grade -/

theorem gradedUnaryMinus_single (p b : Word) (x : ℝ) :
    gradedUnaryMinus p (Finsupp.single b x : MV ℝ) =
      Finsupp.single b (if p &&& ((1 : Word) <<< ones b) = 0 then x else -1 * x) := by
  unfold gradedUnaryMinus
  rw [Finsupp.linearCombination_single, Finsupp.smul_single]
  split_ifs <;> simp

theorem BV.shift {b e : Expr} {w : Word} (h : BV ρ b w) (hw : ones w < 64)
    (he : mkLeftShift (.cbits 1) (mkCountOneBits b) = some e) :
    BV ρ e ((1 : Word) <<< ones w) := by
  have hv : den ρ e = some (.bits ((1 : Word) <<< ones w)) := by
    refine mkLeftShift_ok he _ ?_
    have h1 : den ρ (mkCountOneBits b) = _ := (IV.count h).1.2
    simp only [denList, den, h1, interp]
    rw [if_pos (by constructor <;> simp [hw])]
    simp
  have hlit := (IV.count h).2
  have hbt := (IV.count h).1.1
  unfold mkLeftShift at he
  split at he
  · split_ifs at he
    · obtain rfl := Option.some.inj he
      refine ⟨.cbits _, hv, fun _ => ?_⟩
      simpa [den] using hv
  · rename_i hnl
    split_ifs at he
    · obtain rfl := Option.some.inj he
      refine ⟨.cbits _, hv, fun _ => ?_⟩
      simpa [den] using hv
    · obtain rfl := Option.some.inj he
      refine ⟨built_fn2 (.cbits 1) hbt (by simp) (by simp) (by simp), hv, fun hc => ?_⟩
      simp only [isConstant, isConstantAll, Bool.and_true, Bool.true_and] at hc
      have := isLiteral_num (IV.count h) (hlit hc)
      exact absurd this (hnl _ _ rfl)

theorem gradedMinusComp_ok (hn : n ≤ 63) {k : Nat} {p : Word} {c c' : Comp} {m : MV ℝ}
    (h : SumDenotes ρ n [c] m) (hc : gradedMinusComp k p c = some c') :
    SumDenotes ρ n [c'] (gradedUnaryMinus p m) := by
  obtain ⟨hb, ⟨x, t⟩, ⟨hx, ht⟩, hw, rfl⟩ := SumDenotes.single_iff.1 h
  simp only [gradedMinusComp, Option.bind_eq_bind, Option.bind_eq_some_iff] at hc
  obtain ⟨neg, hneg, hc⟩ := hc
  have hneg' := (simp_sound ρ k).mul _ _ _ _ _ (V.const (-1)) ⟨hb.1, hx⟩ hneg
  have hsp := inSpace_ones hn (wellTyped_space hw)
  simp only at hsp
  rw [gradedUnaryMinus_single]
  cases hbl : c.blade with
  | const b =>
    rw [hbl] at hc ht
    have ht' : t = .const b := ht
    subst ht'
    simp only [Option.some.injEq] at hc
    change SumDenotes ρ n [c'] (Finsupp.single b
      (if p &&& ((1 : Word) <<< ones b) = 0 then x else -1 * x))
    by_cases h0 : p &&& ((1 : Word) <<< ones b) = 0
    · rw [if_pos h0] at hc ⊢
      subst hc; exact h
    · rw [if_neg h0] at hc ⊢
      subst hc
      apply mkComp_ok hn
      rw [SumDenotes.single_iff]
      refine ⟨⟨hneg'.1, by simp⟩, (-1 * x, .const b), ⟨?_, rfl⟩, hw, rfl⟩
      have := hneg'.2
      push_cast at this
      exact this
  | dyn G e =>
    rw [hbl] at hc ht
    obtain ⟨w, hwd, rfl⟩ := ht
    simp only [Option.bind_eq_some_iff, Option.some.injEq] at hc
    obtain ⟨sh, hsh, hc⟩ := hc
    have hbe := hb.2 G e hbl
    have hbv : BV ρ e w := ⟨hbe.1, hwd, fun h => by rw [hbe.2] at h; simp at h⟩
    simp only [TBlade.bits] at hsp
    have hbs := hbv.shift (by omega) hsh
    change SumDenotes ρ n [c'] (Finsupp.single w
      (if p &&& ((1 : Word) <<< ones w) = 0 then x else -1 * x))
    split_ifs at hc with h0
    · subst hc
      by_cases hx0 : x = 0
      · subst hx0
        rw [show (if p &&& ((1 : Word) <<< ones w) = 0 then (0 : ℝ) else -1 * 0) = 0 by simp]
        exact h
      · have hg := (wellTyped_dyn.1 hw).2.2 hx0
        rw [if_pos]
        · exact h
        · rw [BitVec.and_comm] at h0
          by_contra hne
          obtain ⟨i, hi, hpi⟩ := ne_zero_exists hne
          rw [BitVec.getLsbD_and, Bool.and_eq_true] at hpi
          change p.getLsbD i = true ∧ (bit (ones w)).getLsbD i = true at hpi
          rw [getLsbD_bit _ _ (by omega)] at hpi
          have : ones w = i := by simpa [eq_comm] using hpi.2
          have h1 : (p &&& G).getLsbD i = true := by
            rw [BitVec.getLsbD_and, hpi.1, ← this, hg]; rfl
          rw [h0] at h1
          simp at h1
    · subst hc
      apply mkComp_ok hn
      have htv := TV.equal_bits ((BV.cbits (ρ := ρ) p).and hbs) (BV.cbits (ρ := ρ) 0)
      have hv : V ρ (mkIfElse (mkEqual (mkAnd (.cbits p) sh) (.cbits 0)) c.coef neg)
          (if p &&& ((1 : Word) <<< ones w) = 0 then x else -1 * x) := by
        have := V.ite htv ⟨hb.1, hx⟩ hneg'
        simp only [decide_eq_true_eq] at this
        convert this using 2
        norm_num
      rw [SumDenotes.single_iff]
      refine ⟨⟨hv.1, ?_⟩, (if p &&& ((1 : Word) <<< ones w) = 0 then x else -1 * x, .dyn G w),
        ⟨hv.2, w, hwd, rfl⟩, ?_, ?_⟩
      · intro G' e' hge
        simp only [Blade.dyn.injEq] at hge
        obtain ⟨rfl, rfl⟩ := hge; exact hbe
      · rw [wellTyped_dyn] at hw ⊢
        refine ⟨hw.1, hw.2.1, fun hne => hw.2.2 ?_⟩
        intro hx0
        refine hne ?_
        rw [hx0, mul_zero, ite_self]
      · rfl

theorem gradedMinusC_ok (hn : n ≤ 63) {k : Nat} {p : Word} : ∀ (s e : CSum) (m : MV ℝ),
    SumDenotes ρ n s m → gradedMinusC k p s = some e →
    SumDenotes ρ n e (gradedUnaryMinus p m) := by
  intro s
  induction s with
  | nil => intro e m _ h; simp [gradedMinusC] at h
  | cons c cs ih =>
    intro e m hs he
    obtain ⟨m₁, m₂, h1, h2, rfl⟩ := SumDenotes.cons_iff.1 hs
    cases cs with
    | nil =>
      simp only [gradedMinusC, Option.bind_eq_bind, Option.bind_eq_some_iff, Option.some.injEq] at he
      obtain ⟨c', hc', rfl⟩ := he
      have := sumDenotes_nil h2
      subst this
      simpa using gradedMinusComp_ok hn h1 hc'
    | cons d ds =>
      simp only [gradedMinusC, Option.bind_eq_bind, Option.bind_eq_some_iff] at he ih
      obtain ⟨c', hc', es, hes, he⟩ := he
      rw [map_add]
      exact addC_ok hn k _ _ _ _ _ (gradedMinusComp_ok hn h1 hc') (ih _ _ h2 hes) he

end GATL
