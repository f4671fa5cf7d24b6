import Verif.Proofs.LazyProgram
import Verif.Spec.Take

/-!
# Grades: helper lemmas
-/

namespace GATL

open Expr Spec

variable {ρ : Env} {N n L U : Nat}

/-! ## Constants are literals -/

/-- A constant expression is an integer literal. -/
def Lit (e : Expr) : Prop := isConstant e = true → ∃ v, e = .const v

theorem lit_const (v : Int) : Lit (.const v) := fun _ => ⟨v, rfl⟩

theorem lit_ifElse {t a b : Expr} (ht : isConstant t = false) (ha : Lit a) (hb : Lit b) :
    Lit (mkIfElse t a b) := by
  unfold mkIfElse
  split
  · exact ha
  · exact hb
  · split
    · exact ha
    · intro h; simp [isConstant, isConstantAll, ht] at h

theorem var_equal {l r : Expr} (hl : Lit l) (hr : Lit r) : isConstant (mkEqual l r) = false := by
  unfold mkEqual
  split
  · rfl
  · split
    · rfl
    · next h1 h2 =>
      by_contra h
      simp only [isConstant, isConstantAll, Bool.and_true, Bool.not_eq_false, Bool.and_eq_true] at h
      obtain ⟨a, rfl⟩ := hl h.1
      obtain ⟨b, rfl⟩ := hr h.2
      by_cases hab : (const a : Expr) = const b
      · exact h1 ⟨hab, rfl⟩
      · exact h2 ⟨hab, rfl, rfl⟩

theorem var_le {l r : Expr} (hl : Lit l) (hr : Lit r) : isConstant (mkLessOrEqual l r) = false := by
  unfold mkLessOrEqual
  split
  · rfl
  · rfl
  · next h1 h2 =>
    split
    · rfl
    · by_contra h
      simp only [isConstant, isConstantAll, Bool.and_true, Bool.not_eq_false, Bool.and_eq_true] at h
      obtain ⟨a, rfl⟩ := hl h.1
      obtain ⟨b, rfl⟩ := hr h.2
      exact h1 _ _ rfl rfl

theorem lit_abs {v e : Expr} (hv : Lit v) (h : mkAbsolute (simp n) v = some e) : Lit e := by
  unfold mkAbsolute at h
  simp only [Option.bind_eq_bind, Option.bind_eq_some_iff] at h
  obtain ⟨nn, hnn, neg, hneg, h⟩ := h
  by_cases hc : isConstant v = true
  · obtain ⟨w, rfl⟩ := hv hc
    obtain ⟨z, hz⟩ := (expClosed_const n _ _ (isConst_const (-1)) (isConst_const w)).2 _ hneg
    subst hz
    split at h
    · cases h; exact hv
    · split at h
      · cases h; exact lit_const z
      · next h' => simp [isFunction] at h'; simp [isConstant] at h'
  · split at h
    · cases h; exact hv
    · split at h
      · next h' => simp [hc] at h'
      · cases h
        intro h'
        simp only [isConstant, isConstantAll, Bool.and_true] at h'
        exact absurd h' hc

theorem lit_count {b : Blade} (hb : ∀ G e, b = .dyn G e → isConstant e = false) :
    Lit (mkCountOneBits b.bits) := by
  cases b with
  | const w => exact lit_const _
  | dyn G e =>
    have := hb G e rfl
    unfold mkCountOneBits
    split
    · next h => rw [Blade.bits] at h; rw [h] at this; simp [isConstant] at this
    · intro h
      rw [Blade.bits] at h
      simp [isConstant, isConstantAll, this] at h

/-! ## Values -/

theorem count_den {b : Blade} {t : TBlade} (h : BladeDenotes ρ b t) :
    Denotes ρ (mkCountOneBits b.bits) (gradeOf t.bits : ℤ) := by
  refine mkCountOneBits_ok (ρ := ρ) b.bits _ ?_
  cases b with
  | const w =>
    rw [BladeDenotes] at h
    subst h
    simp [Blade.bits, denList, den, interp, TBlade.bits, gradeOf]
  | dyn G e =>
    obtain ⟨w, hw, rfl⟩ := h
    simp [Blade.bits, denList, hw, interp, TBlade.bits, gradeOf]

theorem cond_den {t a b : Expr} {p : Bool} {x y : ℝ} (ht : den ρ t = some (.bool p)) (ha : Denotes ρ a x)
    (hb : Denotes ρ b y) : Denotes ρ (mkIfElse t a b) (if p then x else y) := by
  refine mkIfElse_ok (ρ := ρ) t a b _ ?_
  rw [Denotes] at ha hb
  simp only [denList, ht, ha, hb, interp]
  cases p <;> simp

theorem equal_den {l r : Expr} {x y : ℝ} (hl : Lit l) (hr : Lit r) (hx : Denotes ρ l x)
    (hy : Denotes ρ r y) : den ρ (mkEqual l r) = some (.bool (decide (x = y))) := by
  refine mkEqual_ok (ρ := ρ) (fun _ h1 h2 => ?_) _ ?_
  · obtain ⟨a, rfl⟩ := hl h1
    obtain ⟨b, rfl⟩ := hr h2
    exact ⟨rfl, rfl⟩
  · rw [Denotes] at hx hy
    simp only [denList, hx, hy, interp]

theorem le_den {l r : Expr} {x y : ℝ} (hx : Denotes ρ l x) (hy : Denotes ρ r y) :
    den ρ (mkLessOrEqual l r) = some (.bool (decide (x ≤ y))) := by
  refine mkLessOrEqual_ok (ρ := ρ) l r _ ?_
  rw [Denotes] at hx hy
  simp only [denList, hx, hy, interp]

theorem abs_den {v e : Expr} {x : ℝ} (hl : Lit v) (hb : Built v) (hs : TraitSafe v) (hx : Denotes ρ v x)
    (h : mkAbsolute (simp n) v = some e) : Denotes ρ e |x| := by
  refine mkAbsolute_ok (ρ := ρ) hb hs (fun hc hnn y hy => ?_) h _ ?_
  · obtain ⟨w, rfl⟩ := hl hc
    have e1 : y = (w : ℝ) := V.const_eq ⟨hb, hy⟩
    simp only [isNonNegative, Option.some.injEq, decide_eq_false_iff_not, not_le] at hnn
    rw [e1]; exact_mod_cast hnn.le
  · rw [Denotes] at hx
    simp only [denList, hx, interp]

/-! ## The deduced grade -/

/-- The grade of one component. -/
noncomputable def compGr (tol x : ℝ) (g : Nat) : ℤ := if |x| ≤ tol then -2 else g

/-- The combination of two grades. -/
def joinGr (a r : ℤ) : ℤ :=
  if a = -1 then -1 else if r = -1 then -1 else if a = -2 then r else if r = -2 then a
  else if a = r then a else -1

theorem compGrade_ok {tol : Expr} {y : ℝ} {c : Comp} {p : ℝ × TBlade} {e : Expr} (hb : CompBuilt c)
    (hl : Lit c.coef) (hs : TraitSafe c.coef) (ht : Lit tol) (hy : Denotes ρ tol y)
    (hc : CompDenotes ρ c p) (h : compGrade n tol c = some e) :
    Lit e ∧ Denotes ρ e (compGr y p.1 (gradeOf p.2.bits) : ℤ) := by
  simp only [compGrade, Option.bind_eq_bind, Option.bind_eq_some_iff, Option.some.injEq] at h
  obtain ⟨a, ha, rfl⟩ := h
  have h1 := lit_abs hl ha
  refine ⟨lit_ifElse (var_le h1 ht) (lit_const _) (lit_count fun G e h => (hb.2 G e h).2), ?_⟩
  have h2 := cond_den (le_den (abs_den hl hb.1 hs hc.1 ha) hy) (V.const (ρ := ρ) (-2)).2 (count_den hc.2)
  convert h2 using 1
  simp only [compGr, decide_eq_true_eq]
  split <;> simp

theorem joinGrades_ok {a r : Expr} {x y : ℤ} (ha : Lit a) (hr : Lit r) (hx : Denotes ρ a x)
    (hy : Denotes ρ r y) : Lit (joinGrades a r) ∧ Denotes ρ (joinGrades a r) (joinGr x y : ℤ) := by
  have k1 := lit_const (-1)
  have k2 := lit_const (-2)
  have c1 := (V.const (ρ := ρ) (-1)).2
  have c2 := (V.const (ρ := ρ) (-2)).2
  refine ⟨lit_ifElse (var_equal ha k1) k1 (lit_ifElse (var_equal hr k1) k1 (lit_ifElse (var_equal ha k2) hr
    (lit_ifElse (var_equal hr k2) ha (lit_ifElse (var_equal ha hr) ha k1)))), ?_⟩
  have h := cond_den (equal_den ha k1 hx c1) c1 (cond_den (equal_den hr k1 hy c1) c1
    (cond_den (equal_den ha k2 hx c2) hy (cond_den (equal_den hr k2 hy c2) hx
      (cond_den (equal_den ha hr hx hy) hx c1))))
  unfold joinGrades
  convert h using 1
  have e1 : ∀ z w : ℤ, ((z : ℝ) = w) = (z = w) := fun z w => by simp
  simp only [decide_eq_true_eq, joinGr, e1]
  split_ifs <;> simp

/-- The grade of a list of components. -/
noncomputable def listGr (tol : ℝ) : List (ℝ × TBlade) → ℤ
  | [] => -2
  | [p] => compGr tol p.1 (gradeOf p.2.bits)
  | p :: ps => joinGr (compGr tol p.1 (gradeOf p.2.bits)) (listGr tol ps)

/-- The largest grade of a list of components. -/
noncomputable def listMax (tol : ℝ) : List (ℝ × TBlade) → ℤ
  | [] => -2
  | [p] => compGr tol p.1 (gradeOf p.2.bits)
  | p :: ps => if compGr tol p.1 (gradeOf p.2.bits) ≤ listMax tol ps then listMax tol ps
      else compGr tol p.1 (gradeOf p.2.bits)

/-- What is required of the coefficients. -/
def Gradable (s : CSum) : Prop := ∀ c ∈ s, CompBuilt c ∧ Lit c.coef ∧ TraitSafe c.coef

theorem deduceGrade_ok {tol : Expr} {y : ℝ} (ht : Lit tol) (hy : Denotes ρ tol y) :
    ∀ (s : CSum) (V : List (ℝ × TBlade)) (e : Expr), Gradable s → List.Forall₂ (CompDenotes ρ) s V →
      deduceGrade n tol s = some e → Lit e ∧ Denotes ρ e (listGr y V : ℤ)
  | [], _, _, _, _, h => by simp [deduceGrade] at h
  | [c], _, e, hg, hV, h => by
    obtain ⟨p, V', hp, hV', rfl⟩ := List.forall₂_cons_left_iff.1 hV
    cases hV'
    obtain ⟨h1, h2, h3⟩ := hg c (by simp)
    exact compGrade_ok h1 h2 h3 ht hy hp h
  | c :: d :: cs, _, e, hg, hV, h => by
    obtain ⟨p, V', hp, hV', rfl⟩ := List.forall₂_cons_left_iff.1 hV
    obtain ⟨h1, h2, h3⟩ := hg c (by simp)
    simp only [deduceGrade, Option.bind_eq_bind, Option.bind_eq_some_iff, Option.some.injEq] at h
    obtain ⟨a, ha, r, hr, rfl⟩ := h
    obtain ⟨a1, a2⟩ := compGrade_ok h1 h2 h3 ht hy hp ha
    obtain ⟨r1, r2⟩ := deduceGrade_ok ht hy (d :: cs) V' r (fun x hx => hg x (List.mem_cons_of_mem _ hx)) hV' hr
    cases hV'
    exact joinGrades_ok a1 r1 a2 r2

theorem deduceLargest_ok {tol : Expr} {y : ℝ} (ht : Lit tol) (hy : Denotes ρ tol y) :
    ∀ (s : CSum) (V : List (ℝ × TBlade)) (e : Expr), Gradable s → List.Forall₂ (CompDenotes ρ) s V →
      deduceLargestGrade n tol s = some e → Lit e ∧ Denotes ρ e (listMax y V : ℤ)
  | [], _, _, _, _, h => by simp [deduceLargestGrade] at h
  | [c], _, e, hg, hV, h => by
    obtain ⟨p, V', hp, hV', rfl⟩ := List.forall₂_cons_left_iff.1 hV
    cases hV'
    obtain ⟨h1, h2, h3⟩ := hg c (by simp)
    exact compGrade_ok h1 h2 h3 ht hy hp h
  | c :: d :: cs, _, e, hg, hV, h => by
    obtain ⟨p, V', hp, hV', rfl⟩ := List.forall₂_cons_left_iff.1 hV
    obtain ⟨h1, h2, h3⟩ := hg c (by simp)
    simp only [deduceLargestGrade, Option.bind_eq_bind, Option.bind_eq_some_iff, Option.some.injEq] at h
    obtain ⟨a, ha, r, hr, rfl⟩ := h
    obtain ⟨a1, a2⟩ := compGrade_ok h1 h2 h3 ht hy hp ha
    obtain ⟨r1, r2⟩ := deduceLargest_ok ht hy (d :: cs) V' r (fun x hx => hg x (List.mem_cons_of_mem _ hx)) hV' hr
    cases hV'
    refine ⟨lit_ifElse (var_le a1 r1) r1 a1, ?_⟩
    convert cond_den (le_den a2 r2) r2 a2 using 1
    simp only [listMax, decide_eq_true_eq, Int.cast_le]
    split_ifs <;> rfl

/-! ## The specification -/

theorem isGrade_comp (tol : ℝ) (p : ℝ × TBlade) :
    IsGrade (AboveIn tol [p]) (compGr tol p.1 (gradeOf p.2.bits)) := by
  by_cases h : |p.1| ≤ tol
  · refine .inl ⟨?_, by simp [compGr, h]⟩
    rintro b ⟨q, hq, -, hb⟩
    rw [List.mem_singleton] at hq
    subst hq
    linarith
  · refine .inr (.inl ⟨⟨p.2.bits, p, by simp, rfl, not_le.1 h⟩, ?_⟩)
    rintro b ⟨q, hq, rfl, hb⟩
    rw [List.mem_singleton] at hq
    subst hq
    simp [compGr, h]

theorem aboveIn_cons {tol : ℝ} {p : ℝ × TBlade} {ps : List (ℝ × TBlade)} {b : Word} :
    AboveIn tol (p :: ps) b ↔ AboveIn tol [p] b ∨ AboveIn tol ps b := by
  simp [AboveIn]

theorem isGrade_congr {s t : Word → Prop} (h : ∀ b, s b ↔ t b) (g : ℤ) : IsGrade s g ↔ IsGrade t g := by
  rw [show s = t from funext fun b => propext (h b)]

theorem isLargest_congr {s t : Word → Prop} (h : ∀ b, s b ↔ t b) (g : ℤ) :
    IsLargestGrade s g ↔ IsLargestGrade t g := by
  rw [show s = t from funext fun b => propext (h b)]

theorem isGrade_join {s t : Word → Prop} {x y : ℤ} (hs : IsGrade s x) (ht : IsGrade t y) :
    IsGrade (fun b => s b ∨ t b) (joinGr x y) := by
  rcases hs with ⟨s1, rfl⟩ | ⟨⟨b, s1⟩, s2⟩ | ⟨⟨b, c, s1, s2, s3⟩, rfl⟩
  · rcases ht with ⟨t1, rfl⟩ | ⟨⟨d, t1⟩, t2⟩ | ⟨⟨d, e, t1, t2, t3⟩, rfl⟩
    · exact .inl ⟨fun b => by simp [s1, t1], by decide⟩
    · have := t2 d t1
      refine .inr (.inl ⟨⟨d, .inr t1⟩, fun b hb => ?_⟩)
      rw [t2 b (hb.resolve_left (s1 b)), joinGr, if_neg (by decide), if_neg (by omega), if_pos rfl]
    · exact .inr (.inr ⟨⟨d, e, .inr t1, .inr t2, t3⟩, by decide⟩)
  · have hx := s2 b s1
    rcases ht with ⟨t1, rfl⟩ | ⟨⟨d, t1⟩, t2⟩ | ⟨⟨d, e, t1, t2, t3⟩, rfl⟩
    · refine .inr (.inl ⟨⟨b, .inl s1⟩, fun c hc => ?_⟩)
      rw [s2 c (hc.resolve_right (t1 c)), joinGr, if_neg (by omega), if_neg (by omega), if_neg (by omega),
        if_pos rfl]
    · have hy := t2 d t1
      rw [joinGr, if_neg (by omega), if_neg (by omega), if_neg (by omega), if_neg (by omega)]
      by_cases hxy : x = y
      · rw [if_pos hxy]
        refine .inr (.inl ⟨⟨b, .inl s1⟩, fun c hc => ?_⟩)
        rcases hc with hc | hc
        · exact s2 c hc
        · rw [hxy]; exact t2 c hc
      · rw [if_neg hxy]
        exact .inr (.inr ⟨⟨b, d, .inl s1, .inr t1, by omega⟩, rfl⟩)
    · refine .inr (.inr ⟨⟨d, e, .inr t1, .inr t2, t3⟩, ?_⟩)
      rw [joinGr, if_neg (by omega), if_pos rfl]
  · exact .inr (.inr ⟨⟨b, c, .inl s1, .inl s2, s3⟩, by rw [joinGr, if_pos rfl]⟩)

theorem isGrade_list (tol : ℝ) : ∀ V : List (ℝ × TBlade), IsGrade (AboveIn tol V) (listGr tol V)
  | [] => .inl ⟨by simp [AboveIn], rfl⟩
  | [p] => isGrade_comp tol p
  | p :: q :: ps => (isGrade_congr (fun _ => aboveIn_cons) _).2
      (isGrade_join (isGrade_comp tol p) (isGrade_list tol (q :: ps)))

theorem isLargest_comp (tol : ℝ) (p : ℝ × TBlade) :
    IsLargestGrade (AboveIn tol [p]) (compGr tol p.1 (gradeOf p.2.bits)) := by
  by_cases h : |p.1| ≤ tol
  · refine .inl ⟨?_, by simp [compGr, h]⟩
    rintro b ⟨q, hq, -, hb⟩
    rw [List.mem_singleton] at hq
    subst hq
    linarith
  · refine .inr ⟨⟨p.2.bits, ⟨p, by simp, rfl, not_le.1 h⟩, by simp [compGr, h]⟩, ?_⟩
    rintro b ⟨q, hq, rfl, hb⟩
    rw [List.mem_singleton] at hq
    subst hq
    simp [compGr, h]

theorem isLargest_join {s t : Word → Prop} {x y : ℤ} (hs : IsLargestGrade s x) (ht : IsLargestGrade t y) :
    IsLargestGrade (fun b => s b ∨ t b) (if x ≤ y then y else x) := by
  rcases hs with ⟨s1, rfl⟩ | ⟨⟨b, s1, s2⟩, s3⟩
  · rcases ht with ⟨t1, rfl⟩ | ⟨⟨d, t1, t2⟩, t3⟩
    · exact .inl ⟨fun b => by simp [s1, t1], by decide⟩
    · rw [if_pos (by omega)]
      exact .inr ⟨⟨d, .inr t1, t2⟩, fun c hc => t3 c (hc.resolve_left (s1 c))⟩
  · rcases ht with ⟨t1, rfl⟩ | ⟨⟨d, t1, t2⟩, t3⟩
    · rw [if_neg (by omega)]
      exact .inr ⟨⟨b, .inl s1, s2⟩, fun c hc => s3 c (hc.resolve_right (t1 c))⟩
    · split_ifs with h
      · exact .inr ⟨⟨d, .inr t1, t2⟩, fun c hc => hc.elim (fun hc => (s3 c hc).trans h) (t3 c)⟩
      · exact .inr ⟨⟨b, .inl s1, s2⟩, fun c hc => hc.elim (s3 c) fun hc => (t3 c hc).trans (by omega)⟩

theorem isLargest_list (tol : ℝ) : ∀ V : List (ℝ × TBlade), IsLargestGrade (AboveIn tol V) (listMax tol V)
  | [] => .inl ⟨by simp [AboveIn], rfl⟩
  | [p] => isLargest_comp tol p
  | p :: q :: ps => (isLargest_congr (fun _ => aboveIn_cons) _).2
      (isLargest_join (isLargest_comp tol p) (isLargest_list tol (q :: ps)))

end GATL
