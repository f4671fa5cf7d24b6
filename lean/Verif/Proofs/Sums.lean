import Verif.Proofs.Monomials

/-!
# Sums and products of polynomials always simplify
-/

namespace GATL.Total

open Expr Spec

/-- A monomial: a coefficient and the powers of the values. -/
structure Mon where
  c : Int
  fs : List (Atom × Nat)
  deriving DecidableEq

/-- The factors of a monomial without the constant. -/
def facs (fs : List (Atom × Nat)) : List Item := fs.map fun f => .fac f.1 f.2

/-- The factors of a monomial. -/
def Mon.items (m : Mon) : List Item := if m.c = 1 then facs m.fs else .const m.c :: facs m.fs

/-- The expression of a monomial. -/
def Mon.expr (m : Mon) : Expr := prodL m.items

/-- Monomials that can stand in a sum. -/
def Mon.Ok (m : Mon) : Prop := m.c ≠ 0 ∧ ∀ f ∈ m.fs, 1 ≤ f.2

/-- The degree of a monomial. -/
def Mon.deg (m : Mon) : Nat := (m.fs.map Prod.snd).sum

theorem facs_ok {fs : List (Atom × Nat)} (h : ∀ f ∈ fs, 1 ≤ f.2) : ∀ x ∈ facs fs, x.Ok := by
  intro x hx
  obtain ⟨f, hf, rfl⟩ := List.mem_map.1 hx
  exact h f hf

theorem Mon.items_ok {m : Mon} (h : m.Ok) : ∀ x ∈ m.items, x.Ok := by
  unfold Mon.items
  split
  · exact facs_ok h.2
  · next h1 =>
    intro x hx
    rw [List.mem_cons] at hx
    rcases hx with rfl | hx
    · exact ⟨h.1, h1⟩
    · exact facs_ok h.2 x hx

theorem facs_inj {fs gs : List (Atom × Nat)} (h : facs fs = facs gs) : fs = gs := by
  refine List.map_injective_iff.2 ?_ h
  rintro ⟨x, k⟩ ⟨y, j⟩ e
  simpa using e

theorem facs_coef (fs : List (Atom × Nat)) : coefL (facs fs) = 1 := by
  induction fs with
  | nil => rfl
  | cons f fs ih => rw [show facs (f :: fs) = .fac f.1 f.2 :: facs fs from rfl, coefL_cons, ih]; rfl

theorem facs_deg (fs : List (Atom × Nat)) : degL (facs fs) = (fs.map Prod.snd).sum := by
  induction fs with
  | nil => rfl
  | cons f fs ih => rw [show facs (f :: fs) = .fac f.1 f.2 :: facs fs from rfl, degL_cons, ih]; simp [Item.deg]

theorem Mon.coef_items (m : Mon) : coefL m.items = m.c := by
  unfold Mon.items
  split
  · next h => rw [facs_coef, h]
  · rw [coefL_cons, facs_coef]; simp [Item.coef]

theorem Mon.deg_items (m : Mon) : degL m.items = m.deg := by
  unfold Mon.items
  split
  · rw [facs_deg]; rfl
  · rw [degL_cons, facs_deg]; simp [Item.deg, Mon.deg]

theorem const_ne_facs {c : Int} {X : List Item} {fs : List (Atom × Nat)} : Item.const c :: X ≠ facs fs := by
  cases fs <;> simp [facs]

theorem Mon.items_inj {m n : Mon} (h : m.items = n.items) : m = n := by
  rcases m with ⟨c, fs⟩
  rcases n with ⟨d, gs⟩
  unfold Mon.items at h
  simp only at h
  split at h <;> split at h
  · subst_vars; rw [facs_inj h]
  · exact absurd h.symm const_ne_facs
  · exact absurd h const_ne_facs
  · simp only [List.cons.injEq, Item.const.injEq] at h
    rw [h.1, facs_inj h.2]

theorem prodL_inj {X Y : List Item} (hX : ∀ x ∈ X, x.Ok) (hY : ∀ x ∈ Y, x.Ok) (h : prodL X = prodL Y) : X = Y := by
  match X, Y with
  | [], [] => rfl
  | [], b :: Y => exact absurd h.symm (prodL_ne_const (by simp) hY (.inr rfl))
  | a :: X, [] => exact absurd h (prodL_ne_const (by simp) hX (.inr rfl))
  | [a], [b] => rw [Item.inj h]
  | [a], b :: b' :: Y => exact absurd h (a.ne_mul _)
  | a :: a' :: X, [b] => exact absurd h.symm (b.ne_mul _)
  | a :: a' :: X, b :: b' :: Y =>
    have h' : (a :: a' :: X).map Item.expr = (b :: b' :: Y).map Item.expr := by
      simpa [prodL, prodE] using h
    exact List.map_injective_iff.2 (fun _ _ => Item.inj) h'

theorem Mon.inj {m n : Mon} (hm : m.Ok) (hn : n.Ok) (h : m.expr = n.expr) : m = n :=
  Mon.items_inj (prodL_inj (Mon.items_ok hm) (Mon.items_ok hn) h)

theorem Mon.expr_const (c : Int) : (Mon.mk c []).expr = .const c := by
  unfold Mon.expr Mon.items
  split
  · next h => simp only at h; rw [h]; rfl
  · rfl

theorem Mon.expr_one (fs : List (Atom × Nat)) : (Mon.mk 1 fs).expr = prodL (facs fs) := by
  unfold Mon.expr Mon.items
  rw [if_pos rfl]

/-- A factor as a monomial. -/
def Item.mon : Item → Mon
  | .const c => ⟨c, []⟩
  | .fac x k => ⟨1, [(x, k)]⟩

theorem Item.mon_expr (a : Item) : a.mon.expr = a.expr := by
  cases a with
  | const c => exact Mon.expr_const c
  | fac x k => rw [Item.mon, Mon.expr_one]; rfl

/-- A monomial is a single factor or a product. -/
theorem Mon.shape (m : Mon) : (m.items.length ≤ 1 ∧ ∃ a : Item, m.expr = a.expr) ∨
    ∃ h ts, ts ≠ [] ∧ m.items = h :: facs ts ∧ m.expr = .fn .mul (h.expr :: (facs ts).map Item.expr) ∧
      ((h = .const m.c ∧ ts = m.fs ∧ m.c ≠ 1) ∨ ∃ x k, h = .fac x k ∧ m.c = 1 ∧ m.fs = (x, k) :: ts) := by
  rcases m with ⟨c, fs⟩
  by_cases hc : c = 1
  · subst hc
    match fs with
    | [] => exact .inl ⟨by simp [Mon.items, facs], .const 1, Mon.expr_const 1⟩
    | [(x, k)] => exact .inl ⟨by simp [Mon.items, facs], .fac x k, by rw [Mon.expr_one]; rfl⟩
    | (x, k) :: f :: fs =>
      refine .inr ⟨.fac x k, f :: fs, by simp, ?_, ?_, .inr ⟨x, k, rfl, rfl, rfl⟩⟩
      · simp [Mon.items, facs]
      · rw [Mon.expr_one]; rfl
  · match fs with
    | [] => exact .inl ⟨by simp [Mon.items, facs, hc], .const c, Mon.expr_const c⟩
    | f :: fs =>
      refine .inr ⟨.const c, f :: fs, by simp, ?_, ?_, .inl ⟨rfl, rfl, hc⟩⟩
      · simp [Mon.items, hc]
      · simp [Mon.expr, Mon.items, hc, facs, prodL, prodE]

theorem Mon.notAdd (m : Mon) : asAdd m.expr = none := asAdd_prodL _

theorem Mon.ne_zero {m : Mon} (h : m.Ok) : m.expr ≠ .const 0 := prodL_ne_zero (Mon.items_ok h)

theorem asRatio_none {a b : Expr} (h : asRecip b = none) : asRatio (.fn .mul [a, b]) = none := by
  unfold asRatio
  split
  · next heq =>
    simp only [Expr.fn.injEq, List.cons.injEq, and_true, true_and] at heq
    rw [heq.2] at h
    simp [asRecip] at h
  · rfl

theorem Mon.asRatio (m : Mon) : asRatio m.expr = none := by
  rcases m.shape with ⟨-, a, e⟩ | ⟨h, ts, -, -, e, -⟩
  · rw [e]
    cases a with
    | const c => rfl
    | fac x k =>
      simp only [Item.expr]; split
      · cases x <;> rfl
      · rfl
  · rw [e]
    match ts with
    | [] => simp [facs, Expr.asRatio]
    | [(x, k)] => exact asRatio_none (Item.notRecip (.fac x k))
    | f :: g :: ts => simp [facs, Expr.asRatio]

theorem Mon.asRecip (m : Mon) : asRecip m.expr = none := asRecip_prodL _

/-! ## The order of monomials -/

theorem facs_constant {x : Item} {fs : List (Atom × Nat)} (h : x ∈ facs fs) : isConstant x.expr = false := by
  obtain ⟨f, -, rfl⟩ := List.mem_map.1 h
  exact Item.constant _

theorem lex_total {fs gs : List (Atom × Nat)} (hf : fs ≠ []) (hg : gs ≠ []) (h : fs ≠ gs)
    (hl : ltArgs ((facs fs).map Item.expr) ((facs gs).map Item.expr) = false) :
    ltArgs ((facs gs).map Item.expr) ((facs fs).map Item.expr) = true := by
  induction fs generalizing gs with
  | nil => exact absurd rfl hf
  | cons f fs ih =>
    cases gs with
    | nil => exact absurd rfl hg
    | cons g gs =>
      have cf : isConstant (Item.fac f.1 f.2).expr = false := Item.constant _
      have cg : isConstant (Item.fac g.1 g.2).expr = false := Item.constant _
      match fs, gs with
      | [], [] =>
        simp only [facs, List.map_cons, List.map_nil, ltArgs_one] at hl ⊢
        exact Item.total (fun e => h (by rcases f; rcases g; simp at e; simp [e])) hl
      | [], g' :: gs =>
        simp only [facs, List.map_cons, List.map_nil, ltArgs_one_many _ _ _ _ cf cg, ltArgs_many_one _ _ _ _ cg cf] at hl ⊢
        simp at hl
        exact hl.2
      | f' :: fs, [] =>
        simp only [facs, List.map_cons, List.map_nil, ltArgs_one_many _ _ _ _ cg cf, ltArgs_many_one _ _ _ _ cf cg] at hl ⊢
        simp [hl]
      | f' :: fs, g' :: gs =>
        simp only [facs, List.map_cons, ltArgs_many _ _ _ _ _ _ cf cg, ltArgs_many _ _ _ _ _ _ cg cf] at hl ⊢
        simp only [Bool.or_eq_false_iff, Bool.and_eq_false_iff, Bool.not_eq_false'] at hl
        obtain ⟨h1, h2⟩ := hl
        by_cases hfg : f = g
        · subst hfg
          simp only [lt_irrefl', Bool.false_eq_true, false_or, or_false, Bool.not_false, Bool.and_self, Bool.true_and, Bool.false_or] at h2 ⊢
          exact ih (gs := g' :: gs) (by simp) (by simp) (fun e => h (by rw [e])) h2
        · have := Item.total (a := .fac f.1 f.2) (b := .fac g.1 g.2)
            (fun e => hfg (by rcases f; rcases g; simp at e; simp [e])) h1
          rw [show Expr.lt (Item.fac g.1 g.2).expr (Item.fac f.1 f.2).expr = true from this]
          rfl

/-- The arguments of a product without the constant. -/
theorem ltArgs_strip {h h' : Item} {ts ts' fs gs : List (Atom × Nat)} (hts : ts ≠ []) (hts' : ts' ≠ [])
    (hh : (∃ c, h = .const c ∧ ts = fs) ∨ ∃ x k, h = .fac x k ∧ fs = (x, k) :: ts)
    (hh' : (∃ c, h' = .const c ∧ ts' = gs) ∨ ∃ x k, h' = .fac x k ∧ gs = (x, k) :: ts') :
    ltArgs (h.expr :: (facs ts).map Item.expr) (h'.expr :: (facs ts').map Item.expr) =
      ltArgs ((facs fs).map Item.expr) ((facs gs).map Item.expr) := by
  obtain ⟨t, ts, rfl⟩ := List.exists_cons_of_ne_nil hts
  obtain ⟨t', ts', rfl⟩ := List.exists_cons_of_ne_nil hts'
  have e : ∀ (t : Atom × Nat) ts, (facs (t :: ts)).map Item.expr = (Item.fac t.1 t.2).expr :: (facs ts).map Item.expr :=
    fun _ _ => rfl
  rcases hh with ⟨c, rfl, rfl⟩ | ⟨x, k, rfl, rfl⟩ <;> rcases hh' with ⟨d, rfl, rfl⟩ | ⟨y, j, rfl, rfl⟩
  · rw [e, e, ltArgs_skip_both _ _ _ _ _ _ (Item.constant _) (Item.constant _)]
  · rw [e, e, e, e, ltArgs_skip_left _ _ _ _ _ _ (Item.constant _) (Item.constant _)]
  · rw [e, e, e, e, ltArgs_skip_right _ _ _ _ _ _ (Item.constant _) (Item.constant _)]
  · rfl

/-- Monomials that differ in more than the coefficient are ordered. -/
theorem Mon.total {m n : Mon} (h : m.fs ≠ n.fs) (hl : lt m.expr n.expr = false) : lt n.expr m.expr = true := by
  have lit : ∀ (c : Int) (p : Mon), p.fs ≠ [] → lt (.const c) p.expr = true := by
    intro c p hp
    rcases p.shape with ⟨hlen, -⟩ | ⟨h, ts, -, -, e, -⟩
    · rcases p with ⟨d, fs⟩
      match fs with
      | [] => exact absurd rfl hp
      | [(x, k)] =>
        by_cases hd : d = 1
        · subst hd; rw [Mon.expr_one]; exact Item.lt_const _ _ _
        · simp [Mon.items, hd, facs] at hlen
      | f :: g :: fs => simp [Mon.items, facs] at hlen; split at hlen <;> simp at hlen
    · rw [e, lt_leaf_fn (by simp)]; rfl
  rcases hm : m.fs with _ | ⟨f, fs⟩
  · have : m = ⟨m.c, []⟩ := by rw [← hm]
    rw [this, Mon.expr_const, lit] at hl
    · cases hl
    · rw [hm] at h; exact Ne.symm h
  rcases hn : n.fs with _ | ⟨g, gs⟩
  · have : n = ⟨n.c, []⟩ := by rw [← hn]
    rw [this, Mon.expr_const]
    exact lit _ _ (by rw [hm]; simp)
  rcases m.shape with ⟨hlen, -⟩ | ⟨a, ts, hts, -, e, ha⟩ <;> rcases n.shape with ⟨hlen', -⟩ | ⟨b, ts', hts', -, e', hb⟩
  all_goals
    have single : ∀ (p : Mon) (f fs), p.items.length ≤ 1 → p.fs = f :: fs → p = ⟨1, [f]⟩ := by
      intro p f fs hp hf
      rcases p with ⟨d, gs⟩
      change gs = f :: fs at hf
      subst hf
      simp only [Mon.items] at hp
      split at hp
      · next hd =>
        change d = 1 at hd
        subst hd
        simp only [facs, List.map_cons, List.length_cons, List.length_map] at hp
        have : fs = [] := List.length_eq_zero_iff.1 (by omega)
        rw [this]
      · simp [facs] at hp
  · rw [single m f fs hlen hm, single n g gs hlen' hn] at h hl ⊢
    rw [Mon.expr_one, Mon.expr_one] at hl ⊢
    exact Item.total (a := .fac f.1 f.2) (b := .fac g.1 g.2) (fun e => h (by rcases f; rcases g; simp at e; simp [e])) hl
  · rw [single m f fs hlen hm, Mon.expr_one] at hl ⊢
    rw [e'] at hl ⊢
    by_cases hk : f.2 = 1
    · have ex : prodL (facs [f]) = f.1.expr := by simp [facs, prodL, prodE, Item.expr, hk]
      rw [ex] at hl ⊢
      rw [lt_leaf_fn (Atom.ne_fn _)] at hl
      rw [lt_fn_leaf (Atom.ne_fn _), Atom.notLiteral]
      simp at hl ⊢
      exact hl.2
    · have ex : prodL (facs [f]) = powerOf f.1.expr (.const f.2) := by simp [facs, prodL, prodE, Item.expr, hk]
      rw [ex, lt_fn_fn] at hl
      simp [Name.toNat] at hl
  · rw [single n g gs hlen' hn, Mon.expr_one] at hl ⊢
    rw [e] at hl ⊢
    by_cases hk : g.2 = 1
    · have ex : prodL (facs [g]) = g.1.expr := by simp [facs, prodL, prodE, Item.expr, hk]
      rw [ex] at hl ⊢
      rw [lt_fn_leaf (Atom.ne_fn _), Atom.notLiteral] at hl
      rw [lt_leaf_fn (Atom.ne_fn _)]
      simp at hl ⊢
      simp [hl]
    · have ex : prodL (facs [g]) = powerOf g.1.expr (.const g.2) := by simp [facs, prodL, prodE, Item.expr, hk]
      rw [ex, lt_fn_fn]
      simp [Name.toNat]
  · rw [e, e', lt_fn_fn] at hl ⊢
    have ha' : (∃ c, a = .const c ∧ ts = m.fs) ∨ ∃ x k, a = .fac x k ∧ m.fs = (x, k) :: ts := by
      rcases ha with ⟨h1, h2, -⟩ | ⟨x, k, h1, -, h2⟩
      · exact .inl ⟨_, h1, h2⟩
      · exact .inr ⟨x, k, h1, h2⟩
    have hb' : (∃ c, b = .const c ∧ ts' = n.fs) ∨ ∃ x k, b = .fac x k ∧ n.fs = (x, k) :: ts' := by
      rcases hb with ⟨h1, h2, -⟩ | ⟨x, k, h1, -, h2⟩
      · exact .inl ⟨_, h1, h2⟩
      · exact .inr ⟨x, k, h1, h2⟩
    rw [ltArgs_strip hts hts' ha' hb'] at hl
    rw [ltArgs_strip hts' hts hb' ha']
    simp at hl ⊢
    exact lex_total (by rw [hm]; simp) (by rw [hn]; simp) h hl

/-- The sum of like monomials. -/
def Mon.comb (m n : Mon) : Option (List Mon) :=
  if m.fs = n.fs then some (if m.c + n.c = 0 then [] else [⟨m.c + n.c, m.fs⟩]) else none

/-- The order of monomials. -/
def Mon.lt (m n : Mon) : Bool := Expr.lt m.expr n.expr

theorem Mon.laws : MergeLaws Mon.lt Mon.comb where
  small := by
    intro a b E h
    unfold Mon.comb at h
    split at h
    · simp only [Option.some.injEq] at h
      subst h
      split <;> simp
    · cases h
  symm := by
    intro a b h
    unfold Mon.comb at h ⊢
    split at h
    · cases h
    · next hn => rw [if_neg (Ne.symm hn)]
  total := by
    intro a b h hl
    unfold Mon.comb at h
    split at h
    · cases h
    · next hn => exact Mon.total hn hl

/-! ## Products of a monomial with a constant -/

theorem limit_mul_zero (e : Expr) : limit .mul (.const 0) e = some (.const 0) := by
  apply limit_rules
  simp [rulesOf, mulRules, applyRules, mulZero]

theorem limit_mul_zero' (e : Expr) : limit .mul e (.const 0) = some (.const 0) := by
  apply limit_rules
  simp [rulesOf, mulRules, applyRules, mulZero]

/-- The sum of one monomial, or zero. -/
def Mon.orZero (c : Int) (fs : List (Atom × Nat)) : Expr := if c = 0 then .const 0 else (Mon.mk c fs).expr

theorem merge_const {c d : Int} {fs : List (Atom × Nat)} :
    Merge Item.lt Item.comb (Mon.mk c []).items (Mon.mk d fs).items (Mon.mk (c * d) fs).items := by
  have ins : ∀ (c : Int) (fs : List (Atom × Nat)), Merge Item.lt Item.comb [.const c] (facs fs) (.const c :: facs fs) := by
    intro c fs
    cases fs with
    | nil => exact .nilR _
    | cons f fs => exact .lt1 rfl (Item.lt_const _ _ _)
  by_cases hc : c = 1
  · subst hc
    rw [one_mul]
    exact .nilL _
  · by_cases hd : d = 1
    · subst hd
      simp only [Mon.items, mul_one, if_true, hc, if_false]
      exact ins c fs
    · simp only [Mon.items, hc, hd, if_false]
      refine .comb (E := if c * d = 1 then [] else [.const (c * d)]) rfl (.nilL _) ?_
      split
      · exact .nilL _
      · exact ins _ fs

theorem limit_scale {c d : Int} {fs : List (Atom × Nat)} (hd : (Mon.mk d fs).Ok) (hb : (c * d).natAbs < B)
    (hdeg : (Mon.mk d fs).deg < B) : limit .mul (.const c) (Mon.mk d fs).expr = some (Mon.orZero (c * d) fs) := by
  by_cases hc : c = 0
  · subst hc
    rw [limit_mul_zero]
    simp [Mon.orZero]
  · have hok : (Mon.mk c []).Ok := ⟨hc, by simp⟩
    have := (merge_mul (merge_const (c := c) (d := d) (fs := fs)) (Mon.items_ok hok) (Mon.items_ok hd)
      (by rw [Mon.coef_items, Mon.coef_items]; exact hb)
      (by rw [Mon.deg_items, Mon.deg_items]; simpa [Mon.deg] using hdeg)).1
    rw [← Mon.expr_const c, Mon.orZero, if_neg (mul_ne_zero hc hd.1)]
    exact this

/-! ## The rules on the leading summands -/

/-- What the helper of the sums does after the rule. -/
noncomputable def addTail (l r e : Expr) : Option Expr :=
  match asAdd l, asAdd r with
  | none, none => some e
  | none, some (_, bs) => do limit .add e (← mkAdd bs)
  | some (_, as), none => do limit .add e (← mkAdd as)
  | some (_, as), some (_, bs) => do limit .add e (← limit .add (← mkAdd as) (← mkAdd bs))

/-- The leading summand. -/
def addHead (l : Expr) : Expr :=
  match asAdd l with
  | none => l
  | some (a, _) => a

theorem addHelper_eq (R : Rule) (l r : Expr) : addHelper limit R l r =
    match R (addHead l) (addHead r) with
    | none => none
    | some none => some none
    | some (some e) => fire (addTail l r e) := by
  rcases h1 : asAdd l with _ | ⟨a, as⟩ <;> rcases h2 : asAdd r with _ | ⟨b, bs⟩ <;>
    simp only [addHelper, h1, h2, addHead, addTail]
  · rcases R l r with _ | _ | e <;> rfl
  · rcases R l b with _ | _ | e <;> rfl
  · rcases R a r with _ | _ | e <;> rfl
  · rcases R a b with _ | _ | e <;> rfl

theorem addHelper_first {L : List Rule} {l r e : Expr} (h : firstOf L (addHead l) (addHead r) = some (some e))
    {w : Expr} (hw : addTail l r e = some w) (L' : List Rule) :
    applyRules (L.map (addHelper limit) ++ L') l r = some w := by
  induction L with
  | nil => simp [firstOf] at h
  | cons R L ih =>
    simp only [List.map_cons, List.cons_append, applyRules, addHelper_eq]
    simp only [firstOf] at h
    rcases hR : R (addHead l) (addHead r) with _ | _ | e'
    · simp [hR] at h
    · rw [hR] at h; exact ih h
    · rw [hR] at h
      simp only [Option.some.injEq] at h
      subst h
      simp [hw, fire]

theorem addHelper_skip {L : List Rule} {l r : Expr} (h : firstOf L (addHead l) (addHead r) = some none)
    (L' : List Rule) : applyRules (L.map (addHelper limit) ++ L') l r = applyRules L' l r := by
  induction L with
  | nil => rfl
  | cons R L ih =>
    simp only [List.map_cons, List.cons_append, applyRules, addHelper_eq]
    simp only [firstOf] at h
    rcases hR : R (addHead l) (addHead r) with _ | _ | e'
    · simp [hR] at h
    · rw [hR] at h; exact ih h
    · simp [hR] at h

/-- The rules for the leading summands. -/
noncomputable def sumRules : List Rule := [addCollect1 limit, addCollect2 limit, addCollect3 limit, addCollect4 limit,
  addCollect5 limit, addCollect6 limit, addCollect7 limit, addConst1, addConst2 limit, addConst3 limit, addConst4 limit,
  addConst5 limit]

/-- The sum of the given summands. -/
def sumE : List Expr → Expr
  | [] => .const 0
  | [a] => a
  | as => .fn .add as

/-- The sum of the given monomials. -/
def polyL (X : List Mon) : Expr := sumE (X.map Mon.expr)

theorem asAdd_one (a : Mon) : asAdd (polyL [a]) = none := a.notAdd

theorem asAdd_many (a b : Mon) (as : List Mon) :
    asAdd (polyL (a :: b :: as)) = some (a.expr, (b :: as).map Mon.expr) := rfl

theorem addHead_polyL (a : Mon) (as : List Mon) : addHead (polyL (a :: as)) = a.expr := by
  cases as with
  | nil => rw [addHead, asAdd_one]; rfl
  | cons b as => rfl

theorem mkAdd_polyL {a : Mon} {as : List Mon} (h : ∀ x ∈ a :: as, x.Ok) :
    mkAdd ((a :: as).map Mon.expr) = some (polyL (a :: as)) := by
  have h0 : Expr.const 0 ∉ (a :: as).map Mon.expr := by
    intro hm
    obtain ⟨x, hx, e⟩ := List.mem_map.1 hm
    exact Mon.ne_zero (h x hx) e
  cases as with
  | nil => rfl
  | cons b as =>
    simp only [List.map_cons] at h0 ⊢
    rw [mkAdd]
    · rw [if_neg]
      · rfl
      · simp only [List.contains_iff_mem]
        exact h0
    all_goals simp

theorem polyL_ne_zero {X : List Mon} (hX : X ≠ []) (h : ∀ x ∈ X, x.Ok) : polyL X ≠ .const 0 := by
  match X with
  | [] => exact absurd rfl hX
  | [a] => exact Mon.ne_zero (h a (by simp))
  | a :: b :: as => simp [polyL, sumE]

/-- The rules after the first. -/
theorem add_rules {X Y : List Mon} (hX : X ≠ []) (hY : Y ≠ []) (h1 : ∀ x ∈ X, x.Ok) (h2 : ∀ x ∈ Y, x.Ok) {e : Expr}
    (h : applyRules (sumRules.map (addHelper limit) ++ [addMergeLt limit, addMergeGt limit, addMergeEq limit])
      (polyL X) (polyL Y) = some e) : limit .add (polyL X) (polyL Y) = some e := by
  apply limit_rules
  simp only [rulesOf, addRules]
  rw [applyRules]
  simp only [addZero, polyL_ne_zero hX h1, polyL_ne_zero hY h2, if_false]
  exact h

theorem add_merge {a b : Mon} {as bs : List Mon} (h1 : ∀ x ∈ a :: as, x.Ok) (h2 : ∀ x ∈ b :: bs, x.Ok)
    (hn : firstOf sumRules a.expr b.expr = some none) {e : Expr}
    (h : applyRules [addMergeLt limit, addMergeGt limit, addMergeEq limit] (polyL (a :: as)) (polyL (b :: bs)) = some e) :
    limit .add (polyL (a :: as)) (polyL (b :: bs)) = some e := by
  apply add_rules (by simp) (by simp) h1 h2
  rw [addHelper_skip (by rw [addHead_polyL, addHead_polyL]; exact hn)]
  exact h

/-- Two monomials that no rule combines are left in one of the two orders. -/
theorem simplifies_false {p q : Mon} (hp : p.Ok) (hq : q.Ok) (hfs : p.fs ≠ q.fs)
    (hn : firstOf sumRules p.expr q.expr = some none) : simplifies limit p.expr q.expr = some false := by
  have ok2 : ∀ {a b : Mon}, a.Ok → b.Ok → ∀ x ∈ [a, b], x.Ok := by
    intro a b ha hb x hx
    simp only [List.mem_cons, List.not_mem_nil, or_false] at hx
    rcases hx with rfl | rfl <;> assumption
  have k1 := mkAdd_polyL (ok2 hp hq)
  have k2 := mkAdd_polyL (ok2 hq hp)
  simp only [List.map_cons, List.map_nil] at k1 k2
  have hone : ∀ {a : Mon}, a.Ok → ∀ x ∈ [a], x.Ok := by
    intro a ha x hx
    rw [List.mem_singleton] at hx
    subst hx
    exact ha
  have key : limit .add p.expr q.expr = some (polyL [p, q]) ∨ limit .add p.expr q.expr = some (polyL [q, p]) := by
    cases hl : lt p.expr q.expr with
    | true =>
      left
      refine add_merge (as := []) (bs := []) (hone hp) (hone hq) hn ?_
      rw [applyRules]
      simp only [addMergeLt, asAdd_one]
      rw [show polyL [p] = p.expr from rfl, show polyL [q] = q.expr from rfl, if_pos hl, k1]
      rfl
    | false =>
      right
      have hg := Mon.total hfs hl
      refine add_merge (as := []) (bs := []) (hone hp) (hone hq) hn ?_
      rw [applyRules]
      simp only [addMergeLt, asAdd_one]
      rw [show polyL [p] = p.expr from rfl, show polyL [q] = q.expr from rfl, if_neg (by simp [hl])]
      simp only
      rw [applyRules]
      simp only [addMergeGt, Mon.notAdd]
      rw [if_pos hg, k2]
      rfl
  unfold simplifies
  rcases key with h | h <;> simp only [h, k1, k2, Option.bind_eq_bind, Option.bind_some] <;> simp

theorem collect2_leaf {l r : Expr} (h : ∀ as, l ≠ .fn .mul as) : addCollect2 limit l r = some none := by
  unfold addCollect2; split
  · exact absurd rfl (h _)
  · rfl

theorem collect3_leaf {l r : Expr} (h : ∀ as, r ≠ .fn .mul as) : addCollect3 limit l r = some none := by
  unfold addCollect3; split
  · exact absurd rfl (h _)
  · rfl

theorem collect4_leaf {l r : Expr} (h : (∀ as, l ≠ .fn .mul as) ∨ ∀ as, r ≠ .fn .mul as) :
    addCollect4 limit l r = some none := by
  unfold addCollect4; split
  · rcases h with h | h <;> exact absurd rfl (h _)
  · rfl

theorem collect5_leaf {l r : Expr} (h : ∀ as, l ≠ .fn .mul as) : addCollect5 limit l r = some none := by
  unfold addCollect5; split
  · exact absurd rfl (h _)
  · rfl

theorem collect6_leaf {l r : Expr} (h : ∀ as, r ≠ .fn .mul as) : addCollect6 limit l r = some none := by
  unfold addCollect6; split
  · exact absurd rfl (h _)
  · rfl

theorem collect7_leaf {l r : Expr} (h : (∀ as, l ≠ .fn .mul as) ∨ ∀ as, r ≠ .fn .mul as) :
    addCollect7 limit l r = some none := by
  unfold addCollect7; split
  · rcases h with h | h <;> exact absurd rfl (h _)
  · rfl

theorem const_rules {m n : Mon} (h : asConst m.expr = none ∨ asConst n.expr = none) :
    addConst1 m.expr n.expr = some none ∧ addConst2 limit m.expr n.expr = some none ∧
    addConst3 limit m.expr n.expr = some none ∧ addConst4 limit m.expr n.expr = some none ∧
    addConst5 limit m.expr n.expr = some none := by
  refine ⟨?_, ?_, ?_, ?_, ?_⟩
  · unfold addConst1
    rcases h with h | h
    · rw [h]
    · rw [h]; cases asConst m.expr <;> rfl
  · unfold addConst2
    rw [Mon.asRecip, Mon.asRecip]
    cases asConst m.expr <;> rfl
  · unfold addConst3
    rw [Mon.asRecip, Mon.asRecip, Mon.asRatio, Mon.asRatio]
  · unfold addConst4
    rw [Mon.asRecip, Mon.asRecip]
  · unfold addConst5
    rw [Mon.asRatio, Mon.asRatio]

theorem asConst_none {m : Mon} (h : m.fs ≠ []) : asConst m.expr = none := by
  rcases hx : asConst m.expr with _ | c
  · rfl
  · exfalso
    have e : m.expr = .const c := by
      unfold asConst at hx
      split at hx
      · next heq => rw [heq]; simpa using hx
      · cases hx
    rcases m with ⟨d, fs⟩
    match fs with
    | [] => exact h rfl
    | [(x, k)] =>
      by_cases hd : d = 1
      · subst hd
        rw [Mon.expr_one] at e
        have := Item.expr_const (a := .fac x k) e
        simp at this
      · simp [Mon.expr, Mon.items, hd, facs, prodL, prodE] at e
    | f :: g :: fs =>
      by_cases hd : d = 1
      · simp [Mon.expr, Mon.items, hd, facs, prodL, prodE] at e
      · simp [Mon.expr, Mon.items, hd, facs, prodL, prodE] at e

/-- The rest of a product as a monomial. -/
theorem rest_eq {n : Mon} {ts : List (Atom × Nat)} (hn : n.Ok) (hts : ∀ f ∈ ts, 1 ≤ f.2) (hne : ts ≠ [])
    (h : (facs ts).map Item.expr = [n.expr] ∨ .fn .mul ((facs ts).map Item.expr) = n.expr) : n = ⟨1, ts⟩ := by
  refine Mon.inj hn ⟨by simp, hts⟩ ?_
  rw [Mon.expr_one]
  match ts with
  | [] => exact absurd rfl hne
  | [f] =>
    rcases h with h | h
    · simp only [facs, List.map_cons, List.map_nil, List.cons.injEq, and_true] at h
      exact h.symm
    · exfalso
      rcases n.shape with ⟨-, a, e⟩ | ⟨a, us, hus, -, e, -⟩
      · exact a.ne_mul _ (e.symm.trans h.symm)
      · rw [e] at h
        simp [facs] at h
        exact hus h.2
  | f :: g :: ts =>
    rcases h with h | h
    · simp [facs] at h
    · exact h.symm

theorem rest_cond (ts : List (Atom × Nat)) (hne : ts ≠ []) :
    (facs ts).map Item.expr = [(Mon.mk 1 ts).expr] ∨ .fn .mul ((facs ts).map Item.expr) = (Mon.mk 1 ts).expr := by
  rw [Mon.expr_one]
  match ts with
  | [] => exact absurd rfl hne
  | [f] => exact .inl rfl
  | f :: g :: ts => exact .inr rfl

theorem rest_mkMul {ts : List (Atom × Nat)} (hts : ∀ f ∈ ts, 1 ≤ f.2) (hne : ts ≠ []) :
    mkMul ((facs ts).map Item.expr) = some (Mon.mk 1 ts).expr := by
  rw [Mon.expr_one]
  cases ts with
  | nil => exact absurd rfl hne
  | cons f ts => exact mkMul_prodL (a := .fac f.1 f.2) (as := facs ts) (facs_ok hts)

theorem facs_ne {ts : List (Atom × Nat)} (h : ts ≠ []) : (facs ts).map Item.expr ≠ [] := by
  cases ts with
  | nil => exact absurd rfl h
  | cons => simp [facs]

theorem facs_expr_inj {fs gs : List (Atom × Nat)} (h : (facs fs).map Item.expr = (facs gs).map Item.expr) : fs = gs :=
  facs_inj (List.map_injective_iff.2 (fun _ _ => Item.inj) h)

theorem Item.mon_ok {a : Item} (h : a.Ok) : a.mon.Ok := by
  cases a with
  | const c => exact ⟨h.1, by simp [Item.mon]⟩
  | fac x k => exact ⟨by simp [Item.mon], by simp only [Item.mon, List.mem_singleton, forall_eq]; exact h⟩

theorem Item.mon_length (a : Item) : a.mon.items.length ≤ 1 := by
  cases a with
  | const c => by_cases hc : c = 1 <;> simp [Item.mon, Mon.items, facs, hc]
  | fac x k => simp [Item.mon, Mon.items, facs]

theorem one_length (ts : List (Atom × Nat)) : (Mon.mk 1 ts).items.length = ts.length := by simp [Mon.items, facs]

/-- Monomials that differ in more than the coefficient are not combined. -/
theorem sum_skip (N : Nat) : ∀ m n : Mon, m.items.length + n.items.length = N → m.Ok → n.Ok → m.fs ≠ n.fs →
    firstOf sumRules m.expr n.expr = some none := by
  induction N using Nat.strong_induction_on with
  | _ N IH =>
    intro m n hN hm hn hfs
    have H : ∀ p q : Mon, p.Ok → q.Ok → p.fs ≠ q.fs → p.items.length + q.items.length < N →
        simplifies limit p.expr q.expr = some false :=
      fun p q hp hq h hlt => simplifies_false hp hq h (IH _ hlt p q rfl hp hq h)
    have one_ok : ∀ {ts : List (Atom × Nat)}, (∀ f ∈ ts, 1 ≤ f.2) → (Mon.mk 1 ts).Ok := fun h => ⟨by simp, h⟩
    have e1 : Expr.const 1 = (Mon.mk 1 []).expr := (Mon.expr_const 1).symm
    have ok1 : (Mon.mk 1 []).Ok := one_ok (by simp)
    have l1 : (Mon.mk 1 []).items.length = 0 := rfl
    have hne : m.expr ≠ n.expr := fun e => hfs (by rw [Mon.inj hm hn e])
    have r1 : addCollect1 limit m.expr n.expr = some none := by unfold addCollect1; rw [if_neg hne]
    have hconst : asConst m.expr = none ∨ asConst n.expr = none := by
      by_cases h : m.fs = []
      · exact .inr (asConst_none (by rw [h] at hfs; exact Ne.symm hfs))
      · exact .inl (asConst_none h)
    obtain ⟨c1, c2, c3, c4, c5⟩ := const_rules hconst
    have okh : ∀ {p : Mon} {h : Item} {ts}, p.Ok → p.items = h :: facs ts → h.Ok := by
      intro p h ts hp e
      exact Mon.items_ok hp h (by rw [e]; simp)
    have okt : ∀ {p : Mon} {h : Item} {ts}, p.Ok → p.items = h :: facs ts → ∀ f ∈ ts, 1 ≤ f.2 := by
      intro p h ts hp e f hf
      exact Mon.items_ok hp (.fac f.1 f.2) (by rw [e]; exact List.mem_cons_of_mem _ (List.mem_map.2 ⟨f, hf, rfl⟩))
    have len : ∀ {p : Mon} {h : Item} {ts}, p.items = h :: facs ts → p.items.length = ts.length + 1 := by
      intro p h ts e; rw [e]; simp [facs]
    have pos : ∀ {ts : List (Atom × Nat)}, ts ≠ [] → 0 < ts.length := fun h => List.length_pos_iff.2 h
    have r2 : addCollect2 limit m.expr n.expr = some none := by
      rcases m.shape with ⟨-, a, e⟩ | ⟨h, ts, hts, ei, e, hh⟩
      · rw [e]; exact collect2_leaf a.ne_mul
      · rw [e]
        simp only [addCollect2]
        split
        · next hc =>
          have hn' := rest_eq hn (okt hm ei) hts hc.2
          rcases hh with ⟨-, h2, -⟩ | ⟨x, k, rfl, h1, h2⟩
          · rw [hn', ← h2] at hfs; exact absurd rfl hfs
          · have := H (Item.fac x k).mon ⟨1, []⟩ (Item.mon_ok (okh hm ei)) ok1 (by simp [Item.mon])
              (by have := Item.mon_length (Item.fac x k); have := len ei; have := pos hts; omega)
            rw [Item.mon_expr, ← e1] at this
            rw [this]; rfl
        · rfl
    have r3 : addCollect3 limit m.expr n.expr = some none := by
      rcases n.shape with ⟨-, a, e⟩ | ⟨h, ts, hts, ei, e, hh⟩
      · rw [e]; exact collect3_leaf a.ne_mul
      · rw [e]
        simp only [addCollect3]
        split
        · next hc =>
          have hn' := rest_eq hm (okt hn ei) hts hc.2
          rcases hh with ⟨-, h2, -⟩ | ⟨x, k, rfl, h1, h2⟩
          · rw [hn', ← h2] at hfs; exact absurd rfl hfs
          · have := H ⟨1, []⟩ (Item.fac x k).mon ok1 (Item.mon_ok (okh hn ei)) (by simp [Item.mon])
              (by have := Item.mon_length (Item.fac x k); have := len ei; have := pos hts; omega)
            rw [Item.mon_expr, ← e1] at this
            rw [this]; rfl
        · rfl
    have r5 : addCollect5 limit m.expr n.expr = some none := by
      rcases m.shape with ⟨-, a, e⟩ | ⟨h, ts, hts, ei, e, hh⟩
      · rw [e]; exact collect5_leaf a.ne_mul
      · rw [e]
        simp only [addCollect5]
        split
        · have := H ⟨1, ts⟩ ⟨1, []⟩ (one_ok (okt hm ei)) ok1 hts
            (by have := one_length ts; have := len ei; have := pos hts; omega)
          rw [← e1] at this
          simp only [rest_mkMul (okt hm ei) hts, Option.bind_eq_bind, Option.bind_some, this]; rfl
        · rfl
    have r6 : addCollect6 limit m.expr n.expr = some none := by
      rcases n.shape with ⟨-, a, e⟩ | ⟨h, ts, hts, ei, e, hh⟩
      · rw [e]; exact collect6_leaf a.ne_mul
      · rw [e]
        simp only [addCollect6]
        split
        · have := H ⟨1, []⟩ ⟨1, ts⟩ ok1 (one_ok (okt hn ei)) (Ne.symm hts)
            (by have := one_length ts; have := len ei; have := pos hts; omega)
          rw [← e1] at this
          simp only [rest_mkMul (okt hn ei) hts, Option.bind_eq_bind, Option.bind_some, this]; rfl
        · rfl
    have r4 : addCollect4 limit m.expr n.expr = some none := by
      rcases m.shape with ⟨-, a, e⟩ | ⟨h, ts, hts, ei, e, hh⟩
      · rw [e]; exact collect4_leaf (.inl a.ne_mul)
      rcases n.shape with ⟨-, a, e'⟩ | ⟨h', ts', hts', ei', e', hh'⟩
      · rw [e']; exact collect4_leaf (.inr a.ne_mul)
      rw [e, e']
      simp only [addCollect4]
      split
      · next hc =>
        cases facs_expr_inj hc
        have hmon : h.mon.fs ≠ h'.mon.fs := by
          rcases hh with ⟨rfl, h2, -⟩ | ⟨x, k, rfl, h1, h2⟩ <;> rcases hh' with ⟨rfl, h4, -⟩ | ⟨y, j, rfl, h3, h4⟩
          · rw [← h2, ← h4] at hfs; exact absurd rfl hfs
          · simp [Item.mon]
          · simp [Item.mon]
          · rw [h2, h4] at hfs
            intro e
            simp only [Item.mon, List.cons.injEq, and_true] at e
            rw [e] at hfs
            exact hfs rfl
        have := H h.mon h'.mon (Item.mon_ok (okh hm ei)) (Item.mon_ok (okh hn ei')) hmon
          (by have := h.mon_length; have := h'.mon_length; have := len ei; have := len ei'; have := pos hts; omega)
        rw [Item.mon_expr, Item.mon_expr] at this
        rw [this]; rfl
      · rfl
    have r7 : addCollect7 limit m.expr n.expr = some none := by
      rcases m.shape with ⟨-, a, e⟩ | ⟨h, ts, hts, ei, e, hh⟩
      · rw [e]; exact collect7_leaf (.inl a.ne_mul)
      rcases n.shape with ⟨-, a, e'⟩ | ⟨h', ts', hts', ei', e', hh'⟩
      · rw [e']; exact collect7_leaf (.inr a.ne_mul)
      rw [e, e']
      simp only [addCollect7]
      split
      · next hc =>
        cases Item.inj hc
        have hts2 : ts ≠ ts' := by
          rintro rfl
          rcases hh with ⟨rfl, h2, -⟩ | ⟨x, k, rfl, h1, h2⟩ <;> rcases hh' with ⟨h3, h4, -⟩ | ⟨y, j, h3, h5, h4⟩
          · rw [← h2, ← h4] at hfs; exact hfs rfl
          · cases h3
          · cases h3
          · cases h3
            rw [h2, h4] at hfs; exact hfs rfl
        have := H ⟨1, ts⟩ ⟨1, ts'⟩ (one_ok (okt hm ei)) (one_ok (okt hn ei')) hts2
          (by have := one_length ts; have := one_length ts'; have := len ei; have := len ei'; omega)
        simp only [rest_mkMul (okt hm ei) hts, rest_mkMul (okt hn ei') hts', Option.bind_eq_bind, Option.bind_some, this]; rfl
      · rfl
    simp only [sumRules, firstOf, r1, r2, r3, r4, r5, r6, r7, c1, c2, c3, c4, c5]

theorem simplifies_const {c d : Int} (hc : c ≠ 0) (hd : d ≠ 0) (h : (c + d).natAbs < B) :
    simplifies limit (.const c) (.const d) = some true := by
  unfold simplifies
  rw [limit_add_const h]
  simp [mkAdd, Ne.symm hc, Ne.symm hd]

/-- Like monomials are combined. -/
theorem sum_comb {m n : Mon} {E : List Mon} (hm : m.Ok) (hn : n.Ok) (h : Mon.comb m n = some E)
    (hb : m.c.natAbs + n.c.natAbs < B) (hdeg : m.deg < B) :
    firstOf sumRules m.expr n.expr = some (some (polyL E)) := by
  rcases m with ⟨c, fs⟩
  rcases n with ⟨d, gs⟩
  unfold Mon.comb at h
  split at h
  swap
  · cases h
  next hfs =>
  change fs = gs at hfs
  subst hfs
  simp only [Option.some.injEq] at h
  subst h
  have hE : polyL (if c + d = 0 then [] else [Mon.mk (c + d) fs]) = Mon.orZero (c + d) fs := by
    unfold Mon.orZero
    split <;> rfl
  rw [hE]
  change c.natAbs + d.natAbs < B at hb
  have hcd : (c + d).natAbs < B := lt_of_le_of_lt (Int.natAbs_add_le c d) hb
  have hone : (Mon.mk 1 fs).Ok := ⟨by simp, hm.2⟩
  have hc0 : c ≠ 0 := hm.1
  have hd0 : d ≠ 0 := hn.1
  by_cases hceq : c = d
  · subst hceq
    simp only [sumRules, firstOf, addCollect1, if_true]
    rw [limit_scale hm (by rw [two_mul]; exact hcd) hdeg, two_mul]
    rfl
  have hne : (Mon.mk c fs).expr ≠ (Mon.mk d fs).expr := fun e => hceq (by have := Mon.inj hm hn e; simpa using this)
  have r1 : addCollect1 limit (Mon.mk c fs).expr (Mon.mk d fs).expr = some none := by unfold addCollect1; rw [if_neg hne]
  by_cases hfs : fs = []
  · subst hfs
    rw [Mon.expr_const, Mon.expr_const] at r1 ⊢
    have : Mon.orZero (c + d) [] = .const (c + d) := by
      unfold Mon.orZero
      split
      · next h => rw [h]
      · exact Mon.expr_const _
    rw [this]
    simp only [sumRules, firstOf, r1]
    simp [addCollect2, addCollect3, addCollect4, addCollect5, addCollect6, addCollect7, addConst1, asConst, mkConst_fits hcd, fire]
  have scale : limit .mul (.const (c + d)) (Mon.mk 1 fs).expr = some (Mon.orZero (c + d) fs) := by
    have := limit_scale (c := c + d) hone (by rw [mul_one]; exact hcd) hdeg
    rwa [mul_one] at this
  have shape : ∀ c : Int, c ≠ 1 → (Mon.mk c fs).expr = .fn .mul (.const c :: (facs fs).map Item.expr) := by
    intro c hc
    obtain ⟨f, fs', rfl⟩ := List.exists_cons_of_ne_nil hfs
    simp [Mon.expr, Mon.items, hc, facs, prodL, prodE, Item.expr]
  by_cases hc1 : c = 1
  · subst hc1
    have hd1 : d ≠ 1 := Ne.symm hceq
    have r2 : addCollect2 limit (Mon.mk 1 fs).expr (Mon.mk d fs).expr = some none := by
      rcases (Mon.mk 1 fs).shape with ⟨-, a, e⟩ | ⟨h, ts, hts, ei, e, hh⟩
      · rw [e]; exact collect2_leaf a.ne_mul
      · rw [e]
        simp only [addCollect2]
        split
        · next hc =>
          have hts' : ∀ f ∈ ts, 1 ≤ f.2 := by
            intro f hf
            exact Mon.items_ok hone (.fac f.1 f.2) (by rw [ei]; exact List.mem_cons_of_mem _ (List.mem_map.2 ⟨f, hf, rfl⟩))
          have := rest_eq hn hts' hts hc.2
          simp only [Mon.mk.injEq] at this
          exact absurd this.1 hd1
        · rfl
    have r3 : addCollect3 limit (Mon.mk 1 fs).expr (Mon.mk d fs).expr = some (some (Mon.orZero (1 + d) fs)) := by
      rw [shape d hd1]
      simp only [addCollect3]
      rw [if_pos ⟨facs_ne hfs, rest_cond fs hfs⟩, simplifies_const one_ne_zero hd0 hcd]
      simp only [Option.bind_eq_bind, Option.bind_some, limit_add_const hcd, rest_mkMul hm.2 hfs, if_true, scale]
      rfl
    simp only [sumRules, firstOf, r1, r2, r3]
  · by_cases hd1 : d = 1
    · subst hd1
      have r2 : addCollect2 limit (Mon.mk c fs).expr (Mon.mk 1 fs).expr = some (some (Mon.orZero (c + 1) fs)) := by
        rw [shape c hc1]
        simp only [addCollect2]
        rw [if_pos ⟨facs_ne hfs, rest_cond fs hfs⟩, simplifies_const hc0 one_ne_zero hcd]
        simp only [Option.bind_eq_bind, Option.bind_some, limit_add_const hcd, rest_mkMul hm.2 hfs, if_true, scale]
        rfl
      simp only [sumRules, firstOf, r1, r2]
    · have r2 : addCollect2 limit (Mon.mk c fs).expr (Mon.mk d fs).expr = some none := by
        rw [shape c hc1]
        simp only [addCollect2]
        rw [if_neg]
        rintro ⟨-, hx⟩
        have := rest_eq hn hm.2 hfs hx
        simp only [Mon.mk.injEq] at this
        exact hd1 this.1
      have r3 : addCollect3 limit (Mon.mk c fs).expr (Mon.mk d fs).expr = some none := by
        rw [shape d hd1]
        simp only [addCollect3]
        rw [if_neg]
        rintro ⟨-, hx⟩
        have := rest_eq hm hm.2 hfs hx
        simp only [Mon.mk.injEq] at this
        exact hc1 this.1
      have r4 : addCollect4 limit (Mon.mk c fs).expr (Mon.mk d fs).expr = some (some (Mon.orZero (c + d) fs)) := by
        rw [shape c hc1, shape d hd1]
        simp only [addCollect4, if_true]
        rw [simplifies_const hc0 hd0 hcd]
        simp only [Option.bind_eq_bind, Option.bind_some, limit_add_const hcd, rest_mkMul hm.2 hfs, if_true, scale]
        rfl
      simp only [sumRules, firstOf, r1, r2, r3, r4]

/-! ## Sums of polynomials -/

/-- The sum of the absolute values of the coefficients. -/
def wt (X : List Mon) : Nat := (X.map fun m => m.c.natAbs).sum

theorem wt_cons (a : Mon) (X : List Mon) : wt (a :: X) = a.c.natAbs + wt X := by simp [wt]

/-- Monomials that can stand in a sum, with degrees up to the bound. -/
def Fine (D : Nat) (X : List Mon) : Prop := ∀ m ∈ X, m.Ok ∧ m.deg ≤ D

theorem Fine.ok {D : Nat} {X : List Mon} (h : Fine D X) : ∀ m ∈ X, m.Ok := fun m hm => (h m hm).1

theorem Fine.tail {D : Nat} {a : Mon} {X : List Mon} (h : Fine D (a :: X)) : Fine D X :=
  fun m hm => h m (List.mem_cons_of_mem _ hm)

theorem Fine.cons {D : Nat} {a : Mon} {X : List Mon} (ha : a.Ok ∧ a.deg ≤ D) (h : Fine D X) : Fine D (a :: X) := by
  intro m hm
  rw [List.mem_cons] at hm
  rcases hm with rfl | hm
  · exact ha
  · exact h m hm

theorem Fine.head {D : Nat} {a : Mon} {X : List Mon} (h : Fine D (a :: X)) : a.Ok ∧ a.deg ≤ D := h a (by simp)

theorem Fine.one {D : Nat} {a : Mon} (ha : a.Ok ∧ a.deg ≤ D) : Fine D [a] := .cons ha (by simp [Fine])

theorem Mon.comb_fine {D : Nat} {a b : Mon} {E : List Mon} (ha : a.Ok ∧ a.deg ≤ D) (h : Mon.comb a b = some E) :
    Fine D E ∧ wt E ≤ a.c.natAbs + b.c.natAbs := by
  unfold Mon.comb at h
  split at h
  · simp only [Option.some.injEq] at h
    subst h
    split
    · exact ⟨by simp [Fine], by simp [wt]⟩
    · next h0 =>
      refine ⟨.one ⟨⟨h0, ha.1.2⟩, ha.2⟩, ?_⟩
      simp only [wt, List.map_cons, List.map_nil, List.sum_cons, List.sum_nil, Nat.add_zero]
      exact Int.natAbs_add_le _ _
  · cases h

theorem sum_skip' {a b : Mon} (ha : a.Ok) (hb : b.Ok) (h : Mon.comb a b = none) :
    firstOf sumRules a.expr b.expr = some none := by
  refine sum_skip _ a b rfl ha hb fun e => ?_
  rw [Mon.comb, if_pos e] at h
  cases h

/-- Sums of polynomials are computed by merging them. -/
theorem merge_add {D : Nat} (hD : D < B) {X Y Z : List Mon} (h : Merge Mon.lt Mon.comb X Y Z) (hX : Fine D X) (hY : Fine D Y)
    (hc : wt X + wt Y < B) :
    limit .add (polyL X) (polyL Y) = some (polyL Z) ∧ Fine D Z ∧ wt Z ≤ wt X + wt Y := by
  induction h with
  | nilL Y =>
    refine ⟨?_, hY, by simp [wt]⟩
    apply limit_rules
    simp [rulesOf, addRules, applyRules, addZero, show polyL [] = .const 0 from rfl]
  | nilR X =>
    refine ⟨?_, hX, by simp [wt]⟩
    apply limit_rules
    simp only [rulesOf, addRules]
    rw [applyRules]
    simp only [addZero, show polyL [] = .const 0 from rfl, if_true]
    split
    · next e => split at e <;> simp at e
    · next e => split at e <;> simp_all
    · next e => split at e <;> simp at e
  | @comb a as b bs E Z W h h1 h2 ih1 ih2 =>
    have ha := hX.head
    have hb := hY.head
    obtain ⟨k1, k2⟩ := Mon.comb_fine ha h
    rw [wt_cons, wt_cons] at hc ⊢
    obtain ⟨i1, i2, i3⟩ := ih1 hX.tail hY.tail (by omega)
    obtain ⟨j1, j2, j3⟩ := ih2 k1 i2 (by omega)
    refine ⟨?_, j2, by omega⟩
    apply add_rules (by simp) (by simp) hX.ok hY.ok
    refine addHelper_first (e := polyL E) ?_ ?_ _
    · rw [addHead_polyL, addHead_polyL]
      exact sum_comb ha.1 hb.1 h (by omega) (by omega)
    · cases as with
      | nil =>
        cases bs with
        | nil =>
          cases merge_nil h1
          cases merge_nil h2
          simp only [addTail, asAdd_one]
        | cons b' bs =>
          cases merge_nil' h1
          simp only [addTail, asAdd_one, asAdd_many, mkAdd_polyL hY.tail.ok, Option.bind_eq_bind, Option.bind_some, j1]
      | cons a' as =>
        cases bs with
        | nil =>
          cases merge_nil h1
          simp only [addTail, asAdd_one, asAdd_many, mkAdd_polyL hX.tail.ok, Option.bind_eq_bind, Option.bind_some, j1]
        | cons b' bs =>
          simp only [addTail, asAdd_many, mkAdd_polyL hX.tail.ok, mkAdd_polyL hY.tail.ok, Option.bind_eq_bind, Option.bind_some, i1, j1]
  | @lt1 a b bs h hl =>
    have hZ : Fine D (a :: b :: bs) := .cons hX.head hY
    refine ⟨?_, hZ, by simp [wt]⟩
    apply add_merge hX.ok hY.ok (sum_skip' hX.head.1 hY.head.1 h)
    have hk := mkAdd_polyL hZ.ok
    have hl' : Expr.lt a.expr b.expr = true := hl
    rw [applyRules]
    cases bs with
    | nil =>
      simp only [List.map_cons, List.map_nil] at hk
      simp only [addMergeLt, Mon.notAdd, show polyL [a] = a.expr from rfl, show polyL [b] = b.expr from rfl, hl', if_true,
        hk, fire, Option.map_some]
    | cons b' bs =>
      simp only [List.map_cons] at hk
      simp only [addMergeLt, Mon.notAdd, asAdd_many, show polyL [a] = a.expr from rfl, hl', if_true, List.map_cons,
        hk, fire, Option.map_some]
  | @lt2 a as b bs Z W h hl hn h1 h2 ih1 ih2 =>
    have ha := hX.head
    rw [wt_cons] at hc ⊢
    obtain ⟨i1, i2, i3⟩ := ih1 hX.tail hY (by omega)
    have e1 : wt [a] = a.c.natAbs := by simp [wt]
    obtain ⟨j1, j2, j3⟩ := ih2 (.one ha) i2 (by omega)
    refine ⟨?_, j2, by omega⟩
    apply add_merge hX.ok hY.ok (sum_skip' hX.head.1 hY.head.1 h)
    have hl' : Expr.lt a.expr b.expr = true := hl
    cases as with
    | nil => exact absurd rfl hn
    | cons a' as =>
      rw [applyRules]
      have j1' : limit .add a.expr (polyL Z) = _ := j1
      cases bs with
      | nil =>
        simp only [addMergeLt, Mon.notAdd, asAdd_many, show polyL [b] = b.expr from rfl] at i1 ⊢
        simp only [hl', if_true, mkAdd_polyL hX.tail.ok, Option.bind_eq_bind, Option.bind_some, i1, j1', fire, Option.map_some]
      | cons b' bs =>
        simp only [addMergeLt, asAdd_many, hl', if_true, mkAdd_polyL hX.tail.ok, Option.bind_eq_bind, Option.bind_some, i1, j1', fire,
          Option.map_some]
  | @gt1 a as b h hl hg =>
    have hZ : Fine D (b :: a :: as) := .cons hY.head hX
    refine ⟨?_, hZ, by simp [wt]; omega⟩
    apply add_merge hX.ok hY.ok (sum_skip' hX.head.1 hY.head.1 h)
    have hk := mkAdd_polyL hZ.ok
    have hl' : Expr.lt a.expr b.expr = false := hl
    have hg' : Expr.lt b.expr a.expr = true := hg
    rw [applyRules]
    cases as with
    | nil =>
      simp only [List.map_cons, List.map_nil] at hk
      simp only [addMergeLt, Mon.notAdd, show polyL [a] = a.expr from rfl, show polyL [b] = b.expr from rfl, hl',
        Bool.false_eq_true, if_false]
      rw [applyRules]
      have := a.notAdd
      have := b.notAdd
      simp only [addMergeGt, *, if_true, fire, Option.map_some]
    | cons a' as =>
      simp only [List.map_cons] at hk
      simp only [addMergeLt, Mon.notAdd, asAdd_many, show polyL [b] = b.expr from rfl, hl', Bool.false_eq_true, if_false]
      rw [applyRules]
      have := b.notAdd
      simp only [addMergeGt, asAdd_many, *, if_true, List.map_cons, fire, Option.map_some]
  | @gt2 a as b bs Z W h hl hg hn h1 h2 ih1 ih2 =>
    have hb := hY.head
    rw [wt_cons b] at hc ⊢
    obtain ⟨i1, i2, i3⟩ := ih1 hX hY.tail (by omega)
    have e1 : wt [b] = b.c.natAbs := by simp [wt]
    obtain ⟨j1, j2, j3⟩ := ih2 (.one hb) i2 (by omega)
    refine ⟨?_, j2, by omega⟩
    apply add_merge hX.ok hY.ok (sum_skip' hX.head.1 hY.head.1 h)
    have hl' : Expr.lt a.expr b.expr = false := hl
    have hg' : Expr.lt b.expr a.expr = true := hg
    have j1' : limit .add b.expr (polyL Z) = _ := j1
    cases bs with
    | nil => exact absurd rfl hn
    | cons b' bs =>
      rw [applyRules]
      cases as with
      | nil =>
        simp only [addMergeLt, Mon.notAdd, asAdd_many, show polyL [a] = a.expr from rfl, hl', Bool.false_eq_true, if_false] at i1 ⊢
        rw [applyRules]
        simp only [addMergeGt, asAdd_many, a.notAdd, hg', if_true, mkAdd_polyL hY.tail.ok, Option.bind_eq_bind, Option.bind_some, i1, j1',
          fire, Option.map_some]
      | cons a' as =>
        simp only [addMergeLt, asAdd_many, hl', Bool.false_eq_true, if_false]
        rw [applyRules]
        simp only [addMergeGt, asAdd_many, hg', if_true, mkAdd_polyL hY.tail.ok, Option.bind_eq_bind, Option.bind_some, i1, j1', fire,
          Option.map_some]

/-- The sum of two polynomials. -/
theorem poly_add {D : Nat} (hD : D < B) {X Y : List Mon} (hX : Fine D X) (hY : Fine D Y) (hc : wt X + wt Y < B) :
    ∃ Z, limit .add (polyL X) (polyL Y) = some (polyL Z) ∧ Fine D Z ∧ wt Z ≤ wt X + wt Y := by
  obtain ⟨Z, h, -⟩ := merge_total Mon.laws X Y
  exact ⟨Z, merge_add hD h hX hY hc⟩

/-! ## Products of monomials and of polynomials -/

/-- Constants come first. -/
def ConstFirst (X : List Item) : Prop := ∀ x ∈ X.tail, x.isC = false

/-- There are no constants. -/
def NoConst (X : List Item) : Prop := ∀ x ∈ X, x.isC = false

theorem NoConst.first {X : List Item} (h : NoConst X) : ConstFirst X := fun x hx => h x (List.mem_of_mem_tail hx)

theorem comb_noConst {a b : Item} {E : List Item} (h : Item.comb a b = some E) (ha : a.isC = false) : NoConst E := by
  rcases a with c | ⟨x, k⟩
  · cases ha
  · rcases b with d | ⟨y, j⟩
    · cases h
    · simp only [Item.comb] at h
      split at h
      · simp only [Option.some.injEq] at h
        subst h
        intro x hx
        rw [List.mem_singleton] at hx
        subst hx
        rfl
      · cases h

theorem NoConst.cons {a : Item} {X : List Item} (ha : a.isC = false) (h : NoConst X) : NoConst (a :: X) := by
  intro x hx
  rw [List.mem_cons] at hx
  rcases hx with rfl | hx
  · exact ha
  · exact h x hx

theorem merge_noConst {X Y Z : List Item} (h : Merge Item.lt Item.comb X Y Z) (hX : NoConst X) (hY : NoConst Y) :
    NoConst Z := by
  induction h with
  | nilL Y => exact hY
  | nilR X => exact hX
  | @comb a as b bs E Z W h h1 h2 ih1 ih2 =>
    exact ih2 (comb_noConst h (hX a (by simp))) (ih1 (fun x hx => hX x (by simp [hx])) (fun x hx => hY x (by simp [hx])))
  | @lt1 a b bs h hl => exact .cons (hX a (by simp)) hY
  | @lt2 a as b bs Z W h hl hn h1 h2 ih1 ih2 =>
    exact ih2 (.cons (hX a (by simp)) (by simp [NoConst])) (ih1 (fun x hx => hX x (by simp [hx])) hY)
  | @gt1 a as b h hl hg => exact .cons (hY b (by simp)) hX
  | @gt2 a as b bs Z W h hl hg hn h1 h2 ih1 ih2 =>
    exact ih2 (.cons (hY b (by simp)) (by simp [NoConst])) (ih1 hX (fun x hx => hY x (by simp [hx])))

theorem lt_noConst {a b : Item} (h : Item.comb a b = none) (hl : Item.lt a b = true) : b.isC = false := by
  rcases b with d | ⟨y, j⟩
  · rcases a with c | ⟨x, k⟩
    · cases h
    · have : Item.lt (.fac x k) (.const d) = false := Item.not_lt_const d x k
      rw [this] at hl; cases hl
  · rfl

theorem comb_length {a b : Item} {E : List Item} (h : Item.comb a b = some E) : ConstFirst E := by
  have := Item.laws.small h
  match E with
  | [] => simp [ConstFirst]
  | [x] => simp [ConstFirst]
  | x :: y :: E => simp at this

theorem merge_constFirst {X Y Z : List Item} (h : Merge Item.lt Item.comb X Y Z) (hX : ConstFirst X) (hY : ConstFirst Y) :
    ConstFirst Z := by
  induction h with
  | nilL Y => exact hY
  | nilR X => exact hX
  | @comb a as b bs E Z W h h1 h2 ih1 ih2 => exact ih2 (comb_length h) (merge_noConst h1 hX hY).first
  | @lt1 a b bs h hl => exact NoConst.cons (lt_noConst h hl) hY
  | @lt2 a as b bs Z W h hl hn h1 h2 ih1 ih2 =>
    exact ih2 (by simp [ConstFirst]) (merge_noConst h1 hX (.cons (lt_noConst h hl) hY)).first
  | @gt1 a as b h hl hg => exact NoConst.cons (lt_noConst (Item.laws.symm h) hg) hX
  | @gt2 a as b bs Z W h hl hg hn h1 h2 ih1 ih2 =>
    exact ih2 (by simp [ConstFirst]) (merge_noConst h1 (.cons (lt_noConst (Item.laws.symm h) hg) hX) hY).first

theorem noConst_facs {X : List Item} (h : NoConst X) : ∃ fs, X = facs fs := by
  induction X with
  | nil => exact ⟨[], rfl⟩
  | cons x X ih =>
    obtain ⟨fs, e⟩ := ih fun y hy => h y (by simp [hy])
    have := h x (by simp)
    rcases x with c | ⟨y, k⟩
    · cases this
    · exact ⟨(y, k) :: fs, by rw [e]; rfl⟩

theorem constFirst_items {X : List Item} (h : ConstFirst X) (hok : ∀ x ∈ X, x.Ok) : ∃ m : Mon, X = m.items := by
  match X with
  | [] => exact ⟨⟨1, []⟩, rfl⟩
  | .const c :: X =>
    obtain ⟨fs, rfl⟩ := noConst_facs (X := X) h
    have := hok (.const c) (by simp)
    refine ⟨⟨c, fs⟩, ?_⟩
    unfold Mon.items
    rw [if_neg this.2]
  | .fac x k :: X =>
    obtain ⟨fs, rfl⟩ := noConst_facs (X := X) h
    exact ⟨⟨1, (x, k) :: fs⟩, rfl⟩

theorem items_constFirst (m : Mon) : ConstFirst m.items := by
  have h : NoConst (facs m.fs) := by
    intro x hx
    obtain ⟨f, -, rfl⟩ := List.mem_map.1 hx
    rfl
  unfold Mon.items
  split
  · exact h.first
  · exact h

/-- The product of two monomials. -/
theorem mon_mul {m n : Mon} (hm : m.Ok) (hn : n.Ok) (hc : (m.c * n.c).natAbs < B) (hd : m.deg + n.deg < B) :
    ∃ p : Mon, limit .mul m.expr n.expr = some p.expr ∧ p.Ok ∧ p.c = m.c * n.c ∧ p.deg = m.deg + n.deg := by
  obtain ⟨Z, h, -⟩ := merge_total Item.laws m.items n.items
  obtain ⟨h1, h2, h3, h4⟩ := merge_mul h (Mon.items_ok hm) (Mon.items_ok hn) (by rw [Mon.coef_items, Mon.coef_items]; exact hc)
    (by rw [Mon.deg_items, Mon.deg_items]; exact hd)
  obtain ⟨p, rfl⟩ := constFirst_items (merge_constFirst h (items_constFirst m) (items_constFirst n)) h2
  rw [Mon.coef_items, Mon.coef_items, Mon.coef_items] at h3
  rw [Mon.deg_items, Mon.deg_items, Mon.deg_items] at h4
  refine ⟨p, h1, ⟨by rw [h3]; exact mul_ne_zero hm.1 hn.1, ?_⟩, h3, h4⟩
  intro f hf
  refine h2 (.fac f.1 f.2) ?_
  unfold Mon.items
  split
  · exact List.mem_map.2 ⟨f, hf, rfl⟩
  · exact List.mem_cons_of_mem _ (List.mem_map.2 ⟨f, hf, rfl⟩)

theorem wt_pos {D : Nat} {X : List Mon} (h : Fine D X) (hX : X ≠ []) : 0 < wt X := by
  obtain ⟨a, X, rfl⟩ := List.exists_cons_of_ne_nil hX
  rw [wt_cons]
  have := h.head.1.1
  omega

theorem mul_dist {l r e : Expr} (h0 : l ≠ .const 0) (h0' : r ≠ .const 0) (h1 : l ≠ .const 1) (h1' : r ≠ .const 1)
    (h : mulDistribute limit l r = some (some e)) : limit .mul l r = some e := by
  apply limit_rules
  simp only [rulesOf, mulRules, applyRules, mulZero, mulOne, h0, h0', h1, h1', or_self, if_false, h]

theorem limit_one_mul {e : Expr} (h : e ≠ .const 0) : limit .mul (.const 1) e = some e := by
  apply limit_rules
  simp [rulesOf, mulRules, applyRules, mulZero, mulOne, h]

theorem limit_mul_one {e : Expr} (h : e ≠ .const 0) : limit .mul e (.const 1) = some e := by
  apply limit_rules
  by_cases h1 : e = .const 1
  · subst h1; simp [rulesOf, mulRules, applyRules, mulZero, mulOne]
  · simp [rulesOf, mulRules, applyRules, mulZero, mulOne, h, h1]

theorem Fine.mono {D D' : Nat} {X : List Mon} (h : Fine D X) (hD : D ≤ D') : Fine D' X :=
  fun m hm => ⟨(h m hm).1, (h m hm).2.trans hD⟩

/-- The product of two polynomials. -/
theorem poly_mul {D D' : Nat} (hD : D + D' < B) (N : Nat) : ∀ X Y : List Mon, X.length + Y.length = N → Fine D X → Fine D' Y →
    wt X * wt Y < B →
    ∃ Z, limit .mul (polyL X) (polyL Y) = some (polyL Z) ∧ Fine (D + D') Z ∧ wt Z ≤ wt X * wt Y := by
  induction N using Nat.strong_induction_on with
  | _ N IH =>
    intro X Y hN hX hY hc
    rcases X with _ | ⟨a, as⟩
    · exact ⟨[], by rw [show polyL [] = .const 0 from rfl, limit_mul_zero], by simp [Fine], by simp [wt]⟩
    rcases Y with _ | ⟨b, bs⟩
    · exact ⟨[], by rw [show polyL [] = .const 0 from rfl, limit_mul_zero'], by simp [Fine], by simp [wt]⟩
    have w1 : wt [a] = a.c.natAbs := by simp [wt]
    have w2 : wt [b] = b.c.natAbs := by simp [wt]
    have hz := polyL_ne_zero (by simp) hX.ok
    have hz' := polyL_ne_zero (by simp) hY.ok
    by_cases h1 : polyL (a :: as) = .const 1
    · refine ⟨b :: bs, by rw [h1]; exact limit_one_mul hz', hY.mono (by omega), ?_⟩
      exact Nat.le_mul_of_pos_left _ (wt_pos hX (by simp))
    by_cases h1' : polyL (b :: bs) = .const 1
    · refine ⟨a :: as, by rw [h1']; exact limit_mul_one hz, hX.mono (by omega), ?_⟩
      exact Nat.le_mul_of_pos_right _ (wt_pos hY (by simp))
    simp only [List.length_cons] at hN
    have hone : a.c.natAbs * b.c.natAbs ≤ wt (a :: as) * wt (b :: bs) := by
      rw [wt_cons, wt_cons]
      exact Nat.mul_le_mul (by omega) (by omega)
    obtain ⟨p, p1, p2, p3, p4⟩ := mon_mul hX.head.1 hY.head.1 (by rw [Int.natAbs_mul]; omega)
      (by have := hX.head.2; have := hY.head.2; omega)
    have hp : Fine (D + D') [p] := .one ⟨p2, by have := hX.head.2; have := hY.head.2; omega⟩
    have wp : wt [p] = a.c.natAbs * b.c.natAbs := by simp [wt, p3, Int.natAbs_mul]
    have p1' : limit .mul a.expr b.expr = some (polyL [p]) := p1
    rcases as with _ | ⟨a', as⟩
    · rcases bs with _ | ⟨b', bs⟩
      · exact ⟨[p], p1, hp, by rw [wp, w1, w2]⟩
      · rw [w1, wt_cons b, mul_add] at hc ⊢
        obtain ⟨Z, z1, z2, z3⟩ := IH _ (by rw [← hN]; simp only [List.length_cons, List.length_nil]; omega) [a] (b' :: bs) rfl hX hY.tail
          (by rw [w1]; omega)
        rw [w1] at z3
        have z1' : limit .mul a.expr (polyL (b' :: bs)) = some (polyL Z) := z1
        obtain ⟨W, u1, u2, u3⟩ := poly_add hD hp z2 (by omega)
        refine ⟨W, mul_dist hz hz' h1 h1' ?_, u2, by omega⟩
        simp only [mulDistribute, show polyL [a] = a.expr from rfl, Mon.notAdd, asAdd_many, mkAdd_polyL hY.tail.ok,
          Option.bind_eq_bind, Option.bind_some, p1', z1', u1, fire, Option.map_some]
    · rcases bs with _ | ⟨b', bs⟩
      · rw [w2, wt_cons a, add_mul] at hc ⊢
        obtain ⟨Z, z1, z2, z3⟩ := IH _ (by rw [← hN]; simp only [List.length_cons, List.length_nil]; omega) (a' :: as) [b] rfl hX.tail hY
          (by rw [w2]; omega)
        rw [w2] at z3
        have z1' : limit .mul (polyL (a' :: as)) b.expr = some (polyL Z) := z1
        obtain ⟨W, u1, u2, u3⟩ := poly_add hD hp z2 (by omega)
        refine ⟨W, mul_dist hz hz' h1 h1' ?_, u2, by omega⟩
        simp only [mulDistribute, show polyL [b] = b.expr from rfl, Mon.notAdd, asAdd_many, mkAdd_polyL hX.tail.ok,
          Option.bind_eq_bind, Option.bind_some, p1', z1', u1, fire, Option.map_some]
      · have ew : wt (a :: a' :: as) * wt (b :: b' :: bs) = a.c.natAbs * b.c.natAbs + wt (a' :: as) * b.c.natAbs +
            (a.c.natAbs * wt (b' :: bs) + wt (a' :: as) * wt (b' :: bs)) := by
          rw [wt_cons a, wt_cons b]; ring
        rw [ew] at hc ⊢
        obtain ⟨Z1, x1, x2, x3⟩ := IH _ (by rw [← hN]; simp only [List.length_cons, List.length_nil]; omega) (a' :: as) [b] rfl hX.tail (.one hY.head)
          (by rw [w2]; omega)
        obtain ⟨Z2, y1, y2, y3⟩ := IH _ (by rw [← hN]; simp only [List.length_cons, List.length_nil]; omega) [a] (b' :: bs) rfl (.one hX.head) hY.tail
          (by rw [w1]; omega)
        obtain ⟨Z3, t1, t2, t3⟩ := IH _ (by rw [← hN]; simp only [List.length_cons]; omega) (a' :: as) (b' :: bs) rfl hX.tail hY.tail
          (by omega)
        rw [w2] at x3
        rw [w1] at y3
        obtain ⟨U, u1, u2, u3⟩ := poly_add hD hp x2 (by omega)
        obtain ⟨V, v1, v2, v3⟩ := poly_add hD y2 t2 (by omega)
        obtain ⟨W, r1, r2, r3⟩ := poly_add hD u2 v2 (by omega)
        have x1' : limit .mul (polyL (a' :: as)) b.expr = some (polyL Z1) := x1
        have y1' : limit .mul a.expr (polyL (b' :: bs)) = some (polyL Z2) := y1
        refine ⟨W, mul_dist hz hz' h1 h1' ?_, r2, by omega⟩
        simp only [mulDistribute, asAdd_many, mkAdd_polyL hX.tail.ok, mkAdd_polyL hY.tail.ok,
          Option.bind_eq_bind, Option.bind_some, p1', x1', y1', t1, u1, v1, r1, fire, Option.map_some]

end GATL.Total
