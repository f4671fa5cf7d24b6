import Verif.Proofs.Text

/-!
# The text of multivectors

The text of a multivector determines the values and the basis blades of its components.
-/

namespace GATL

open Expr Spec

variable {F : Format} {names : List Text} {S : Set ℝ} {number : Text → Option ℝ}

theorem factor_start {e : Expr} {t : Text} (h : FactorForm e) (ht : Txt F names e t) : ∃ c x, t = c :: x ∧ c ≠ '-' := by
  rcases h with ⟨v⟩ | ⟨g, i⟩ | ⟨g, i⟩ | ⟨name, args, hn, hl, ha⟩
  · exact ⟨_, _, ht.unique (txt_const v), by decide⟩
  · exact ⟨_, _, ht.unique (txt_value g i), by decide⟩
  · exact ⟨_, _, ht.unique (txt_bitset g i), by decide⟩
  · obtain ⟨ts, hts⟩ := forall₂_of (fun a h => (txt_exists F names (size a) a le_rfl).2.2 (ha a h))
    obtain ⟨c, x, rfl, hc⟩ := fn_start hn hl hts ht
    exact ⟨c, x, rfl, fun h => hc (by simp [h])⟩

theorem joined_start {sep : Text} {A : Expr → Prop} (hA : ∀ e t, A e → Txt F names e t → ∃ c x, t = c :: x ∧ c ≠ '-')
    {as : List Expr} {ts : List Text} (h0 : 2 ≤ as.length) (h : ∀ a ∈ as, A a) (hts : List.Forall₂ (Txt F names) as ts) :
    ∃ c x, joined sep ts = c :: x ∧ c ≠ '-' := by
  match as, ts, hts with
  | [], _, .nil => simp at h0
  | [_], _, .cons _ .nil => simp at h0
  | a :: b :: as, _, .cons h1 (.cons h2 h3) =>
    obtain ⟨c, x, rfl, hc⟩ := hA a _ (h a (by simp)) h1
    exact ⟨c, _, rfl, hc⟩

theorem product_start {e : Expr} {t : Text} (h : ProductForm e) (ht : Txt F names e t) : ∃ c x, t = c :: x ∧ c ≠ '-' := by
  rcases h with ⟨_, h⟩ | ⟨args, hl, ha⟩
  · exact factor_start h ht
  · obtain ⟨ts, hts⟩ := forall₂_of (fun a h => (txt_exists F names (size a) a le_rfl).1 (ha a h))
    rw [ht.unique (txt_mul hl hts)]
    exact joined_start (fun _ _ => factor_start) hl ha hts

theorem sum_start {e : Expr} {t : Text} (h : SumForm e) (ht : Txt F names e t) : ∃ c x, t = c :: x ∧ c ≠ '-' := by
  rcases h with ⟨_, h⟩ | ⟨args, hl, ha⟩
  · exact product_start h ht
  · obtain ⟨ts, hts⟩ := forall₂_of (fun a h => (txt_exists F names (size a) a le_rfl).2.1 (ha a h))
    rw [ht.unique (txt_add hl hts)]
    exact joined_start (fun _ _ => product_start) hl ha hts

/-- A variable or a function. -/
def Proper (F : Format) (names : List Text) (t : Text) : Prop :=
  ∃ e, FactorForm e ∧ (∀ v, e ≠ .const v) ∧ Txt F names e t

/-- Which functions start with a parenthesis. -/
theorem shape_open : ∀ n ∈ parenNames, (∃ x c, (shape n).headD [] = x ++ [c] ∧ ' ' ∉ x ∧ c = '(') ∧
    ((shape n).headD [] = ['('] ∧ ((shape n).tail.headD []).head? = some ' ' ∨ ((shape n).headD []).head? ≠ some '(') := by
  intro n hn
  have h1 : ((shape n).headD []).getLast? = some '(' ∧ ' ' ∉ (shape n).headD [] := by
    revert n; decide +kernel
  refine ⟨?_, by revert n; decide +kernel⟩
  obtain ⟨x, hx⟩ := List.getLast?_eq_some_iff.1 h1.1
  refine ⟨x, '(', hx, fun h => h1.2 (by rw [hx]; simp [h]), rfl⟩

theorem Proper.facts {t : Text} (h : Proper F names t) :
    (∃ c x, t = c :: x ∧ c ≠ '<') ∧ (∃ x c y, t = x ++ c :: y ∧ ' ' ∉ x ∧ (c = '(' ∨ c = '{')) ∧
      (t.head? ≠ some '(' ∨ ∃ a u y, t = '(' :: (u ++ ' ' :: y) ∧ SumForm a ∧ Txt F names a u ∧ Closed (' ' :: y) ∧ ∀ z, Closed (' ' :: y ++ z)) := by
  obtain ⟨e, h, hc, ht⟩ := h
  rcases h with ⟨v⟩ | ⟨g, i⟩ | ⟨g, i⟩ | ⟨name, args, hn, hl, ha⟩
  · exact absurd rfl (hc v)
  · rw [ht.unique (txt_value g i)]
    exact ⟨⟨_, _, rfl, by decide⟩, ⟨[], '{', _, rfl, by simp, .inr rfl⟩, .inl (by simp)⟩
  · rw [ht.unique (txt_bitset g i)]
    exact ⟨⟨_, _, rfl, by decide⟩, ⟨[], '{', _, rfl, by simp, .inr rfl⟩, .inl (by simp)⟩
  · obtain ⟨ts, hts⟩ := forall₂_of (R := Txt F names) (fun a h => (txt_exists F names (size a) a le_rfl).2.2 (ha a h))
    obtain ⟨c, x, hx, hc⟩ := fn_start hn hl hts ht
    obtain ⟨p, s, ss, e1, e2, -⟩ := shape_facts hn
    obtain ⟨⟨y, d, hy, hy2, hd⟩, ho⟩ := shape_open name (mem_parenNames hn)
    have hts2 : ts.length = (s :: ss).length := by rw [← hts.length_eq, hl, e2]
    obtain ⟨w, hw⟩ := weave_start (ss := s :: ss) (ts := ts) p hts2
    have htw := ht.unique (txt_fn hn hl hts)
    rw [e1] at htw hy ho
    simp only [List.headD_cons, List.tail_cons] at hy ho
    refine ⟨⟨c, x, hx, fun h => hc (by simp [h])⟩, ⟨y, d, w, ?_, hy2, .inl hd⟩, ?_⟩
    · rw [htw, hw, hy, List.append_assoc]; rfl
    · rcases ho with ⟨ho, hs⟩ | ho
      · right
        match args, ts, hts, hts2 with
        | [], _, .nil, h => simp at h
        | a :: as, u :: us, .cons h1 h2, h3 =>
          obtain ⟨z, hz⟩ := weave_start (ss := ss) (ts := us) s (by simpa using h3)
          cases s with
          | nil => simp at hs
          | cons s0 s =>
            simp only [List.head?_cons, Option.some.injEq] at hs
            subst hs
            have hcl : ∀ z', Closed (' ' :: (s ++ z) ++ z') := by
              intro z'
              have := closed_piece (n := name) (s := ' ' :: s) (by rw [e1]; simp) (z ++ z')
              simpa using this
            refine ⟨a, u, s ++ z, ?_, ha a (by simp), h1, by simpa using hcl [], hcl⟩
            rw [htw, weave, ho, hz]; simp
      · left
        rw [htw, hw]
        cases p with
        | nil => simp at hy
        | cons a p => simpa using ho

/-- A piece of a component: a factor, a coefficient between parentheses, a number or a basis blade. -/
inductive Piece (F : Format) (names : List Text) : Text → Prop
  | angle (s : Text) (h : '>' ∉ s) : Piece F names ('<' :: (s ++ ['>']))
  | word (t : Text) (h1 : ' ' ∉ t) (h2 : '<' ∉ t) (h3 : '(' ∉ t) (h4 : '{' ∉ t) : Piece F names t
  | neg (s : Text) (h : ')' ∉ s) : Piece F names ('(' :: '-' :: (s ++ [')']))
  | sum (e : Expr) (t : Text) (h : SumForm e) (ht : Txt F names e t) : Piece F names ('(' :: (t ++ [')']))
  | proper (t : Text) (h : Proper F names t) : Piece F names t

/-- The end of the text, or a space. -/
def Stops (r : Text) : Prop := r = [] ∨ ∃ x, r = ' ' :: x

theorem word_has {w r x : Text} {c : Char} (hr : Stops r) (hc : c ≠ ' ') (h : w ++ r = c :: x) : c ∈ w := by
  cases w with
  | nil =>
    rcases hr with rfl | ⟨y, rfl⟩
    · simp at h
    · simp only [List.nil_append, List.cons.injEq] at h
      exact absurd h.1.symm hc
  | cons d w =>
    simp only [List.cons_append, List.cons.injEq] at h
    simp [h.1]

theorem word_has' {r : Text} {c : Char} (hr : Stops r) (hc : c ≠ ' ') : ∀ {w x y : Text}, ' ' ∉ x →
    w ++ r = x ++ c :: y → c ∈ w
  | w, [], y, _, h => word_has hr hc h
  | w, d :: x, y, hx, h => by
    rw [List.mem_cons, not_or] at hx
    cases w with
    | nil =>
      have := word_has (w := []) hr (Ne.symm hx.1) h
      simp at this
    | cons d' w =>
      simp only [List.cons_append, List.cons.injEq] at h
      exact List.mem_cons_of_mem _ (word_has' hr hc hx.2 h.2)

theorem word_eq : ∀ {w w' r r' : Text}, ' ' ∉ w → ' ' ∉ w' → Stops r → Stops r' → w ++ r = w' ++ r' → w = w' ∧ r = r'
  | [], [], _, _, _, _, _, _, h => ⟨rfl, by simpa using h⟩
  | [], c :: w', r, r', _, h', hr, _, h => by
    rw [List.mem_cons, not_or] at h'
    have := word_has (w := []) hr (Ne.symm h'.1) h
    simp at this
  | c :: w, [], r, r', h1, _, _, hr, h => by
    rw [List.mem_cons, not_or] at h1
    have := word_has (w := []) hr (Ne.symm h1.1) h.symm
    simp at this
  | c :: w, c' :: w', r, r', h1, h2, hr, hr', h => by
    rw [List.mem_cons, not_or] at h1 h2
    simp only [List.cons_append, List.cons.injEq] at h
    obtain ⟨h3, h4⟩ := word_eq h1.2 h2.2 hr hr' h.2
    exact ⟨by rw [h.1, h3], h4⟩

section

variable {r r' : Text}

theorem proper_angle {t s : Text} (h : Proper F names t) : ¬ t ++ r = '<' :: (s ++ ['>']) ++ r' := by
  obtain ⟨⟨c, x, rfl, hc⟩, -, -⟩ := h.facts
  intro h
  simp only [List.cons_append, List.cons.injEq] at h
  exact hc h.1

theorem proper_word {t w : Text} (h : Proper F names t) (hr : Stops r') (h3 : '(' ∉ w) (h4 : '{' ∉ w) :
    ¬ t ++ r = w ++ r' := by
  obtain ⟨-, ⟨x, c, y, rfl, hx, hc⟩, -⟩ := h.facts
  intro h
  rw [List.append_assoc, List.cons_append] at h
  have := word_has' hr (by rcases hc with rfl | rfl <;> decide) hx h.symm
  rcases hc with rfl | rfl
  · exact h3 this
  · exact h4 this

theorem proper_neg {t s : Text} (h : Proper F names t) : ¬ t ++ r = '(' :: '-' :: (s ++ [')']) ++ r' := by
  obtain ⟨⟨c, x, hx, -⟩, -, h⟩ := h.facts
  intro he
  rcases h with h | ⟨a, u, y, rfl, ha, hu, -⟩
  · rw [hx] at he h
    simp only [List.cons_append, List.cons.injEq] at he
    simp [he.1] at h
  · obtain ⟨d, z, rfl, hd⟩ := sum_start ha hu
    simp only [List.cons_append, List.cons.injEq, true_and] at he
    exact hd he.1

theorem closed_paren (r : Text) : Closed (')' :: r) := by
  constructor <;> simp [Ends]

theorem proper_sum (hP : PlainNumbers F S) (hE : Exact F S number) {t u : Text} {e : Expr} (h : Proper F names t)
    (hs : SumForm e) (hu : Txt F names e u) : ¬ t ++ r = '(' :: (u ++ [')']) ++ r' := by
  obtain ⟨⟨c, x, hx, -⟩, -, h⟩ := h.facts
  intro he
  rcases h with h | ⟨a, u', y, rfl, ha, hu', -, hc⟩
  · rw [hx] at he h
    simp only [List.cons_append, List.cons.injEq] at he
    simp [he.1] at h
  · have he : u' ++ (' ' :: y ++ r) = u ++ (')' :: r') := by simpa using he
    have := ((recovered (names := names) hP hE (size a) a le_rfl).2.2 ha e u' u _ _ hs hu' hu (hc r) (closed_paren r') he).2
    simp at this

theorem piece_eq (hP : PlainNumbers F S) (hE : Exact F S number) {t t' : Text} (h : Piece F names t) (h' : Piece F names t')
    (hr : Stops r) (hr' : Stops r') (he : t ++ r = t' ++ r') : t = t' ∧ r = r' := by
  have cancel : t = t' → t = t' ∧ r = r' := by
    rintro rfl
    exact ⟨rfl, List.append_cancel_left he⟩
  rcases h with ⟨s, h⟩ | ⟨_, h1, h2, h3, h4⟩ | ⟨s, h⟩ | ⟨e, u, h, hu⟩ | ⟨_, h⟩ <;>
    rcases h' with ⟨s', h'⟩ | ⟨_, h1', h2', h3', h4'⟩ | ⟨s', h'⟩ | ⟨e', u', h', hu'⟩ | ⟨_, h'⟩
  · have he : s ++ '>' :: r = s' ++ '>' :: r' := by simpa using he
    exact cancel (by rw [(until_eq h h' he).1])
  · exact absurd (word_has hr' (by decide) he.symm) h2'
  · simp at he
  · simp at he
  · exact absurd he.symm (proper_angle h')
  · exact absurd (word_has hr (by decide) he) h2
  · exact word_eq h1 h1' hr hr' he
  · exact absurd (word_has hr (by decide) he) h3
  · exact absurd (word_has hr (by decide) he) h3
  · exact absurd he.symm (proper_word h' hr h3 h4)
  · simp at he
  · exact absurd (word_has hr' (by decide) he.symm) h3'
  · have he : s ++ ')' :: r = s' ++ ')' :: r' := by simpa using he
    exact cancel (by rw [(until_eq h h' he).1])
  · obtain ⟨d, z, rfl, hd⟩ := sum_start h' hu'
    simp only [List.cons_append, List.cons.injEq, true_and] at he
    exact absurd he.1.symm hd
  · exact absurd he.symm (proper_neg h')
  · simp at he
  · exact absurd (word_has hr' (by decide) he.symm) h3'
  · obtain ⟨d, z, rfl, hd⟩ := sum_start h hu
    simp only [List.cons_append, List.cons.injEq, true_and] at he
    exact absurd he.1 hd
  · have he : u ++ ')' :: r = u' ++ ')' :: r' := by simpa using he
    obtain ⟨rfl, -⟩ := (recovered (names := names) hP hE (size e) e le_rfl).2.2 h e' u u' _ _ h' hu hu' (closed_paren r)
      (closed_paren r') he
    exact cancel (by rw [hu.unique hu'])
  · exact absurd he.symm (proper_sum hP hE h' h hu)
  · exact absurd he (proper_angle h)
  · exact absurd he (proper_word h hr' h3' h4')
  · exact absurd he (proper_neg h)
  · exact absurd he (proper_sum hP hE h h' hu')
  · obtain ⟨e, f, -, hu⟩ := h
    obtain ⟨e', f', -, hu'⟩ := h'
    obtain ⟨rfl, -⟩ := (recovered (names := names) hP hE (size e) e le_rfl).1 f e' t t' _ _ f' hu hu' trivial trivial he
    exact cancel (hu.unique hu')

end

theorem list_eq {P G : Text → Prop} {sep : Text} (hG : ∀ x, G (sep ++ x))
    (hP : ∀ t t' r r', P t → P t' → G r → G r' → t ++ r = t' ++ r' → t = t' ∧ r = r') :
    ∀ {ts ts' : List Text} {r r' : Text}, (∀ t ∈ ts, P t) → (∀ t ∈ ts', P t) → ts ≠ [] → ts' ≠ [] → G r → G r' →
      Ends sep r → Ends sep r' → joined sep ts ++ r = joined sep ts' ++ r' → ts = ts' ∧ r = r'
  | [], _, _, _, _, _, h, _, _, _, _, _, _ => absurd rfl h
  | _, [], _, _, _, _, _, h, _, _, _, _, _ => absurd rfl h
  | [a], [b], r, r', h1, h2, _, _, g, g', _, _, h => by
    obtain ⟨h3, h4⟩ := hP a b r r' (h1 a (by simp)) (h2 b (by simp)) g g' h
    exact ⟨by rw [h3], h4⟩
  | [a], b :: b' :: bs, r, r', h1, h2, _, _, g, g', e, _, h => by
    rw [joined_cons, List.append_assoc, List.append_assoc] at h
    obtain ⟨-, h5⟩ := hP a b r _ (h1 a (by simp)) (h2 b (by simp)) g (hG _) h
    exact absurd ⟨_, h5.symm⟩ e
  | a :: a' :: as, [b], r, r', h1, h2, _, _, g, g', _, e, h => by
    rw [joined_cons, List.append_assoc, List.append_assoc] at h
    obtain ⟨-, h5⟩ := hP a b _ r' (h1 a (by simp)) (h2 b (by simp)) (hG _) g' h
    exact absurd ⟨_, h5⟩ e
  | a :: a' :: as, b :: b' :: bs, r, r', h1, h2, _, _, g, g', e, e', h => by
    rw [joined_cons, joined_cons, List.append_assoc, List.append_assoc, List.append_assoc, List.append_assoc] at h
    obtain ⟨h7, h8⟩ := hP a b _ _ (h1 a (by simp)) (h2 b (by simp)) (hG _) (hG _) h
    obtain ⟨h9, h10⟩ := list_eq hG hP (ts := a' :: as) (ts' := b' :: bs)
      (fun x hx => h1 x (List.mem_cons_of_mem _ hx)) (fun x hx => h2 x (List.mem_cons_of_mem _ hx)) (by simp) (by simp)
      g g' e e' (List.append_cancel_left h8)
    exact ⟨by rw [h7, h9], h10⟩

/-- Pieces that are joined to a component. -/
theorem pieces_eq (hP : PlainNumbers F S) (hE : Exact F S number) {ts ts' : List Text} {r r' : Text}
    (h : ∀ t ∈ ts, Piece F names t) (h' : ∀ t ∈ ts', Piece F names t) (n : ts ≠ []) (n' : ts' ≠ [])
    (g : Stops r ∧ Ends " * ".toList r) (g' : Stops r' ∧ Ends " * ".toList r')
    (he : joined " * ".toList ts ++ r = joined " * ".toList ts' ++ r') : ts = ts' ∧ r = r' :=
  list_eq (fun x => .inr ⟨_, rfl⟩) (fun _ _ _ _ p p' s s' e => piece_eq hP hE p p' s s' e) h h' n n' g.1 g'.1 g.2 g'.2 he

/-- Components that are joined to a sum. -/
theorem comps_eq (hP : PlainNumbers F S) (hE : Exact F S number) {us us' : List (List Text)}
    (h : ∀ u ∈ us, u ≠ [] ∧ ∀ t ∈ u, Piece F names t) (h' : ∀ u ∈ us', u ≠ [] ∧ ∀ t ∈ u, Piece F names t)
    (n : us ≠ []) (n' : us' ≠ [])
    (he : joined " + ".toList (us.map (joined " * ".toList)) = joined " + ".toList (us'.map (joined " * ".toList))) :
    us = us' := by
  have stop : Stops [] ∧ Ends " * ".toList [] := ⟨.inl rfl, by simp [Ends]⟩
  obtain ⟨h1, -⟩ := list_eq (P := fun t => ∃ u, t = joined " * ".toList u ∧ u ≠ [] ∧ ∀ t ∈ u, Piece F names t)
    (G := fun r => Stops r ∧ Ends " * ".toList r) (sep := " + ".toList) (r := []) (r' := [])
    (fun x => ⟨.inr ⟨_, rfl⟩, by simp [Ends]⟩)
    (by
      rintro _ _ r r' ⟨u, rfl, a1, a2⟩ ⟨u', rfl, b1, b2⟩ g g' e
      obtain ⟨h3, h4⟩ := pieces_eq hP hE a2 b2 a1 b1 g g' e
      exact ⟨by rw [h3], h4⟩)
    (ts := us.map (joined " * ".toList)) (ts' := us'.map (joined " * ".toList))
    (by
      intro t ht
      obtain ⟨u, hu, rfl⟩ := List.mem_map.1 ht
      exact ⟨u, rfl, h u hu⟩)
    (by
      intro t ht
      obtain ⟨u, hu, rfl⟩ := List.mem_map.1 ht
      exact ⟨u, rfl, h' u hu⟩)
    (by simpa using n) (by simpa using n') stop stop (by simp [Ends]) (by simp [Ends]) (by simpa using he)
  clear he n n'
  induction us generalizing us' with
  | nil => simpa [eq_comm] using h1
  | cons u us ih =>
    cases us' with
    | nil => simp at h1
    | cons u' us' =>
      simp only [List.map_cons, List.cons.injEq] at h1
      obtain ⟨h3, -⟩ := pieces_eq hP hE (h u (by simp)).2 (h' u' (by simp)).2 (h u (by simp)).1 (h' u' (by simp)).1 stop stop
        (by rw [h1.1])
      rw [h3, ih (fun v hv => h v (List.mem_cons_of_mem _ hv)) (fun v hv => h' v (List.mem_cons_of_mem _ hv)) h1.2]

/-- The product of factors. -/
def productOf : List Expr → Expr
  | [a] => a
  | as => .fn .mul as

/-- The pieces that are written for a coefficient with the value `x`. -/
inductive CoefText (F : Format) (names : List Text) (ρ : Env) (S : Set ℝ) : List Text → ℝ → Prop
  | nonneg (x : ℝ) (hS : x ∈ S) (h : 0 ≤ x) : CoefText F names ρ S [F.real x] x
  | neg (x : ℝ) (hS : x ∈ S) (h : x < 0) : CoefText F names ρ S ['(' :: (F.real x ++ [')'])] x
  | product (as : List Expr) (ts : List Text) (n : as ≠ []) (h : ∀ a ∈ as, FactorForm a)
      (hts : List.Forall₂ (Txt F names) as ts) (x : ℝ) (hx : Denotes ρ (productOf as) x) : CoefText F names ρ S ts x
  | sum (e : Expr) (t : Text) (h : SumForm e) (ht : Txt F names e t) (x : ℝ) (hx : Denotes ρ e x) :
      CoefText F names ρ S ['(' :: (t ++ [')'])] x

/-- The piece that is written for a basis blade. -/
inductive BladeText (F : Format) (names : List Text) (ρ : Env) : Text → Word → Prop
  | known (s : Text) (w : Word) (h : Piece F names s) (hp : ¬ Proper F names s) (hr : readBlade names s = some w) :
      BladeText F names ρ s w
  | symbolic (e : Expr) (t : Text) (h : FactorForm e) (hc : ∀ v, e ≠ .const v) (ht : Txt F names e t) (w : Word)
      (hw : den ρ e = some (.bits w)) : BladeText F names ρ t w

theorem BladeText.piece {ρ : Env} {t : Text} {w : Word} (h : BladeText F names ρ t w) : Piece F names t := by
  cases h with
  | known h => assumption
  | symbolic e _ h hc ht => exact .proper _ ⟨e, h, hc, ht⟩

theorem BladeText.unique {ρ : Env} {t : Text} {w w' : Word} (hP : PlainNumbers F S) (hE : Exact F S number)
    (h : BladeText F names ρ t w) (h' : BladeText F names ρ t w') : w = w' := by
  rcases h with ⟨_, _, -, hp, hr⟩ | ⟨e, _, h, hc, ht, _, hw⟩ <;> rcases h' with ⟨_, _, -, hp', hr'⟩ | ⟨e', _, h', hc', ht', _, hw'⟩
  · simpa [hr'] using hr.symm
  · exact absurd ⟨e', h', hc', ht'⟩ hp
  · exact absurd ⟨e, h, hc, ht⟩ hp'
  · obtain ⟨rfl, -⟩ := (recovered (names := names) hP hE (size e) e le_rfl).1 h e' t t [] [] h' ht ht' trivial trivial rfl
    simpa [hw'] using hw.symm

theorem forall₂_piece {α β : Type*} {R : α → β → Prop} {l : List α} {l' : List β} (h : List.Forall₂ R l l') {t : β}
    (ht : t ∈ l') : ∃ a ∈ l, R a t := by
  induction h with
  | nil => simp at ht
  | cons h1 _ ih =>
    rcases List.mem_cons.1 ht with rfl | ht
    · exact ⟨_, by simp, h1⟩
    · obtain ⟨a, ha, h⟩ := ih ht
      exact ⟨a, List.mem_cons_of_mem _ ha, h⟩

theorem factor_piece (hP : PlainNumbers F S) {e : Expr} {t : Text} (h : FactorForm e) (ht : Txt F names e t) :
    (∃ s, '>' ∉ s ∧ t = '<' :: (s ++ ['>'])) ∨ Proper F names t := by
  by_cases hc : ∃ v, e = .const v
  · obtain ⟨v, rfl⟩ := hc
    exact .inl ⟨_, hP.int v, ht.unique (txt_const v)⟩
  · exact .inr ⟨e, h, fun v hv => hc ⟨v, hv⟩, ht⟩

theorem real_word (hP : PlainNumbers F S) (hE : Exact F S number) {x : ℝ} (hx : x ∈ S) :
    ' ' ∉ F.real x ∧ '<' ∉ F.real x ∧ '(' ∉ F.real x ∧ '{' ∉ F.real x :=
  ⟨(hE.real x hx).2.1, (hE.real x hx).2.2.1, (hE.real x hx).2.2.2, (hP.real x hx).2.1⟩

theorem neg_text (hP : PlainNumbers F S) {x : ℝ} (hx : x ∈ S) (h : x < 0) : ∃ s, ')' ∉ s ∧ F.real x = '-' :: s := by
  obtain ⟨h1, -, h2⟩ := hP.real x hx
  have h2 := h2 h
  cases hr : F.real x with
  | nil => simp [hr] at h2
  | cons c s =>
    rw [hr] at h1 h2
    simp only [List.head?_cons, Option.some.injEq] at h2
    rw [List.mem_cons, not_or] at h1
    exact ⟨s, h1.2, by rw [h2]⟩

theorem CoefText.pieces {ρ : Env} {ts : List Text} {x : ℝ} (hP : PlainNumbers F S) (hE : Exact F S number)
    (h : CoefText F names ρ S ts x) : ts ≠ [] ∧ ∀ t ∈ ts, Piece F names t := by
  cases h with
  | nonneg _ hS h =>
    obtain ⟨h1, h2, h3, h4⟩ := real_word hP hE hS
    exact ⟨by simp, by simpa using Piece.word _ h1 h2 h3 h4⟩
  | neg _ hS h =>
    obtain ⟨s, h1, h2⟩ := neg_text hP hS h
    rw [h2]
    exact ⟨by simp, by simpa using Piece.neg s h1⟩
  | product as _ n h hts =>
    refine ⟨?_, ?_⟩
    · rintro rfl
      cases hts
      exact n rfl
    · intro t ht
      obtain ⟨a, ha, h1⟩ := forall₂_piece hts ht
      rcases factor_piece hP (h a ha) h1 with ⟨s, hs, rfl⟩ | hp
      · exact .angle s hs
      · exact .proper _ hp
  | sum e t h ht => exact ⟨by simp, by simpa using Piece.sum e t h ht⟩

/-- A single factor. -/
theorem factor_single (hP : PlainNumbers F S) {as : List Expr} {t : Text} (h : ∀ a ∈ as, FactorForm a)
    (hts : List.Forall₂ (Txt F names) as [t]) : (∃ s, '>' ∉ s ∧ t = '<' :: (s ++ ['>'])) ∨ Proper F names t := by
  obtain ⟨a, ha, h1⟩ := forall₂_piece hts (t := t) (by simp)
  exact factor_piece hP (h a ha) h1

theorem factors_eq (hP : PlainNumbers F S) (hE : Exact F S number) : ∀ {as as' : List Expr} {ts : List Text},
    (∀ a ∈ as, FactorForm a) → (∀ a ∈ as', FactorForm a) → List.Forall₂ (Txt F names) as ts →
      List.Forall₂ (Txt F names) as' ts → as = as'
  | [], _, _, _, _, .nil, .nil => rfl
  | _ :: _, [], _, _, _, h1, h2 => by cases h2; cases h1
  | a :: as, a' :: as', t :: ts, h, h', .cons h1 h2, .cons h3 h4 => by
    obtain ⟨rfl, -⟩ := (recovered (names := names) hP hE (size a) a le_rfl).1 (h a (by simp)) a' t t [] [] (h' a' (by simp))
      h1 h3 trivial trivial rfl
    rw [factors_eq hP hE (fun x hx => h x (List.mem_cons_of_mem _ hx)) (fun x hx => h' x (List.mem_cons_of_mem _ hx)) h2 h4]

theorem nonneg_product (hP : PlainNumbers F S) (hE : Exact F S number) {x : ℝ} (hS : x ∈ S) {as : List Expr}
    (h : ∀ a ∈ as, FactorForm a) (hts : List.Forall₂ (Txt F names) as [F.real x]) : False := by
  obtain ⟨h1, h2, h3, h4⟩ := real_word hP hE hS
  rcases factor_single hP h hts with ⟨s, -, hs⟩ | hp
  · rw [hs] at h2; simp at h2
  · exact proper_word (r := []) (r' := []) hp (.inl rfl) h3 h4 rfl

theorem neg_product (hP : PlainNumbers F S) {x : ℝ} (hS : x ∈ S) (hx : x < 0) {as : List Expr}
    (h : ∀ a ∈ as, FactorForm a) (hts : List.Forall₂ (Txt F names) as ['(' :: (F.real x ++ [')'])]) : False := by
  obtain ⟨s, h1, h2⟩ := neg_text hP hS hx
  rw [h2] at hts
  rcases factor_single hP h hts with ⟨s, -, hs⟩ | hp
  · simp at hs
  · exact proper_neg (r := []) (r' := []) (s := s) hp (by simp)

theorem sum_product (hP : PlainNumbers F S) (hE : Exact F S number) {e : Expr} {t : Text} (hs : SumForm e)
    (ht : Txt F names e t) {as : List Expr} (h : ∀ a ∈ as, FactorForm a)
    (hts : List.Forall₂ (Txt F names) as ['(' :: (t ++ [')'])]) : False := by
  rcases factor_single hP h hts with ⟨s, -, hs⟩ | hp
  · simp at hs
  · exact proper_sum (r := []) (r' := []) hP hE hp hs ht rfl

theorem neg_sum (hP : PlainNumbers F S) {x : ℝ} (hS : x ∈ S) (hx : x < 0) {e : Expr} {t : Text} (hs : SumForm e)
    (ht : Txt F names e t) : F.real x ≠ t := by
  obtain ⟨s, h1, h2⟩ := neg_text hP hS hx
  obtain ⟨c, y, rfl, hc⟩ := sum_start hs ht
  rw [h2]
  intro h
  simp only [List.cons.injEq] at h
  exact hc h.1.symm

theorem CoefText.unique {ρ : Env} {ts ts' : List Text} {x x' : ℝ} (hP : PlainNumbers F S) (hE : Exact F S number)
    (h : CoefText F names ρ S ts x) (h' : CoefText F names ρ S ts' x') (he : ts = ts') : x = x' := by
  have inj : ∀ {x x' : ℝ}, x ∈ S → x' ∈ S → F.real x = F.real x' → x = x' := by
    intro x x' hx hx' h
    have := (hE.real x hx).1
    rw [h, (hE.real x' hx').1] at this
    simpa using this.symm
  have paren : ∀ {x : ℝ} {t : Text}, x ∈ S → F.real x ≠ '(' :: (t ++ [')']) := by
    intro x t hx h
    have := (hE.real x hx).2.2.2
    rw [h] at this
    simp at this
  rcases h with ⟨_, hS, h⟩ | ⟨_, hS, h⟩ | ⟨as, _, n, h, hts, _, hx⟩ | ⟨e, t, h, ht, _, hx⟩ <;>
    rcases h' with ⟨_, hS', h'⟩ | ⟨_, hS', h'⟩ | ⟨as', _, n', h', hts', _, hx'⟩ | ⟨e', t', h', ht', _, hx'⟩
  · exact inj hS hS' (by simpa using he)
  · exact absurd (by simpa using he) (paren (t := F.real x') hS)
  · subst he; exact (nonneg_product hP hE hS h' hts').elim
  · exact absurd (by simpa using he) (paren (t := t') hS)
  · exact absurd (by simpa using he.symm) (paren (t := F.real x) hS')
  · exact inj hS hS' (by simpa using he)
  · subst he; exact (neg_product hP hS h h' hts').elim
  · exact absurd (by simpa using he) (neg_sum hP hS h h' ht')
  · subst he; exact (nonneg_product hP hE hS' h hts).elim
  · subst he; exact (neg_product hP hS' h' h hts).elim
  · subst he
    rw [factors_eq hP hE h h' hts hts'] at hx
    have := hx.symm.trans hx'
    simpa using this
  · subst he; exact (sum_product hP hE h' ht' h hts).elim
  · exact absurd (by simpa using he.symm) (paren (t := t) hS')
  · exact absurd (by simpa using he.symm) (neg_sum hP hS' h' h ht)
  · subst he; exact (sum_product hP hE h ht h' hts').elim
  · have he : t = t' := by simpa using he
    subst he
    obtain ⟨rfl, -⟩ := (recovered (names := names) hP hE (size e) e le_rfl).2.2 h e' t t [] [] h' ht ht'
      (by constructor <;> simp [Ends]) (by constructor <;> simp [Ends]) rfl
    have := hx.symm.trans hx'
    simpa using this

theorem joined_snoc (sep s : Text) : ∀ {ts : List Text}, ts ≠ [] → joined sep (ts ++ [s]) = joined sep ts ++ (sep ++ s)
  | [], h => absurd rfl h
  | [t], _ => rfl
  | t :: u :: ts, _ => by
    have := joined_snoc sep s (ts := u :: ts) (by simp)
    rw [List.cons_append, List.cons_append, joined_cons, ← List.cons_append, this, joined_cons]
    simp

/-- What the coefficient of a component writes, up to the separator. -/
theorem coef_text {ρ : Env} {c : Expr} {vs : List ℝ} {x : ℝ}
    (h : CoefReads ρ c vs x) (hS : ∀ v ∈ vs, v ∈ S) (hc : c = .stored ∨ SumForm c) (b : Blade) :
    ∃ ps, CoefText F names ρ S ps x ∧ ∀ vs' ws ws' s, (∀ vs, writeBasisBlade F names b vs ws = some (s, vs, ws')) →
      writeComp F names ⟨c, b⟩ (vs ++ vs') ws = some (joined " * ".toList ps ++ (" * ".toList ++ s), vs', ws') := by
  cases h with
  | stored =>
    by_cases hx : 0 ≤ x
    · refine ⟨[F.real x], .nonneg x (hS x (by simp)) hx, ?_⟩
      intro vs' ws ws' s hs
      simp [writeComp, isSum, inOrder, writeExpr, writeStored, hx, hs, put, joined]
    · refine ⟨['(' :: (F.real x ++ [')'])], .neg x (hS x (by simp)) (lt_of_not_ge hx), ?_⟩
      intro vs' ws ws' s hs
      simp [writeComp, isSum, inOrder, writeExpr, writeStored, hx, hs, put, joined]
  | symbolic _ _ hs hb hd =>
    rcases hc with rfl | hc
    · simp [hasStored] at hs
    · have comp : ∀ {t : Text}, isSum c = false → Txt F names c t → ∀ vs' ws ws' s,
          (∀ vs, writeBasisBlade F names b vs ws = some (s, vs, ws')) →
          writeComp F names ⟨c, b⟩ ([] ++ vs') ws = some (t ++ (" * ".toList ++ s), vs', ws') := by
        intro t h1 h2 vs' ws ws' s hs
        simp [writeComp, h1, inOrder, h2 _ _, hs, put]
      rcases hc with ⟨_, hp⟩ | ⟨args, hl, ha⟩
      · rcases hp with ⟨_, hf⟩ | ⟨args, hl, ha⟩
        · obtain ⟨t, ht⟩ := (txt_exists F names (size c) c le_rfl).1 hf
          refine ⟨[t], .product [c] [t] (by simp) (by simpa using hf) (.cons ht .nil) x hd, comp ?_ ht⟩
          rcases hf with ⟨v⟩ | ⟨g, i⟩ | ⟨g, i⟩ | ⟨name, args, hn, hl, ha⟩
          · rfl
          · rfl
          · rfl
          · cases name <;> first | rfl | exact absurd rfl hn
        · obtain ⟨ts, hts⟩ := forall₂_of (R := Txt F names) (fun a h => (txt_exists F names (size a) a le_rfl).1 (ha a h))
          have hp : productOf args = .fn .mul args := by
            match args, hl with
            | a :: b :: as, _ => rfl
          exact ⟨ts, .product args ts (by rintro rfl; simp at hl) ha hts x (by rw [hp]; exact hd), comp rfl (txt_mul hl hts)⟩
      · obtain ⟨t, ht⟩ := (txt_exists F names _ _ le_rfl).2.2 (SumForm.add args hl ha)
        refine ⟨['(' :: (t ++ [')'])], .sum _ t (.add args hl ha) ht x hd, ?_⟩
        intro vs' ws ws' s hs
        simp [writeComp, isSum, inOrder, ht _ _, hs, put, joined]

theorem loop_clean {c : Char} (hc : c ≠ '^') (hn : ∀ t ∈ names, c ∉ t) (arg : Word) :
    ∀ (fuel : Nat) (b : Word) (t : Text), writeBladeLoop names arg fuel b = some t → c ∉ t := by
  intro fuel
  induction fuel with
  | zero => intro b t h; simp [writeBladeLoop] at h
  | succ fuel ih =>
    intro b t h
    rw [writeBladeLoop] at h
    by_cases h0 : b ≠ 0
    · rw [if_pos h0] at h
      simp only [Option.bind_eq_bind, Option.bind_eq_some_iff, Option.some.injEq] at h
      obtain ⟨f, -, nm, h2, rest, h3, rfl⟩ := h
      have h4 := hn nm (List.mem_of_getElem? h2)
      have h5 := ih _ _ h3
      split_ifs <;> simp [h4, h5, hc]
    · rw [if_neg h0, Option.some.injEq] at h
      subst h
      simp

theorem blade_clean {c : Char} (hc : c ≠ '^') (hc' : c ≠ '1') (hn : ∀ t ∈ names, c ∉ t) {w : Word} {t : Text}
    (h : writeBlade names w = some t) : c ∉ t := by
  rw [writeBlade] at h
  split_ifs at h
  · simp only [Option.some.injEq] at h
    subst h
    simpa using hc'
  · exact loop_clean hc hn _ _ _ _ h

/-- What the basis blade of a component writes. -/
theorem blade_text (g : GoodNames names) (hn : names.length ≤ 63) (hpn : PlainNames names) {ρ : Env} {b : Blade}
    {ws : List Word} {t : TBlade} (h : BladeReads ρ b ws t)
    (hb : ∀ G e, b = .dyn G e → e = .storedBits ∨ FactorForm e) (hw : ∀ i ∈ vecs t.bits, i.val < names.length) :
    ∃ s, BladeText F names ρ s t.bits ∧ ∀ vs ws', writeBasisBlade F names b vs (ws ++ ws') = some (s, vs, ws') := by
  cases h with
  | const b =>
    obtain ⟨s, h1, h2, h3, h4, h5⟩ := blade_spec g hn hw
    have h1' : writeBlade names b = some s := h1
    have h6 := blade_clean (by decide) (by decide) (fun t ht => (hpn t ht).2.2) h1'
    refine ⟨'<' :: (s ++ ['>']), .known _ _ (.angle s h6) (fun h => proper_angle (r := []) (r' := []) h rfl) h5, ?_⟩
    intro vs ws'
    rw [writeBasisBlade, writeExpr]
    simp [h1']
  | stored G w =>
    obtain ⟨s, h1, h2, h3, h4, h5⟩ := blade_spec g hn hw
    have h1' : writeBlade names w = some s := h1
    have h6 := blade_clean (by decide) (by decide) (fun t ht => (hpn t ht).1) h1'
    have h7 := blade_clean (by decide) (by decide) (fun t ht => (hpn t ht).2.1) h1'
    refine ⟨s, .known _ _ (.word s h2 h3 h6 h7) (fun h => proper_word (r := []) (r' := []) h (.inl rfl) h6 h7 rfl) h4, ?_⟩
    intro vs ws'
    rw [writeBasisBlade, writeExpr]
    simp [writeStoredBits, h1']
  | symbolic G e w hs hbt hc hd =>
    rcases hb G e rfl with rfl | hf
    · simp [hasStored] at hs
    · obtain ⟨s, ht⟩ := (txt_exists F names (size e) e le_rfl).1 hf
      refine ⟨s, .symbolic e s hf (by rintro v rfl; simp [isConstant] at hc) ht w hd, ?_⟩
      intro vs ws'
      rw [writeBasisBlade]
      exact ht vs ws'

/-- The pieces of a component. -/
def CompText (F : Format) (names : List Text) (ρ : Env) (S : Set ℝ) (u : List Text) (l : ℝ × TBlade) : Prop :=
  ∃ ps s, u = ps ++ [s] ∧ CoefText F names ρ S ps l.1 ∧ BladeText F names ρ s l.2.bits

theorem sum_text (hP : PlainNumbers F S) (hE : Exact F S number) (g : GoodNames names) (hn : names.length ≤ 63)
    (hpn : PlainNames names) {ρ : Env} {s : CSum} {vs : List ℝ} {ws : List Word} {L : List (ℝ × TBlade)}
    (h : ReadsEach ρ s vs ws L) (h0 : s ≠ []) (hc : ∀ c ∈ s, c.coef = .stored ∨ SumForm c.coef)
    (hb : ∀ c ∈ s, ∀ G e, c.blade = .dyn G e → e = .storedBits ∨ FactorForm e)
    (hS : ∀ v ∈ vs, v ∈ S) (hL : ∀ p ∈ L, ∀ i ∈ vecs p.2.bits, i.val < names.length) :
    ∃ us, us ≠ [] ∧ List.Forall₂ (CompText F names ρ S) us L ∧
      writeSum F names s vs ws = some (joined " + ".toList (us.map (joined " * ".toList)), [], []) := by
  induction h with
  | nil => exact absurd rfl h0
  | @cons c b s vs ws vs' ws' x t L hcr hbr hs ih =>
    obtain ⟨ps, hc1, hc2⟩ := coef_text (F := F) (names := names) hcr (fun v hv => hS v (by simp [hv])) (hc ⟨c, b⟩ (by simp)) b
    obtain ⟨tb, hb1, hb2⟩ := blade_text (F := F) g hn hpn hbr (hb ⟨c, b⟩ (by simp)) (hL (x, t) (by simp))
    have hu : CompText F names ρ S (ps ++ [tb]) (x, t) := ⟨ps, tb, rfl, hc1, hb1⟩
    have hw : ∀ vs' ws', writeComp F names ⟨c, b⟩ (vs ++ vs') (ws ++ ws')
        = some (joined " * ".toList (ps ++ [tb]), vs', ws') := by
      intro vs' ws'
      rw [hc2 vs' (ws ++ ws') ws' tb (fun vs => hb2 vs ws'), joined_snoc _ _ (hc1.pieces hP hE).1]
    cases hs with
    | nil =>
      refine ⟨[ps ++ [tb]], by simp, .cons hu .nil, ?_⟩
      rw [writeSum, hw]
      rfl
    | @cons c' b' s' v1 w1 v2 w2 x' t' L' h1 h2 h3 =>
      obtain ⟨us, hr1, hr2, hr3⟩ := ih (by simp) (fun d hd => hc d (List.mem_cons_of_mem _ hd))
        (fun d hd => hb d (List.mem_cons_of_mem _ hd))
        (fun v hv => hS v (List.mem_append_right _ hv)) (fun p hp => hL p (List.mem_cons_of_mem _ hp))
      refine ⟨(ps ++ [tb]) :: us, by simp, .cons hu hr2, ?_⟩
      cases us with
      | nil => exact absurd rfl hr1
      | cons u us =>
        rw [writeSum]
        simp only [inOrder, hw, Option.bind_eq_bind, Option.bind_some, put]
        rw [hr3]
        simp [joined]

theorem comps_meaning (hP : PlainNumbers F S) (hE : Exact F S number) {ρ : Env} :
    ∀ {us : List (List Text)} {L L' : List (ℝ × TBlade)}, List.Forall₂ (CompText F names ρ S) us L →
      List.Forall₂ (CompText F names ρ S) us L' → (L.map fun p => (p.1, p.2.bits)) = L'.map fun p => (p.1, p.2.bits)
  | [], _, _, .nil, .nil => rfl
  | u :: us, l :: L, l' :: L', .cons h1 h2, .cons h3 h4 => by
    obtain ⟨ps, s, rfl, hc, hb⟩ := h1
    obtain ⟨ps', s', he, hc', hb'⟩ := h3
    obtain ⟨e1, e2⟩ := List.append_inj' he rfl
    simp only [List.cons.injEq, and_true] at e2
    subst e2
    rw [List.map_cons, List.map_cons, hc.unique hP hE hc' e1, hb.unique hP hE hb', comps_meaning hP hE h2 h4]

/-- **The text of a multivector determines its components.** -/
theorem write_determines (hP : PlainNumbers F S) (hE : Exact F S number) (g : GoodNames names) (hn : names.length ≤ 63)
    (hpn : PlainNames names) {ρ : Env} {M N : Object} {L L' : List (ℝ × TBlade)}
    (h : ReadsEach ρ M.expr M.values M.bitsets L) (h' : ReadsEach ρ N.expr N.values N.bitsets L')
    (h0 : M.expr ≠ []) (h0' : N.expr ≠ []) (hc : ∀ c ∈ M.expr, c.coef = .stored ∨ SumForm c.coef)
    (hc' : ∀ c ∈ N.expr, c.coef = .stored ∨ SumForm c.coef)
    (hb : ∀ c ∈ M.expr, ∀ G e, c.blade = .dyn G e → e = .storedBits ∨ FactorForm e)
    (hb' : ∀ c ∈ N.expr, ∀ G e, c.blade = .dyn G e → e = .storedBits ∨ FactorForm e)
    (hS : ∀ v ∈ M.values, v ∈ S) (hS' : ∀ v ∈ N.values, v ∈ S)
    (hL : ∀ p ∈ L, ∀ i ∈ vecs p.2.bits, i.val < names.length) (hL' : ∀ p ∈ L', ∀ i ∈ vecs p.2.bits, i.val < names.length) :
    (∃ t, write F names M = some t) ∧
    (write F names M = write F names N → (L.map fun p => (p.1, p.2.bits)) = L'.map fun p => (p.1, p.2.bits)) := by
  obtain ⟨us, n, f, w⟩ := sum_text (F := F) hP hE g hn hpn h h0 hc hb hS hL
  obtain ⟨us', n', f', w'⟩ := sum_text (F := F) hP hE g hn hpn h' h0' hc' hb' hS' hL'
  refine ⟨⟨_, by rw [write, w]; rfl⟩, fun he => ?_⟩
  have pieces : ∀ {us : List (List Text)} {L : List (ℝ × TBlade)}, List.Forall₂ (CompText F names ρ S) us L →
      ∀ u ∈ us, u ≠ [] ∧ ∀ t ∈ u, Piece F names t := by
    intro us L f u hu
    have := forall₂_piece f.flip hu
    obtain ⟨l, -, ps, s, rfl, hc, hb⟩ := this
    refine ⟨by simp, fun t ht => ?_⟩
    rcases List.mem_append.1 ht with ht | ht
    · exact (hc.pieces hP hE).2 t ht
    · rw [List.mem_singleton.1 ht]
      exact hb.piece
  rw [write, write, w, w', Option.map_some, Option.map_some, Option.some.injEq] at he
  obtain rfl := comps_eq hP hE (pieces f) (pieces f') n n' he
  exact comps_meaning hP hE f f'

end GATL
