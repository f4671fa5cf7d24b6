import Verif.Proofs.Write

/-!
# The text of coefficients

The text of an expression in the form of a sum of products determines it.
-/

namespace GATL

open Expr Spec

variable {F : Format} {names : List Text}

/-- The text of an expression without stored entries. -/
def Txt (F : Format) (names : List Text) (e : Expr) (t : Text) : Prop :=
  ∀ vs ws, writeExpr F names e vs ws = some (t, vs, ws)

theorem Txt.unique {e : Expr} {t t' : Text} (h : Txt F names e t) (h' : Txt F names e t') : t = t' := by
  have := (h [] []).symm.trans (h' [] [])
  simpa using this

/-- What is written before, between and after the arguments. -/
def shape : Name → List Text
  | .reorderingSign => ["reordering_sign(".toList, ", ".toList, ")".toList]
  | .countOneBits => ["count_one_bits(".toList, ")".toList]
  | .leftShift => ["(".toList, " LSHIFTb ".toList, ")".toList]
  | .dec => ["(".toList, " - <1>)".toList]
  | .band => ["(".toList, " ANDb ".toList, ")".toList]
  | .bor => ["(".toList, " ORb ".toList, ")".toList]
  | .bxor => ["(".toList, " XORb ".toList, ")".toList]
  | .equal => ["(".toList, " == ".toList, ")".toList]
  | .lessOrEqual => ["(".toList, " <= ".toList, ")".toList]
  | .logicalAnd => ["(".toList, " AND ".toList, ")".toList]
  | .logicalOr => ["(".toList, " OR ".toList, ")".toList]
  | .ifElse => ["(".toList, " ? ".toList, " : ".toList, ")".toList]
  | .power => ["pow(".toList, ", ".toList, ")".toList]
  | .absolute => ["abs(".toList, ")".toList]
  | .exponential => ["exp(".toList, ")".toList]
  | .logarithm => ["log(".toList, ")".toList]
  | .cosine => ["cos(".toList, ")".toList]
  | .sine => ["sin(".toList, ")".toList]
  | .tangent => ["tan(".toList, ")".toList]
  | .hcosine => ["cosh(".toList, ")".toList]
  | .hsine => ["sinh(".toList, ")".toList]
  | .htangent => ["tanh(".toList, ")".toList]
  | _ => []

/-- Pieces and arguments in turn. -/
def weave : List Text → List Text → Text
  | s :: ss, t :: ts => s ++ (t ++ weave ss ts)
  | [s], [] => s
  | _, _ => []

/-- Texts with a separator between them. -/
def joined (sep : Text) : List Text → Text
  | [] => []
  | [t] => t
  | t :: ts => t ++ (sep ++ joined sep ts)

theorem joined_cons (sep t u : Text) (ts : List Text) :
    joined sep (t :: u :: ts) = t ++ (sep ++ joined sep (u :: ts)) := rfl

theorem txt_const (v : Int) : Txt F names (.const v) ('<' :: (F.int v ++ ['>'])) := by
  intro vs ws; simp [writeExpr]

theorem txt_value (t i : Nat) : Txt F names (.value t i)
    ("{Tag: ".toList ++ (F.nat t ++ (", ValueIndex: ".toList ++ (F.nat i ++ "}".toList)))) := by
  intro vs ws; simp [writeExpr, inOrder, put, putNat]

theorem txt_bitset (t i : Nat) : Txt F names (.bitset t i)
    ("{Tag: ".toList ++ (F.nat t ++ (", BitsetIndex: ".toList ++ (F.nat i ++ "}".toList)))) := by
  intro vs ws; simp [writeExpr, inOrder, put, putNat]

theorem txt_fn {name : Name} {args : List Expr} {ts : List Text} (hn : arity name ≠ 0)
    (hl : args.length = arity name) (h : List.Forall₂ (Txt F names) args ts) :
    Txt F names (.fn name args) (weave (shape name) ts) := by
  intro vs ws
  cases name <;> simp only [arity, ne_eq, not_true_eq_false] at hn hl <;>
  first
  | (obtain ⟨a, rfl⟩ := List.length_eq_one_iff.1 hl
     cases h with
     | cons h1 h2 =>
       cases h2
       simp [writeExpr, writeArgs, writeFn, functionWord, inOrder, put, h1 _ _, shape, weave])
  | (obtain ⟨a, b, rfl⟩ := List.length_eq_two.1 hl
     cases h with
     | cons h1 h2 =>
       cases h2 with
       | cons h2 h3 =>
         cases h3
         simp [writeExpr, writeArgs, writeFn, infixWord, inOrder, put, h1 _ _, h2 _ _, shape, weave])
  | (obtain ⟨a, b, c, rfl⟩ := List.length_eq_three.1 hl
     cases h with
     | cons h1 h2 =>
       cases h2 with
       | cons h2 h3 =>
         cases h3 with
         | cons h3 h4 =>
           cases h4
           simp [writeExpr, writeArgs, writeFn, inOrder, put, h1 _ _, h2 _ _, h3 _ _, shape, weave])

theorem txt_list (sep : String) : ∀ {args : List Expr} {ts : List Text}, 2 ≤ args.length →
    List.Forall₂ (Txt F names) args ts → ∀ vs ws,
      writeList sep (writeArgs F names args) vs ws = some (joined sep.toList ts, vs, ws)
  | [], _, hl, _ => by simp at hl
  | [_], _, hl, _ => by simp at hl
  | [a, b], _, _, .cons h1 (.cons h2 .nil) => by
    intro vs ws
    simp [writeArgs, writeList, inOrder, put, h1 _ _, h2 _ _, joined]
  | a :: b :: c :: as, _, _, .cons h1 (.cons h2 (.cons h3 h4)) => by
    intro vs ws
    have ih := txt_list sep (args := b :: c :: as) (by simp) (.cons h2 (.cons h3 h4)) vs ws
    rw [writeArgs, writeArgs] at ih
    simp only [writeArgs, writeList, inOrder, h1 _ _, Option.bind_eq_bind, Option.bind_some, put]
    simp [ih, joined]

theorem txt_mul {args : List Expr} {ts : List Text} (hl : 2 ≤ args.length) (h : List.Forall₂ (Txt F names) args ts) :
    Txt F names (.fn .mul args) (joined " * ".toList ts) := by
  intro vs ws
  rw [writeExpr, writeFn]
  exact txt_list _ hl h vs ws

theorem txt_add {args : List Expr} {ts : List Text} (hl : 2 ≤ args.length) (h : List.Forall₂ (Txt F names) args ts) :
    Txt F names (.fn .add args) (joined " + ".toList ts) := by
  intro vs ws
  rw [writeExpr, writeFn]
  exact txt_list _ hl h vs ws

theorem forall₂_of {α β : Type*} {R : α → β → Prop} : ∀ {l : List α}, (∀ a ∈ l, ∃ b, R a b) → ∃ l', List.Forall₂ R l l'
  | [], _ => ⟨[], .nil⟩
  | a :: l, h => by
    obtain ⟨b, hb⟩ := h a (by simp)
    obtain ⟨l', hl⟩ := forall₂_of (l := l) (fun x hx => h x (List.mem_cons_of_mem _ hx))
    exact ⟨b :: l', .cons hb hl⟩

theorem size_mem {a : Expr} : ∀ {l : List Expr}, a ∈ l → size a < sizeList l
  | b :: l, h => by
    rw [sizeList]
    rcases List.mem_cons.1 h with rfl | h
    · omega
    · have := size_mem h
      omega

/-- Expressions in the form of sums of products can be written. -/
theorem txt_exists (F : Format) (names : List Text) : ∀ (n : Nat) (e : Expr), size e ≤ n →
    (FactorForm e → ∃ t, Txt F names e t) ∧ (ProductForm e → ∃ t, Txt F names e t) ∧ (SumForm e → ∃ t, Txt F names e t) := by
  intro n
  induction n with
  | zero => intro e he; cases e <;> simp [size] at he
  | succ n ih =>
    intro e he
    have hf : FactorForm e → ∃ t, Txt F names e t := by
      rintro (⟨v⟩ | ⟨t, i⟩ | ⟨t, i⟩ | ⟨name, args, hn, hl, ha⟩)
      · exact ⟨_, txt_const v⟩
      · exact ⟨_, txt_value t i⟩
      · exact ⟨_, txt_bitset t i⟩
      · rw [size] at he
        obtain ⟨ts, hts⟩ := forall₂_of (R := Txt F names) (l := args)
          (fun a h => (ih a (by have := size_mem h; omega)).2.2 (ha a h))
        exact ⟨_, txt_fn hn hl hts⟩
    have hp : ProductForm e → ∃ t, Txt F names e t := by
      rintro (⟨_, h⟩ | ⟨args, hl, ha⟩)
      · exact hf h
      · rw [size] at he
        obtain ⟨ts, hts⟩ := forall₂_of (R := Txt F names) (l := args)
          (fun a h => (ih a (by have := size_mem h; omega)).1 (ha a h))
        exact ⟨_, txt_mul hl hts⟩
    refine ⟨hf, hp, ?_⟩
    rintro (⟨_, h⟩ | ⟨args, hl, ha⟩)
    · exact hp h
    · rw [size] at he
      obtain ⟨ts, hts⟩ := forall₂_of (R := Txt F names) (l := args)
        (fun a h => (ih a (by have := size_mem h; omega)).2.1 (ha a h))
      exact ⟨_, txt_add hl hts⟩

/-- The rest of a text does not start with the separator. -/
def Ends (sep r : Text) : Prop := ¬ sep <+: r

theorem until_eq {c : Char} : ∀ {a b r r' : Text}, c ∉ a → c ∉ b → a ++ c :: r = b ++ c :: r' → a = b ∧ r = r'
  | [], [], _, _, _, _, h => ⟨rfl, by simpa using h⟩
  | [], x :: b, _, _, _, hb, h => by
    simp only [List.nil_append, List.cons_append, List.cons.injEq] at h
    exact absurd h.1 (fun e => hb (by simp [e]))
  | x :: a, [], _, _, ha, _, h => by
    simp only [List.nil_append, List.cons_append, List.cons.injEq] at h
    exact absurd h.1.symm (fun e => ha (by simp [e]))
  | x :: a, y :: b, _, _, ha, hb, h => by
    simp only [List.cons_append, List.cons.injEq] at h
    rw [List.mem_cons, not_or] at ha hb
    obtain ⟨h1, h2⟩ := until_eq ha.2 hb.2 h.2
    exact ⟨by rw [h.1, h1], h2⟩

theorem prefix_cases {a b r r' : Text} (h : a ++ r = b ++ r') : a <+: b ∨ b <+: a :=
  List.prefix_or_prefix_of_prefix (List.prefix_append a r) (h ▸ List.prefix_append b r')

/-- An expression can be recovered from the beginning of a text, if the rest is in `G`. -/
def Recovered (F : Format) (names : List Text) (A : Expr → Prop) (G : Text → Prop) (e : Expr) : Prop :=
  ∀ e' t t' r r', A e' → Txt F names e t → Txt F names e' t' → G r → G r' → t ++ r = t' ++ r' → e = e' ∧ r = r'

theorem joined_inj {A : Expr → Prop} {G : Text → Prop} {sep : Text} (hG : ∀ x, G (sep ++ x)) :
    ∀ {as as' : List Expr} {ts ts' : List Text} {r r' : Text}, (∀ a ∈ as, Recovered F names A G a) → (∀ a ∈ as', A a) →
      as ≠ [] → as' ≠ [] → List.Forall₂ (Txt F names) as ts → List.Forall₂ (Txt F names) as' ts' → G r → G r' →
      Ends sep r → Ends sep r' → joined sep ts ++ r = joined sep ts' ++ r' → as = as' ∧ r = r'
  | [], _, _, _, _, _, _, _, h, _, _, _, _, _, _, _, _ => absurd rfl h
  | _, [], _, _, _, _, _, _, _, h, _, _, _, _, _, _, _ => absurd rfl h
  | [a], [b], _, _, r, r', hc, hA, _, _, .cons h1 .nil, .cons h2 .nil, g, g', _, _, h => by
    obtain ⟨h3, h4⟩ := hc a (by simp) b _ _ r r' (hA b (by simp)) h1 h2 g g' h
    exact ⟨by rw [h3], h4⟩
  | [a], b :: b' :: bs, _, _, r, r', hc, hA, _, _, .cons h1 .nil, .cons h2 (.cons h3 h4), g, g', e, _, h => by
    rw [joined_cons, List.append_assoc, List.append_assoc] at h
    obtain ⟨-, h5⟩ := hc a (by simp) b _ _ r _ (hA b (by simp)) h1 h2 g (hG _) h
    exact absurd ⟨_, h5.symm⟩ e
  | a :: a' :: as, [b], _, _, r, r', hc, hA, _, _, .cons h1 (.cons h3 h4), .cons h2 .nil, g, g', _, e, h => by
    rw [joined_cons, List.append_assoc, List.append_assoc] at h
    obtain ⟨-, h5⟩ := hc a (by simp) b _ _ _ r' (hA b (by simp)) h1 h2 (hG _) g' h
    exact absurd ⟨_, h5⟩ e
  | a :: a' :: as, b :: b' :: bs, _, _, r, r', hc, hA, _, _, .cons h1 (.cons h3 h4), .cons h2 (.cons h5 h6), g, g', e, e', h => by
    rw [joined_cons, joined_cons, List.append_assoc, List.append_assoc, List.append_assoc, List.append_assoc] at h
    obtain ⟨h7, h8⟩ := hc a (by simp) b _ _ _ _ (hA b (by simp)) h1 h2 (hG _) (hG _) h
    obtain ⟨h9, h10⟩ := joined_inj hG (as := a' :: as) (as' := b' :: bs)
      (fun x hx => hc x (List.mem_cons_of_mem _ hx)) (fun x hx => hA x (List.mem_cons_of_mem _ hx)) (by simp) (by simp)
      (.cons h3 h4) (.cons h5 h6) g g' e e' (List.append_cancel_left h8)
    exact ⟨by rw [h7, h9], h10⟩

/-- A rest that continues neither a product nor a sum. -/
def Closed (r : Text) : Prop := Ends " * ".toList r ∧ Ends " + ".toList r

theorem weave_start (s : Text) {ss ts : List Text} (h : ts.length = ss.length) : ∃ x, weave (s :: ss) ts = s ++ x := by
  cases ts with
  | nil =>
    have : ss = [] := List.length_eq_zero_iff.1 (by simpa using h.symm)
    subst this
    exact ⟨[], by simp [weave]⟩
  | cons t ts => exact ⟨_, by rw [weave]⟩

theorem weave_inj : ∀ {ss : List Text} {as as' : List Expr} {ts ts' : List Text} {r r' : Text},
    (∀ s ∈ ss, ∀ x, Closed (s ++ x)) → (∀ a ∈ as, Recovered F names SumForm Closed a) → (∀ a ∈ as', SumForm a) →
      ss.length = as.length → as'.length = as.length → List.Forall₂ (Txt F names) as ts →
      List.Forall₂ (Txt F names) as' ts' → ∀ s₀, weave (s₀ :: ss) ts ++ r = weave (s₀ :: ss) ts' ++ r' → as = as' ∧ r = r'
  | ss, [], [], _, _, r, r', _, _, _, hs, _, .nil, .nil, s₀, h => by
    rw [List.length_eq_zero_iff.1 hs] at h
    simpa [weave] using h
  | ss, [], _ :: _, _, _, _, _, _, _, _, _, hl, _, _, _, _ => by simp at hl
  | ss, _ :: _, [], _, _, _, _, _, _, _, _, hl, _, _, _, _ => by simp at hl
  | [], _ :: _, _, _, _, _, _, _, _, _, hs, _, _, _, _, _ => by simp at hs
  | s :: ss, a :: as, b :: bs, _, _, r, r', hc, ha, hA, hs, hl, .cons (b := t) (l₂ := ts) h1 h2, .cons (b := t') (l₂ := ts') h3 h4, s₀, h => by
    rw [weave, weave, List.append_assoc, List.append_assoc, List.append_assoc, List.append_assoc] at h
    have h := List.append_cancel_left h
    have e1 : ts.length = ss.length := by have := h2.length_eq; simp at hs; omega
    have e2 : ts'.length = ss.length := by have := h4.length_eq; simp at hs hl; omega
    have c1 : Closed (weave (s :: ss) ts ++ r) := by
      obtain ⟨x, hx⟩ := weave_start s e1
      rw [hx, List.append_assoc]
      exact hc s (by simp) _
    have c2 : Closed (weave (s :: ss) ts' ++ r') := by
      obtain ⟨x, hx⟩ := weave_start s e2
      rw [hx, List.append_assoc]
      exact hc s (by simp) _
    obtain ⟨h5, h6⟩ := ha a (by simp) b _ _ _ _ (hA b (by simp)) h1 h3 c1 c2 h
    obtain ⟨h7, h8⟩ := weave_inj (fun s hs => hc s (List.mem_cons_of_mem _ hs)) (fun a h => ha a (List.mem_cons_of_mem _ h))
      (fun a h => hA a (List.mem_cons_of_mem _ h)) (by simpa using hs) (by simpa using hl) h2 h4 s h6
    exact ⟨by rw [h5, h7], h8⟩

/-- The first two pieces of a function. -/
theorem shape_facts {n : Name} (hn : arity n ≠ 0) : ∃ h s ss, shape n = h :: s :: ss ∧ (s :: ss).length = arity n ∧
    (∃ c x, h = c :: x ∧ c ∉ ['<', '{', '-']) := by
  cases n <;> first | (exact absurd rfl hn) | exact ⟨_, _, _, rfl, rfl, _, _, rfl, by decide⟩

theorem closed_piece {n : Name} {s : Text} (h : s ∈ (shape n).tail) (x : Text) : Closed (s ++ x) := by
  have : ∀ s ∈ (shape n).tail, s.head? = some ')' ∨ s.head? = some ',' ∨
      ∃ d y, s = ' ' :: d :: y ∧ d ≠ '*' ∧ d ≠ '+' := by
    cases n <;> simp [shape]
  rcases this s h with h | h | ⟨d, y, rfl, h1, h2⟩
  · cases s with
    | nil => simp at h
    | cons c s =>
      simp only [List.head?_cons, Option.some.injEq] at h
      subst h
      constructor <;> simp [Ends]
  · cases s with
    | nil => simp at h
    | cons c s =>
      simp only [List.head?_cons, Option.some.injEq] at h
      subst h
      constructor <;> simp [Ends]
  · constructor <;> simp [Ends, Ne.symm h1, Ne.symm h2]

/-- All functions that are written with parentheses. -/
def parenNames : List Name := [.reorderingSign, .countOneBits, .leftShift, .dec, .band, .bor, .bxor, .equal, .lessOrEqual, .logicalAnd, .logicalOr, .ifElse, .power, .absolute, .exponential,
  .logarithm, .cosine, .sine, .tangent, .hcosine, .hsine, .htangent]

theorem mem_parenNames {n : Name} (hn : arity n ≠ 0) : n ∈ parenNames := by
  cases n <;> first | (exact absurd rfl hn) | decide

theorem shape_heads : ∀ n ∈ parenNames, ∀ n' ∈ parenNames,
    ((shape n).head? = (shape n').head? ∨ ¬ ((shape n).headD []).isPrefixOf ((shape n').headD []) = true) ∧
    (n ≠ n' → (shape n).head? = (shape n').head? →
      ¬ (((shape n).tail.headD []).isPrefixOf ((shape n').tail.headD []) = true)) := by
  decide +kernel

/-- What the text of a function starts with. -/
theorem fn_start {name : Name} {args : List Expr} {t : Text} (hn : arity name ≠ 0) (hl : args.length = arity name)
    {ts : List Text} (hts : List.Forall₂ (Txt F names) args ts) (ht : Txt F names (.fn name args) t) :
    ∃ c x, t = c :: x ∧ c ∉ ['<', '{', '-'] := by
  obtain ⟨h, s, ss, e1, e2, c, x, rfl, hc⟩ := shape_facts hn
  rw [ht.unique (txt_fn hn hl hts), e1]
  obtain ⟨y, hy⟩ := weave_start (ss := s :: ss) (ts := ts) (c :: x) (by rw [← hts.length_eq, hl, e2])
  exact ⟨c, _, by rw [hy]; rfl, hc⟩

/-- Two functions that are written in the same way. -/
theorem fn_names {n n' : Name} (hn : arity n ≠ 0) (hn' : arity n' ≠ 0) {as as' : List Expr} (hl : as.length = arity n)
    (hl' : as'.length = arity n') {ts ts' : List Text} (hts : List.Forall₂ (Txt F names) as ts)
    (hts' : List.Forall₂ (Txt F names) as' ts') (hr : ∀ a ∈ as, Recovered F names SumForm Closed a)
    (hf : ∀ a ∈ as', SumForm a) {r r' : Text} (h : weave (shape n) ts ++ r = weave (shape n') ts' ++ r') : n = n' := by
  obtain ⟨f1, f2⟩ := shape_heads n (mem_parenNames hn) n' (mem_parenNames hn')
  obtain ⟨f3, f4⟩ := shape_heads n' (mem_parenNames hn') n (mem_parenNames hn)
  obtain ⟨p, s, ss, e1, e2, -⟩ := shape_facts hn
  obtain ⟨p', s', ss', e1', e2', -⟩ := shape_facts hn'
  have c1 : ∀ q ∈ s :: ss, ∀ x, Closed (q ++ x) := fun q hq x => closed_piece (n := n) (by rw [e1]; exact hq) x
  have c2 : ∀ q ∈ s' :: ss', ∀ x, Closed (q ++ x) := fun q hq x => closed_piece (n := n') (by rw [e1']; exact hq) x
  rw [e1, e1'] at h f1 f2 f3 f4
  simp only [List.head?_cons, Option.some.injEq, List.headD_cons, List.tail_cons, List.isPrefixOf_iff_prefix] at f1 f2 f3 f4
  match as, ts, as', ts', hts, hts' with
  | [], _, _, _, .nil, _ => exact absurd hl.symm hn
  | _, _, [], _, _, .nil => exact absurd hl'.symm hn'
  | a :: as, t :: ts, b :: bs, t' :: ts', .cons h1 h2, .cons h3 h4 =>
    rw [weave, weave, List.append_assoc, List.append_assoc, List.append_assoc, List.append_assoc] at h
    have hp : p = p' := by
      rcases f1 with f1 | f1
      · exact f1
      · rcases f3 with f3 | f3
        · exact f3.symm
        · rcases prefix_cases h with h | h
          · exact absurd h f1
          · exact absurd h f3
    subst hp
    have h := List.append_cancel_left h
    obtain ⟨x, hx⟩ := weave_start (ss := ss) (ts := ts) s (by have := h2.length_eq; simp at hl e2; omega)
    obtain ⟨x', hx'⟩ := weave_start (ss := ss') (ts := ts') s' (by have := h4.length_eq; simp at hl' e2'; omega)
    rw [hx, hx', List.append_assoc, List.append_assoc] at h
    obtain ⟨-, h5⟩ := hr a (by simp) b _ _ _ _ (hf b (by simp)) h1 h3 (c1 s (by simp) _) (c2 s' (by simp) _) h
    by_contra hne
    rcases prefix_cases h5 with h | h
    · exact f2 hne rfl h
    · exact f4 (Ne.symm hne) rfl h

theorem entry_inj {S : Set ℝ} (hP : PlainNumbers F S) (w : String) {g g' i i' : Nat} {r r' : Text}
    (h : "{Tag: ".toList ++ (F.nat g ++ (',' :: w.toList ++ (F.nat i ++ "}".toList))) ++ r
      = "{Tag: ".toList ++ (F.nat g' ++ (',' :: w.toList ++ (F.nat i' ++ "}".toList))) ++ r') : g = g' ∧ i = i' ∧ r = r' := by
  simp only [List.append_assoc] at h
  obtain ⟨h1, h2⟩ := until_eq (hP.nat.2 g).1 (hP.nat.2 g').1 (List.append_cancel_left h)
  obtain ⟨h3, h4⟩ := until_eq (hP.nat.2 i).2 (hP.nat.2 i').2 (List.append_cancel_left h2)
  exact ⟨hP.nat.1 h1, hP.nat.1 h3, h4⟩

theorem entry_ne {S : Set ℝ} (hP : PlainNumbers F S) {g g' i i' : Nat} {r r' : Text} :
    ¬ "{Tag: ".toList ++ (F.nat g ++ (", ValueIndex: ".toList ++ (F.nat i ++ "}".toList))) ++ r
      = "{Tag: ".toList ++ (F.nat g' ++ (", BitsetIndex: ".toList ++ (F.nat i' ++ "}".toList))) ++ r' := by
  intro h
  simp only [List.append_assoc] at h
  obtain ⟨h1, h2⟩ := until_eq (hP.nat.2 g).1 (hP.nat.2 g').1 (List.append_cancel_left h)
  have h2 : ' ' :: 'V' :: _ = ' ' :: 'B' :: _ := h2
  simp at h2

/-- **Recovering an expression from its text.** -/
theorem recovered {S : Set ℝ} (hP : PlainNumbers F S) {number : Text → Option ℝ} (hE : Exact F S number) :
    ∀ (n : Nat) (e : Expr), size e ≤ n →
      (FactorForm e → Recovered F names FactorForm (fun _ => True) e) ∧
      (ProductForm e → Recovered F names ProductForm (Ends " * ".toList) e) ∧
      (SumForm e → Recovered F names SumForm Closed e) := by
  intro n
  induction n with
  | zero => intro e he; cases e <;> simp [size] at he
  | succ n ih =>
    intro e he
    have texts : ∀ {A : Expr → Prop} (args : List Expr), (∀ a, A a → SumForm a) → (∀ a ∈ args, A a) →
        ∃ ts, List.Forall₂ (Txt F names) args ts := fun args hA h =>
      forall₂_of (fun a ha => (txt_exists F names (size a) a le_rfl).2.2 (hA a (h a ha)))
    have hf : FactorForm e → Recovered F names FactorForm (fun _ => True) e := by
      intro h e' t t' r r' h' ht ht' _ _ heq
      have start : ∀ {g i : Nat} {w : Text}, ∃ x, "{Tag: ".toList ++ (F.nat g ++ (w ++ (F.nat i ++ "}".toList))) = '{' :: x :=
        fun {_ _ _} => ⟨_, rfl⟩
      rcases h with ⟨v⟩ | ⟨g, i⟩ | ⟨g, i⟩ | ⟨name, args, hn, hl, ha⟩ <;>
        rcases h' with ⟨v'⟩ | ⟨g', i'⟩ | ⟨g', i'⟩ | ⟨name', args', hn', hl', ha'⟩
      · rw [ht.unique (txt_const v), ht'.unique (txt_const v')] at heq
        simp only [List.cons_append, List.append_assoc, List.cons.injEq, true_and, List.nil_append] at heq
        obtain ⟨h1, h2⟩ := until_eq (hP.int v) (hP.int v') heq
        have := (hE.int v).1
        rw [h1, (hE.int v').1, Option.some.injEq, Int.cast_inj] at this
        exact ⟨by rw [this], h2⟩
      · rw [ht.unique (txt_const v), ht'.unique (txt_value g' i')] at heq
        simp at heq
      · rw [ht.unique (txt_const v), ht'.unique (txt_bitset g' i')] at heq
        simp at heq
      · obtain ⟨ts', hts'⟩ := texts args' (fun _ => id) ha'
        obtain ⟨c, x, rfl, hc⟩ := fn_start hn' hl' hts' ht'
        rw [ht.unique (txt_const v)] at heq
        simp only [List.cons_append, List.cons.injEq] at heq
        exact absurd (by simp [← heq.1]) hc
      · rw [ht.unique (txt_value g i), ht'.unique (txt_const v')] at heq
        simp at heq
      · rw [ht.unique (txt_value g i), ht'.unique (txt_value g' i')] at heq
        obtain ⟨h1, h2, h3⟩ := entry_inj hP " ValueIndex: " heq
        exact ⟨by rw [h1, h2], h3⟩
      · rw [ht.unique (txt_value g i), ht'.unique (txt_bitset g' i')] at heq
        exact absurd heq (entry_ne hP)
      · obtain ⟨ts', hts'⟩ := texts args' (fun _ => id) ha'
        obtain ⟨c, x, rfl, hc⟩ := fn_start hn' hl' hts' ht'
        obtain ⟨y, hy⟩ := @start g i ", ValueIndex: ".toList
        rw [ht.unique (txt_value g i), hy] at heq
        simp only [List.cons_append, List.cons.injEq] at heq
        exact absurd (by simp [← heq.1]) hc
      · rw [ht.unique (txt_bitset g i), ht'.unique (txt_const v')] at heq
        simp at heq
      · rw [ht.unique (txt_bitset g i), ht'.unique (txt_value g' i')] at heq
        exact absurd heq.symm (entry_ne hP)
      · rw [ht.unique (txt_bitset g i), ht'.unique (txt_bitset g' i')] at heq
        obtain ⟨h1, h2, h3⟩ := entry_inj hP " BitsetIndex: " heq
        exact ⟨by rw [h1, h2], h3⟩
      · obtain ⟨ts', hts'⟩ := texts args' (fun _ => id) ha'
        obtain ⟨c, x, rfl, hc⟩ := fn_start hn' hl' hts' ht'
        obtain ⟨y, hy⟩ := @start g i ", BitsetIndex: ".toList
        rw [ht.unique (txt_bitset g i), hy] at heq
        simp only [List.cons_append, List.cons.injEq] at heq
        exact absurd (by simp [← heq.1]) hc
      · obtain ⟨ts, hts⟩ := texts args (fun _ => id) ha
        obtain ⟨c, x, rfl, hc⟩ := fn_start hn hl hts ht
        rw [ht'.unique (txt_const v')] at heq
        simp only [List.cons_append, List.cons.injEq] at heq
        exact absurd (by simp [heq.1]) hc
      · obtain ⟨ts, hts⟩ := texts args (fun _ => id) ha
        obtain ⟨c, x, rfl, hc⟩ := fn_start hn hl hts ht
        obtain ⟨y, hy⟩ := @start g' i' ", ValueIndex: ".toList
        rw [ht'.unique (txt_value g' i'), hy] at heq
        simp only [List.cons_append, List.cons.injEq] at heq
        exact absurd (by simp [heq.1]) hc
      · obtain ⟨ts, hts⟩ := texts args (fun _ => id) ha
        obtain ⟨c, x, rfl, hc⟩ := fn_start hn hl hts ht
        obtain ⟨y, hy⟩ := @start g' i' ", BitsetIndex: ".toList
        rw [ht'.unique (txt_bitset g' i'), hy] at heq
        simp only [List.cons_append, List.cons.injEq] at heq
        exact absurd (by simp [heq.1]) hc
      · obtain ⟨ts, hts⟩ := texts args (fun _ => id) ha
        obtain ⟨ts', hts'⟩ := texts args' (fun _ => id) ha'
        rw [size] at he
        have hr : ∀ a ∈ args, Recovered F names SumForm Closed a :=
          fun a h => (ih a (by have := size_mem h; omega)).2.2 (ha a h)
        rw [ht.unique (txt_fn hn hl hts), ht'.unique (txt_fn hn' hl' hts')] at heq
        obtain rfl := fn_names hn hn' hl hl' hts hts' hr ha' heq
        obtain ⟨p, s, ss, e1, e2, -⟩ := shape_facts hn
        rw [e1] at heq
        obtain ⟨h1, h2⟩ := weave_inj (fun q hq x => closed_piece (n := name) (by rw [e1]; exact hq) x) hr ha'
          (by rw [e2, hl]) (by rw [hl, hl']) hts hts' p heq
        exact ⟨by rw [h1], h2⟩
    have hp : ProductForm e → Recovered F names ProductForm (Ends " * ".toList) e := by
      intro h e' t t' r r' h' ht ht' g g' heq
      have key : ∀ as as' : List Expr, as ≠ [] → as' ≠ [] → (∀ a ∈ as, Recovered F names FactorForm (fun _ => True) a) →
          (∀ a ∈ as', FactorForm a) → ∀ ts ts', List.Forall₂ (Txt F names) as ts → List.Forall₂ (Txt F names) as' ts' →
          joined " * ".toList ts ++ r = joined " * ".toList ts' ++ r' → as = as' ∧ r = r' :=
        fun as as' n1 n2 h1 h2 ts ts' h3 h4 h5 =>
          joined_inj (fun _ => trivial) h1 h2 n1 n2 h3 h4 trivial trivial g g' h5
      have ne : ∀ {as : List Expr}, 2 ≤ as.length → as ≠ [] := by rintro _ h rfl; simp at h
      rcases h with ⟨_, h⟩ | ⟨args, hl, ha⟩ <;> rcases h' with ⟨_, h'⟩ | ⟨args', hl', ha'⟩
      · exact hf h e' t t' r r' h' ht ht' trivial trivial heq
      · obtain ⟨ts', hts'⟩ := texts args' (fun _ h => .one _ (.one _ h)) ha'
        rw [ht'.unique (txt_mul hl' hts')] at heq
        obtain ⟨h1, -⟩ := key [e] args' (by simp) (ne hl') (by simpa using hf h) ha' [t] ts' (.cons ht .nil) hts' heq
        rw [← h1] at hl'
        simp at hl'
      · obtain ⟨ts, hts⟩ := texts args (fun _ h => .one _ (.one _ h)) ha
        rw [size] at he
        rw [ht.unique (txt_mul hl hts)] at heq
        obtain ⟨h1, -⟩ := key args [e'] (ne hl) (by simp) (fun a h => (ih a (by have := size_mem h; omega)).1 (ha a h))
          (by simpa using h') ts [t'] hts (.cons ht' .nil) heq
        rw [h1] at hl
        simp at hl
      · obtain ⟨ts, hts⟩ := texts args (fun _ h => .one _ (.one _ h)) ha
        obtain ⟨ts', hts'⟩ := texts args' (fun _ h => .one _ (.one _ h)) ha'
        rw [size] at he
        rw [ht.unique (txt_mul hl hts), ht'.unique (txt_mul hl' hts')] at heq
        obtain ⟨h1, h2⟩ := key args args' (ne hl) (ne hl') (fun a h => (ih a (by have := size_mem h; omega)).1 (ha a h))
          ha' ts ts' hts hts' heq
        exact ⟨by rw [h1], h2⟩
    refine ⟨hf, hp, ?_⟩
    intro h e' t t' r r' h' ht ht' g g' heq
    have key : ∀ as as' : List Expr, as ≠ [] → as' ≠ [] → (∀ a ∈ as, Recovered F names ProductForm (Ends " * ".toList) a) →
        (∀ a ∈ as', ProductForm a) → ∀ ts ts', List.Forall₂ (Txt F names) as ts → List.Forall₂ (Txt F names) as' ts' →
        joined " + ".toList ts ++ r = joined " + ".toList ts' ++ r' → as = as' ∧ r = r' :=
      fun as as' n1 n2 h1 h2 ts ts' h3 h4 h5 =>
        joined_inj (fun x => by simp [Ends]) h1 h2 n1 n2 h3 h4 g.1 g'.1 g.2 g'.2 h5
    have ne : ∀ {as : List Expr}, 2 ≤ as.length → as ≠ [] := by rintro _ h rfl; simp at h
    rcases h with ⟨_, h⟩ | ⟨args, hl, ha⟩ <;> rcases h' with ⟨_, h'⟩ | ⟨args', hl', ha'⟩
    · exact hp h e' t t' r r' h' ht ht' g.1 g'.1 heq
    · obtain ⟨ts', hts'⟩ := texts args' (fun _ h => .one _ h) ha'
      rw [ht'.unique (txt_add hl' hts')] at heq
      obtain ⟨h1, -⟩ := key [e] args' (by simp) (ne hl') (by simpa using hp h) ha' [t] ts' (.cons ht .nil) hts' heq
      rw [← h1] at hl'
      simp at hl'
    · obtain ⟨ts, hts⟩ := texts args (fun _ h => .one _ h) ha
      rw [size] at he
      rw [ht.unique (txt_add hl hts)] at heq
      obtain ⟨h1, -⟩ := key args [e'] (ne hl) (by simp) (fun a h => (ih a (by have := size_mem h; omega)).2.1 (ha a h))
        (by simpa using h') ts [t'] hts (.cons ht' .nil) heq
      rw [h1] at hl
      simp at hl
    · obtain ⟨ts, hts⟩ := texts args (fun _ h => .one _ h) ha
      obtain ⟨ts', hts'⟩ := texts args' (fun _ h => .one _ h) ha'
      rw [size] at he
      rw [ht.unique (txt_add hl hts), ht'.unique (txt_add hl' hts')] at heq
      obtain ⟨h1, h2⟩ := key args args' (ne hl) (ne hl') (fun a h => (ih a (by have := size_mem h; omega)).2.1 (ha a h))
        ha' ts ts' hts hts' heq
      exact ⟨by rw [h1], h2⟩

end GATL
