import Verif.Proofs.TextSum
import Verif.Proofs.Distributed

/-!
# Multivectors as text

**C71** (`write`, `operator<<`).  `Verif/Spec/Write.lean` has the reader.
-/

namespace GATL.Props

open Expr Spec

variable {ρ : Env} {F : Format} {S : Set ℝ} {number : Text → Option ℝ} {names : List Text}

/-- The types of evaluated multivectors without functions of constants: coefficients are stored or integers
known at compile time, and basis blades are known at compile time or stored. -/
def Printable (s : CSum) : Prop :=
  s ≠ [] ∧ ∀ c ∈ s, (c.coef = .stored ∨ ∃ v, c.coef = .const v) ∧
    ((∃ b, c.blade = .const b) ∨ ∃ G, c.blade = .dyn G .storedBits)

/-- **C71** A multivector can be written, and reading the text gives the coefficients and basis blades of its
components, in order, if the stream writes the stored numbers and the constants exactly.  Functions of constants, such as the square root of `c<2>`,
are outside the claim. -/
theorem C71_text (g : GoodNames names) (hn : names.length ≤ 63) (hF : Exact F S number) {M : Object}
    {L : List (ℝ × TBlade)} (hM : Printable M.expr) (hL : ReadsEach ρ M.expr M.values M.bitsets L)
    (hS : ∀ x ∈ M.values, x ∈ S) (hi : ∀ p ∈ L, ∀ i ∈ vecs p.2.bits, i.val < names.length) :
    ∃ t, write F names M = some t ∧ readText number names t = some (L.map fun p => (p.1, p.2.bits)) := by
  obtain ⟨t, h1, h2⟩ := sum_spec hF g hn hL hM.1 (fun c hc => (hM.2 c hc).1) (fun c hc => (hM.2 c hc).2) hS hi
  exact ⟨t, by rw [write, h1]; rfl, h2⟩

/-- **C71** Multivectors that are written in the same way are equal. -/
theorem C71_injective (g : GoodNames names) (hn : names.length ≤ 63) (hF : Exact F S number) {M N : Object}
    {L L' : List (ℝ × TBlade)} (hM : Printable M.expr) (hN : Printable N.expr)
    (hL : ReadsEach ρ M.expr M.values M.bitsets L) (hL' : ReadsEach ρ N.expr N.values N.bitsets L')
    (hS : ∀ x ∈ M.values, x ∈ S) (hS' : ∀ x ∈ N.values, x ∈ S)
    (hi : ∀ p ∈ L, ∀ i ∈ vecs p.2.bits, i.val < names.length)
    (hi' : ∀ p ∈ L', ∀ i ∈ vecs p.2.bits, i.val < names.length) (h : write F names M = write F names N) :
    sumOf L = sumOf L' := by
  obtain ⟨t, h1, h2⟩ := C71_text g hn hF hM hL hS hi
  obtain ⟨t', h1', h2'⟩ := C71_text g hn hF hN hL' hS' hi'
  rw [h1, h1', Option.some_inj] at h
  rw [h, h2', Option.some_inj] at h2
  have h3 : ∀ L : List (ℝ × TBlade), sumOf L
      = ((L.map fun p => (p.1, p.2.bits)).map fun q => (Finsupp.single q.2 q.1 : MV ℝ)).sum := by
    intro L
    rw [List.map_map]
    rfl
  rw [h3, h3, h2]

/-- The types of evaluated and of lazy multivectors: coefficients are stored, or expressions (of constants or of variables) in
the form of sums of products; basis blades are constant, stored, or expressions in parentheses. -/
def Legible (s : CSum) : Prop :=
  s ≠ [] ∧ ∀ c ∈ s, (c.coef = .stored ∨ SumForm c.coef) ∧ ∀ G e, c.blade = .dyn G e → e = .storedBits ∨ FactorForm e

/-- **C71** An expression in the form of a sum of products can be written, and its text determines it: the functions, the order of
their arguments, the constants and the variables. -/
theorem C71_expression (hF : Exact F S number) (hP : PlainNumbers F S) {e e' : Expr} (he : SumForm e) (he' : SumForm e')
    (vs : List ℝ) (ws : List Word) :
    (∃ t, writeExpr F names e vs ws = some (t, vs, ws)) ∧
    (writeExpr F names e vs ws = writeExpr F names e' vs ws → e = e') := by
  obtain ⟨t, ht⟩ := (txt_exists F names (size e) e le_rfl).2.2 he
  obtain ⟨t', ht'⟩ := (txt_exists F names (size e') e' le_rfl).2.2 he'
  refine ⟨⟨t, ht vs ws⟩, fun h => ?_⟩
  rw [ht vs ws, ht' vs ws, Option.some.injEq, Prod.mk.injEq] at h
  exact ((recovered (names := names) hP hF (size e) e le_rfl).2.2 he e' t t' [] [] he' ht ht'
    (by constructor <;> simp [Ends]) (by constructor <;> simp [Ends]) (by rw [h.1])).1

/-- **C71** The same for multivectors whose coefficients and basis blades may be expressions: they can be written, and if two of
them are written in the same way, then their components have the same values and basis blades, in the same order. -/
theorem C71_components (g : GoodNames names) (hg : PlainNames names) (hn : names.length ≤ 63) (hF : Exact F S number)
    (hP : PlainNumbers F S) {M N : Object} {L L' : List (ℝ × TBlade)} (hM : Legible M.expr) (hN : Legible N.expr)
    (hL : ReadsEach ρ M.expr M.values M.bitsets L) (hL' : ReadsEach ρ N.expr N.values N.bitsets L')
    (hS : ∀ x ∈ M.values, x ∈ S) (hS' : ∀ x ∈ N.values, x ∈ S)
    (hi : ∀ p ∈ L, ∀ i ∈ vecs p.2.bits, i.val < names.length)
    (hi' : ∀ p ∈ L', ∀ i ∈ vecs p.2.bits, i.val < names.length) :
    (∃ t, write F names M = some t) ∧
    (write F names M = write F names N → (L.map fun p => (p.1, p.2.bits)) = L'.map fun p => (p.1, p.2.bits)) :=
  write_determines hP hF g hn hg hL hL' hM.1 hN.1 (fun c hc => (hM.2 c hc).1) (fun c hc => (hN.2 c hc).1)
    (fun c hc => (hM.2 c hc).2) (fun c hc => (hN.2 c hc).2) hS hS' hi hi'

/-- **C71** Why the form matters: parentheses are not written around sums inside products, so products that are not distributed
would be written as other expressions are. -/
theorem C71_undistributed (vs : List ℝ) (ws : List Word) :
    writeExpr F names (.fn .mul [.const 2, .fn .add [.value 1 0, .value 1 1]]) vs ws
      = writeExpr F names (.fn .add [.fn .mul [.const 2, .value 1 0], .value 1 1]) vs ws := by
  simp [writeExpr, writeArgs, writeFn, writeList, inOrder, put, putNat]

theorem digit_ne {c : Char} {n : Nat} (h : c.isDigit = false) : c ∉ Nat.toDigits 10 n := by
  intro hc
  rw [Nat.isDigit_of_mem_toDigits (by decide) (by decide) hc] at h
  cases h

theorem toDigits_inj {m n : Nat} (h : Nat.toDigits 10 m = Nat.toDigits 10 n) : m = n := by
  have := congrArg (fun t => Nat.ofDigitChars 10 t 0) h
  simpa using this

/-- **C71** The names that the library gives to basis vectors are as required: `e1`, `e2`, ..., and then `ep`
(homogeneous model), `e0` (plane-based model), `ep` and `em` (Minkowski model), `no` and `ni` (conformal
model), or nothing. -/
theorem C71_names (D : Nat) {own : List String}
    (h : own ∈ [[], ["ep"], ["e0"], ["ep", "em"], ["no", "ni"]]) :
    GoodNames (spaceNames D own) ∧ (spaceNames D own).length = D + own.length := by
  have hown : (own.map String.toList).Nodup ∧ ['1'] ∉ own.map String.toList ∧
      (∀ t ∈ own.map String.toList, ' ' ∉ t ∧ '^' ∉ t ∧ '<' ∉ t) ∧
      ∀ t ∈ own.map String.toList, t = ['e', '0'] ∨ ∃ c ∈ t.tail, c.isDigit = false := by
    simp only [List.mem_cons, List.not_mem_nil, or_false] at h
    rcases h with rfl | rfl | rfl | rfl | rfl <;> decide
  obtain ⟨h1, h2, h3, h4⟩ := hown
  have hmem : ∀ t, t ∈ (List.range D).map (fun i => 'e' :: Nat.toDigits 10 (i + 1)) →
      ∃ n, n ≠ 0 ∧ t = 'e' :: Nat.toDigits 10 n := by
    intro t ht
    obtain ⟨i, -, rfl⟩ := List.mem_map.1 ht
    exact ⟨i + 1, by omega, rfl⟩
  refine ⟨⟨?_, ?_, ?_⟩, by simp [spaceNames]⟩
  · unfold spaceNames
    rw [List.nodup_append]
    refine ⟨?_, h1, ?_⟩
    · refine List.Nodup.map (fun i j hij => ?_) List.nodup_range
      have := toDigits_inj (List.cons.inj hij).2
      omega
    · intro t ht t' ht' he
      obtain ⟨n, hn, rfl⟩ := hmem t ht
      subst he
      rcases h4 _ ht' with h | ⟨c, hc, hd⟩
      · exact hn (toDigits_inj ((List.cons.inj h).2.trans (by decide : ['0'] = Nat.toDigits 10 0)))
      · exact digit_ne hd hc
  · unfold spaceNames
    rw [List.mem_append, not_or]
    refine ⟨fun ht => ?_, h2⟩
    obtain ⟨n, hn, h⟩ := hmem _ ht
    have := (List.cons.inj h).1
    revert this
    decide
  · intro t ht
    rcases List.mem_append.1 ht with ht | ht
    · obtain ⟨n, hn, rfl⟩ := hmem _ ht
      simp only [List.mem_cons, not_or]
      exact ⟨⟨by decide, digit_ne (by decide)⟩, ⟨by decide, digit_ne (by decide)⟩, by decide, digit_ne (by decide)⟩
    · exact h3 t ht

/-- **C71** The library computes the coefficients of sums and products in that form: products are distributed over
sums, at any depth of instantiation. -/
theorem C71_distributed {n : Nat} {o : Op} {l r e : Expr} (hl : SumForm l) (hr : SumForm r) (h : simp n o l r = some e) :
    SumForm e :=
  (simp_forms n).all o l r hl hr e h

/-- `(x + y) * (x + 2)` is computed, and it is not the product that was asked for. -/
example : simp 12 .mul (.fn .add [.value 1 1, .value 1 2]) (.fn .add [.const 2, .value 1 1]) =
    some (.fn .add [.fn .power [.value 1 1, .const 2], .fn .mul [.const 2, .value 1 1],
      .fn .mul [.value 1 1, .value 1 2], .fn .mul [.const 2, .value 1 2]]) := by
  decide +kernel

/-- **C71** The names contain no brackets. -/
theorem C71_plain_names (D : Nat) {own : List String}
    (h : own ∈ [[], ["ep"], ["e0"], ["ep", "em"], ["no", "ni"]]) : PlainNames (spaceNames D own) := by
  have hown : ∀ t ∈ own.map String.toList, '(' ∉ t ∧ '{' ∉ t ∧ '>' ∉ t := by
    simp only [List.mem_cons, List.not_mem_nil, or_false] at h
    rcases h with rfl | rfl | rfl | rfl | rfl <;> decide
  intro t ht
  unfold spaceNames at ht
  rcases List.mem_append.1 ht with ht | ht
  · obtain ⟨i, -, rfl⟩ := List.mem_map.1 ht
    simp only [List.mem_cons, not_or]
    exact ⟨⟨by decide, digit_ne (by decide)⟩, ⟨by decide, digit_ne (by decide)⟩, by decide, digit_ne (by decide)⟩
  · exact hown t ht

/-! ### Examples -/

/-- Decimal numerals. -/
def decimal (v : Int) : Text :=
  if v < 0 then '-' :: Nat.toDigits 10 v.natAbs else Nat.toDigits 10 v.natAbs

/-- The value of a decimal numeral. -/
noncomputable def ofDecimal : Text → Option ℝ
  | '-' :: t => some (-(Nat.ofDigitChars 10 t 0 : ℝ))
  | t => some (Nat.ofDigitChars 10 t 0 : ℝ)

/-- A stream that writes integers in decimal notation. -/
noncomputable def decimalFormat : Format := ⟨fun x => decimal ⌊x⌋, decimal, fun n => Nat.toDigits 10 n⟩

theorem decimal_back (v : Int) : ofDecimal (decimal v) = some (v : ℝ) := by
  unfold decimal
  split_ifs with h
  · rw [ofDecimal, Nat.ofDigitChars_toDigits (by decide) (by decide)]
    have : v = -(v.natAbs : ℤ) := by omega
    rw [Option.some_inj]
    conv_rhs => rw [this]
    rw [Int.cast_neg]
    rfl
  · rw [ofDecimal]
    · rw [Nat.ofDigitChars_toDigits (by decide) (by decide)]
      have : v = (v.natAbs : ℤ) := by omega
      rw [Option.some_inj]
      conv_rhs => rw [this]
      rfl
    · intro t ht
      have : '-' ∈ Nat.toDigits 10 v.natAbs := by rw [ht]; simp
      exact digit_ne (by decide) this

theorem decimal_clean {c : Char} (v : Int) (h : c.isDigit = false) (h' : c ≠ '-') : c ∉ decimal v := by
  unfold decimal
  split_ifs
  · rw [List.mem_cons, not_or]
    exact ⟨h', digit_ne h⟩
  · exact digit_ne h

/-- Decimal notation is exact on integers. -/
theorem decimal_exact : Exact decimalFormat (Set.range ((↑) : Int → ℝ)) ofDecimal where
  real := by
    rintro x ⟨v, rfl⟩
    have : decimalFormat.real (v : ℝ) = decimal v := by simp [decimalFormat]
    rw [this]
    exact ⟨decimal_back v, decimal_clean v (by decide) (by decide), decimal_clean v (by decide) (by decide),
      decimal_clean v (by decide) (by decide)⟩
  int v := ⟨decimal_back v, decimal_clean v (by decide) (by decide), decimal_clean v (by decide) (by decide),
      decimal_clean v (by decide) (by decide)⟩

/-- `3 e1 - e1∧ep` with stored coefficients, and `5 e2` with a constant one, in the homogeneous model with
two dimensions. -/
example : write decimalFormat (spaceNames 2 ["ep"])
    ⟨true, [⟨.stored, .const 1⟩, ⟨.const 5, .const 2⟩, ⟨.stored, .const 5⟩], [3, -1], []⟩
    = some "3 * <e1> + <5> * <e2> + (-1) * <e1^ep>".toList := by
  have h3 : decimalFormat.real 3 = ['3'] := by
    have : ⌊(3 : ℝ)⌋ = 3 := by norm_num
    simp only [decimalFormat, this]; decide
  have h1 : decimalFormat.real (-1) = ['-', '1'] := by
    have : ⌊(-1 : ℝ)⌋ = -1 := by norm_num
    simp only [decimalFormat, this]; decide
  have h5 : decimalFormat.int 5 = ['5'] := by decide
  have b1 : writeBlade (spaceNames 2 ["ep"]) 1 = some ['e', '1'] := by decide +kernel
  have b2 : writeBlade (spaceNames 2 ["ep"]) 2 = some ['e', '2'] := by decide +kernel
  have b5 : writeBlade (spaceNames 2 ["ep"]) 5 = some ['e', '1', '^', 'e', 'p'] := by decide +kernel
  have hc : ∀ c b, isSum c = false → writeComp decimalFormat (spaceNames 2 ["ep"]) ⟨c, b⟩
      = inOrder [writeExpr decimalFormat (spaceNames 2 ["ep"]) c, put " * ",
          writeBasisBlade decimalFormat (spaceNames 2 ["ep"]) b] := by
    intro c b h
    rw [writeComp, if_neg (by simp [h])]
  have n1 : ¬ (0 : ℝ) ≤ -1 := by norm_num
  simp only [write, writeSum, hc _ _ (show isSum .stored = false from rfl), hc _ _ (show isSum (.const 5) = false from rfl),
    writeBasisBlade, writeExpr, writeStored, inOrder, put, b1, b2, b5, h5, h3, h1, n1, Option.bind_eq_bind,
    Option.bind_some, Option.map_some, if_false, Nat.ofNat_nonneg, if_true]
  decide

/-- The theorems apply to it. -/
example : Printable [⟨.stored, .const 1⟩, ⟨.const 5, .const 2⟩, ⟨.stored, .dyn 4 .storedBits⟩] ∧
    ReadsEach ρ [⟨.stored, .const 1⟩, ⟨.const 5, .const 2⟩, ⟨.stored, .dyn 4 .storedBits⟩] [3, -1] [5]
      [(3, .const 1), (5, .const 2), (-1, .dyn 4 5)] :=
  ⟨by simp [Printable], .cons (vs := [3]) (ws := []) (.stored 3) (.const 1)
    (.cons (vs := []) (ws := []) (.symbolic _ _ rfl (by constructor) (by simp [Denotes, den])) (.const 2)
      (.cons (vs := [-1]) (ws := [5]) (.stored (-1)) (.stored 4 5) .nil))⟩

/-- Decimal notation is plain. -/
theorem decimal_plain : PlainNumbers decimalFormat (Set.range ((↑) : Int → ℝ)) where
  nat := ⟨fun _ _ h => toDigits_inj h, fun _ => ⟨digit_ne (by decide), digit_ne (by decide)⟩⟩
  int v := decimal_clean v (by decide) (by decide)
  real := by
    rintro x ⟨v, rfl⟩
    have : decimalFormat.real (v : ℝ) = decimal v := by simp [decimalFormat]
    rw [this]
    refine ⟨decimal_clean v (by decide) (by decide), decimal_clean v (by decide) (by decide), fun h => ?_⟩
    have h : v < 0 := by exact_mod_cast h
    simp [decimal, h]

/-- The coefficient `1 + 3 * sqrt(2)`, constant, of `e1`, and a stored one of `e2`. -/
example : Legible [⟨.fn .add [.const 1, .fn .mul [.const 3, .fn .power [.const 2, recip 2]]], .const 1⟩,
    ⟨.stored, .const 2⟩] := by
  have h2 : SumForm (.const 2) := .one _ (.one _ (.const 2))
  have hr : SumForm (recip 2) := .one _ (.one _ (.fn .power _ (by decide) rfl (by
    intro a ha
    simp only [List.mem_cons, List.not_mem_nil, or_false] at ha
    rcases ha with rfl | rfl
    · exact h2
    · exact .one _ (.one _ (.const _)))))
  refine ⟨by simp, ?_⟩
  intro c hc
  simp only [List.mem_cons, List.not_mem_nil, or_false] at hc
  rcases hc with rfl | rfl
  · refine ⟨.inr (.add _ (by simp) ?_), by simp⟩
    intro a ha
    simp only [List.mem_cons, List.not_mem_nil, or_false] at ha
    rcases ha with rfl | rfl
    · exact .one _ (.const 1)
    · refine .mul _ (by simp) ?_
      intro b hb
      simp only [List.mem_cons, List.not_mem_nil, or_false] at hb
      rcases hb with rfl | rfl
      · exact .const 3
      · refine .fn .power _ (by decide) rfl ?_
        intro d hd
        simp only [List.mem_cons, List.not_mem_nil, or_false] at hd
        rcases hd with rfl | rfl
        · exact h2
        · exact hr
  · exact ⟨.inl rfl, by simp⟩

end GATL.Props
