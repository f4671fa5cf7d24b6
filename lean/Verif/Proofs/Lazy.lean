import Verif.Proofs.Leaves
import Verif.Proofs.Eval
import Verif.Spec.Lazy

/-!
# Evaluation of coefficients in a lazy context
-/

namespace GATL

open Expr Spec

/-- Constants without logical values. -/
def Cst : Expr → Prop :=
  Over (fun e => IsConst e ∨ ∃ w, e = .cbits w) (fun _ => True) (fun _ => True)

theorem cst_voc : Voc (fun e => IsConst e ∨ ∃ w, e = .cbits w) (fun _ => True) (fun _ => True) :=
  ⟨fun v => .inl ⟨v, rfl⟩, trivial, trivial, trivial, fun _ _ => trivial, fun _ _ _ => trivial⟩

theorem cst_const (v : Int) : Cst (.const v) := over_const cst_voc v

theorem cst_cbits (w : Word) : Cst (.cbits w) := by
  unfold Cst
  rw [Over]
  · exact .inr ⟨w, rfl⟩
  · simp

theorem cst_fn {name : Name} {args : List Expr} : Cst (.fn name args) ↔ ∀ a ∈ args, Cst a := by
  unfold Cst
  rw [over_fn]
  simp

theorem cst_fn1 {name : Name} {a : Expr} (h : Cst a) : Cst (.fn name [a]) := by
  rw [cst_fn]; simpa using h

theorem cst_fn2 {name : Name} {a b : Expr} (h : Cst a) (h' : Cst b) : Cst (.fn name [a, b]) := by
  rw [cst_fn]; simpa using ⟨h, h'⟩

theorem can_stored : canBeStored .stored = true := rfl
theorem can_bits : canBeStored .storedBits = true := rfl
theorem can_fn (name : Name) (args : List Expr) :
    canBeStored (.fn name args) = canBeStoredAll args := rfl
theorem can_const (v : Int) : canBeStored (.const v) = true := rfl
theorem can_cbits (w : Word) : canBeStored (.cbits w) = true := rfl

mutual
theorem cst_stored : ∀ e : Expr, Cst e →
    isConstant e = true ∧ canBeStored e = true ∧ hasStored e = false
  | .fn name args, h => by
    have := cst_storedAll args (cst_fn.1 h)
    rw [isConstant, can_fn, hasStored]
    exact this
  | .const _, _ => by rw [isConstant, can_const, hasStored] <;> simp
  | .cbits _, _ => by rw [isConstant, can_cbits, hasStored] <;> simp
  | .value _ _, h => by rcases h with ⟨_, h⟩ | ⟨_, h⟩ <;> simp at h
  | .mapValues _ _, h => by rcases h with ⟨_, h⟩ | ⟨_, h⟩ <;> simp at h
  | .stored, h => by rcases h with ⟨_, h⟩ | ⟨_, h⟩ <;> simp at h
  | .storedMap, h => by rcases h with ⟨_, h⟩ | ⟨_, h⟩ <;> simp at h
  | .bitset _ _, h => by rcases h with ⟨_, h⟩ | ⟨_, h⟩ <;> simp at h
  | .mapBitsets _ _, h => by rcases h with ⟨_, h⟩ | ⟨_, h⟩ <;> simp at h
  | .storedBits, h => by rcases h with ⟨_, h⟩ | ⟨_, h⟩ <;> simp at h
  | .storedMapBits, h => by rcases h with ⟨_, h⟩ | ⟨_, h⟩ <;> simp at h
  | .cbool _, h => by rcases h with ⟨_, h⟩ | ⟨_, h⟩ <;> simp at h
theorem cst_storedAll : ∀ args : List Expr, (∀ a ∈ args, Cst a) →
    isConstantAll args = true ∧ canBeStoredAll args = true ∧ hasStoredAny args = false
  | [], _ => by simp [isConstantAll, canBeStoredAll, hasStoredAny]
  | a :: as, h => by
    have h1 := cst_stored a (h a (by simp))
    have h2 := cst_storedAll as fun b hb => h b (by simp [hb])
    simp [isConstantAll, canBeStoredAll, hasStoredAny, h1, h2]
end

theorem cst_ne_stored {e : Expr} (h : Cst e) : e ≠ .stored := by
  rintro rfl; have := (cst_stored _ h).1; simp [isConstant] at this
theorem cst_ne_bits {e : Expr} (h : Cst e) : e ≠ .storedBits := by
  rintro rfl; have := (cst_stored _ h).1; simp [isConstant] at this
theorem cst_can {e : Expr} (h : Cst e) : canBeStored e = true := (cst_stored _ h).2.1

/-- The result of evaluating a constant. -/
def Refines (e e' : Expr) : Prop :=
  ∀ ρ v, Built e → den ρ e = some v → Built e' ∧ den ρ e' = some v

/-- The outcome for a number. -/
def NumOut (e : Expr) (c : Code) : Prop :=
  (isConstant e = false ∧ c = (.stored, [.value e])) ∨
    (isConstant e = true ∧ c.2 = [] ∧ Cst c.1 ∧ Refines e c.1)

/-- The outcome for a bitset. -/
def BitsOut (e : Expr) (c : Code) : Prop :=
  (isConstant e = false ∧ c = (.storedBits, [.bits e])) ∨
    (isConstant e = true ∧ c.2 = [] ∧ Cst c.1 ∧ Refines e c.1)

/-- The outcome for a logical value. -/
def TestOut (e : Expr) (c : Code) : Prop :=
  isConstant e = false ∧ (c = (.stored, [.value e]) ∨ c = (.storedBits, [.bits e]))

/-- The outcome for a kind. -/
def Out : Kind → Expr → Code → Prop
  | .num => NumOut
  | .bits => BitsOut
  | .test => TestOut

variable {n L U : Nat}

theorem storeValue_eq {e : Expr} {c : Code} (h : storeValue L U e = some c) :
    c = (.stored, [.value e]) := by
  unfold storeValue at h
  split at h <;> simp_all
theorem storeBits_eq {e : Expr} {c : Code} (h : storeBits L U e = some c) :
    c = (.storedBits, [.bits e]) := by
  unfold storeBits at h
  split at h <;> simp_all

/-- The expression whose value is the sum of the list. -/
def sumOf : List Expr → Expr
  | [a] => a
  | as => .fn .add as
/-- The expression whose value is the product of the list. -/
def prodOf : List Expr → Expr
  | [a] => a
  | as => .fn .mul as

theorem compileAdd_out (args : List Expr) (hne : args ≠ [])
    (ha : ∀ a ∈ args, ∀ c, compile n L U a = some c → NumOut a c) {c : Code}
    (hc : compileAdd n L U args = some c) :
    (isConstantAll args = false ∧ c = (.stored, [.value (sumOf args)])) ∨
      (isConstantAll args = true ∧ c.2 = [] ∧ Cst c.1 ∧
        ∀ ρ s, SumV ρ args s → V ρ c.1 s) := by
  induction args generalizing c with
  | nil => exact absurd rfl hne
  | cons a as ih =>
    rcases as with _ | ⟨b, bs⟩
    · rw [compileAdd] at hc
      rcases ha a (by simp) c hc with ⟨h1, h2⟩ | ⟨h1, h2, h3, h4⟩
      · exact .inl ⟨by simp [isConstantAll, h1], h2⟩
      · refine .inr ⟨by simp [isConstantAll, h1], h2, h3, fun ρ s hs => ?_⟩
        obtain ⟨x, y, hx, hy, rfl⟩ := hs.uncons
        obtain rfl := hy.nil_iff
        have := h4 ρ _ hx.1 hx.2
        exact ⟨this.1, by rw [add_zero]; exact this.2⟩
    · rw [compileAdd.eq_def] at hc
      simp only [Option.bind_eq_bind, Option.bind_eq_some_iff, Prod.exists] at hc
      obtain ⟨a', p, h1, r', q, h2, e, h3, hc⟩ := hc
      have hA := ha a (by simp) _ h1
      have hR := ih (by simp) (fun x hx => ha x (by simp [hx])) h2
      rcases hA with ⟨k1, k2⟩ | ⟨k1, k2, k3, k4⟩ <;>
        rcases hR with ⟨m1, m2⟩ | ⟨m1, m2, m3, m4⟩
      · simp only [Prod.mk.injEq] at k2 m2
        obtain ⟨rfl, rfl⟩ := k2
        obtain ⟨rfl, rfl⟩ := m2
        simp only [anyIs, BEq.rfl, can_stored, Bool.and_self, Bool.or_self, if_true] at hc
        exact .inl ⟨by simp [isConstantAll, k1], storeValue_eq hc⟩
      · simp only [Prod.mk.injEq] at k2
        obtain ⟨rfl, rfl⟩ := k2
        simp only [anyIs, BEq.rfl, cst_can m3, Bool.and_self, Bool.true_or, if_true] at hc
        exact .inl ⟨by simp [isConstantAll, k1], storeValue_eq hc⟩
      · simp only [Prod.mk.injEq] at m2
        obtain ⟨rfl, rfl⟩ := m2
        simp only [anyIs, BEq.rfl, cst_can k3, Bool.and_self, Bool.or_true, if_true] at hc
        exact .inl ⟨by simp only [isConstantAll] at m1 ⊢; simp [m1], storeValue_eq hc⟩
      · have : anyIs .stored a' r' = false := by
          simp [anyIs, cst_ne_stored k3, cst_ne_stored m3]
        simp only [this, Bool.false_eq_true, if_false, Option.some.injEq] at hc
        subst hc
        simp only at k2 m2 k3 m3 k4 m4
        subst k2 m2
        refine .inr ⟨by simp only [isConstantAll] at m1 ⊢; simp [k1, m1], rfl,
          (simp_over cst_voc expClosed_true n).add _ _ k3 m3 _ h3, fun ρ s hs => ?_⟩
        obtain ⟨x, y, hx, hy, rfl⟩ := hs.uncons
        exact (simp_sound ρ n).add _ _ _ _ _ (k4 ρ _ hx.1 hx.2) (m4 ρ _ hy) h3

theorem compileMul_out (args : List Expr) (hne : args ≠ [])
    (ha : ∀ a ∈ args, ∀ c, compile n L U a = some c → NumOut a c) {c : Code}
    (hc : compileMul n L U args = some c) :
    (isConstantAll args = false ∧ c = (.stored, [.value (prodOf args)])) ∨
      (isConstantAll args = true ∧ c.2 = [] ∧ Cst c.1 ∧
        ∀ ρ s, ProdV ρ args s → V ρ c.1 s) := by
  induction args generalizing c with
  | nil => exact absurd rfl hne
  | cons a as ih =>
    rcases as with _ | ⟨b, bs⟩
    · rw [compileMul] at hc
      rcases ha a (by simp) c hc with ⟨h1, h2⟩ | ⟨h1, h2, h3, h4⟩
      · exact .inl ⟨by simp [isConstantAll, h1], h2⟩
      · refine .inr ⟨by simp [isConstantAll, h1], h2, h3, fun ρ s hs => ?_⟩
        obtain ⟨x, y, hx, hy, rfl⟩ := hs.uncons
        obtain rfl := hy.nil_iff
        have := h4 ρ _ hx.1 hx.2
        exact ⟨this.1, by rw [mul_one]; exact this.2⟩
    · rw [compileMul.eq_def] at hc
      simp only [Option.bind_eq_bind, Option.bind_eq_some_iff, Prod.exists] at hc
      obtain ⟨a', p, h1, r', q, h2, e, h3, hc⟩ := hc
      have hA := ha a (by simp) _ h1
      have hR := ih (by simp) (fun x hx => ha x (by simp [hx])) h2
      rcases hA with ⟨k1, k2⟩ | ⟨k1, k2, k3, k4⟩ <;>
        rcases hR with ⟨m1, m2⟩ | ⟨m1, m2, m3, m4⟩
      · simp only [Prod.mk.injEq] at k2 m2
        obtain ⟨rfl, rfl⟩ := k2
        obtain ⟨rfl, rfl⟩ := m2
        simp only [anyIs, BEq.rfl, can_stored, Bool.and_self, Bool.or_self, if_true] at hc
        exact .inl ⟨by simp [isConstantAll, k1], storeValue_eq hc⟩
      · simp only [Prod.mk.injEq] at k2
        obtain ⟨rfl, rfl⟩ := k2
        simp only [anyIs, BEq.rfl, cst_can m3, Bool.and_self, Bool.true_or, if_true] at hc
        exact .inl ⟨by simp [isConstantAll, k1], storeValue_eq hc⟩
      · simp only [Prod.mk.injEq] at m2
        obtain ⟨rfl, rfl⟩ := m2
        simp only [anyIs, BEq.rfl, cst_can k3, Bool.and_self, Bool.or_true, if_true] at hc
        exact .inl ⟨by simp only [isConstantAll] at m1 ⊢; simp [m1], storeValue_eq hc⟩
      · have : anyIs .stored a' r' = false := by
          simp [anyIs, cst_ne_stored k3, cst_ne_stored m3]
        simp only [this, Bool.false_eq_true, if_false, Option.some.injEq] at hc
        subst hc
        simp only at k2 m2 k3 m3 k4 m4
        subst k2 m2
        refine .inr ⟨by simp only [isConstantAll] at m1 ⊢; simp [k1, m1], rfl,
          (simp_over cst_voc expClosed_true n).mul _ _ k3 m3 _ h3, fun ρ s hs => ?_⟩
        obtain ⟨x, y, hx, hy, rfl⟩ := hs.uncons
        exact (simp_sound ρ n).mul _ _ _ _ _ (k4 ρ _ hx.1 hx.2) (m4 ρ _ hy) h3


/-- Functions of one argument evaluated by the general scheme. -/
theorem compile_fn1 {name : Name} (h : name ∈ elementary ∨ name = .absolute) (a : Expr) :
    compile n L U (.fn name [a]) = (do
      let (a', p) ← compile n L U a
      let e ← mkFn (simp n) name [a']
      if a' = .stored then storeValue L U (.fn name [a])
      else if a' = .storedBits then storeBits L U (.fn name [a])
      else some (e, p)) := by
  rcases h with h | rfl
  · simp only [elementary, List.mem_cons, List.not_mem_nil, or_false] at h
    rcases h with rfl | rfl | rfl | rfl | rfl | rfl | rfl | rfl <;> rfl
  · rfl

/-- Functions of two arguments evaluated by the general scheme. -/
theorem compile_fn2 {name : Name} (h : name = .band ∨ name = .bor ∨ name = .bxor ∨ name = .equal ∨
    name = .lessOrEqual ∨ name = .logicalAnd ∨ name = .logicalOr) (l r : Expr) :
    compile n L U (.fn name [l, r]) = (do
      let (l', p) ← compile n L U l
      let (r', q) ← compile n L U r
      let e ← mkFn (simp n) name [l', r']
      if anyIs .stored l' r' then storeValue L U (.fn name [l, r])
      else if anyIs .storedBits l' r' then storeBits L U (.fn name [l, r])
      else some (e, p ++ q)) := by
  rcases h with rfl | rfl | rfl | rfl | rfl | rfl | rfl <;> rfl

/-- Functions that need their arguments. -/
theorem interp_strict1 {name : Name} (h : name ∈ elementary ∨ name = .countOneBits) {a : Option Val}
    {v : Val} (hv : interp name [a] = some v) : ∃ x, a = some x := by
  rcases a with _ | x
  · exfalso
    rcases h with h | rfl
    · simp only [elementary, List.mem_cons, List.not_mem_nil, or_false] at h
      rcases h with rfl | rfl | rfl | rfl | rfl | rfl | rfl | rfl <;> simp [interp] at hv
    · simp [interp] at hv
  · exact ⟨x, rfl⟩

theorem interp_strict2 {name : Name} (h : name = .band ∨ name = .bor ∨ name = .bxor ∨
    name = .leftShift ∨ name = .reorderingSign) {a b : Option Val}
    {v : Val} (hv : interp name [a, b] = some v) : ∃ x y, a = some x ∧ b = some y := by
  rcases a with _ | x
  · exfalso
    rcases h with rfl | rfl | rfl | rfl | rfl <;> simp [interp] at hv
  · rcases b with _ | y
    · exfalso
      rcases h with rfl | rfl | rfl | rfl | rfl <;> cases x <;> simp [interp] at hv
    · exact ⟨x, y, rfl, rfl⟩

theorem built_plain {name : Name} {args : List Expr} (h : ∀ a ∈ args, Built a) (h1 : name ≠ .add)
    (h2 : name ≠ .mul) (h3 : name ≠ .power) : Built (.fn name args) :=
  .fn _ _ h (fun e => absurd e h1) (fun e => absurd e h2) fun e => absurd e h3

/-- The names folded by `mkFn` whose results are constants for constant arguments. -/
def foldable : List Name := elementary ++ [.countOneBits, .reorderingSign, .leftShift, .band, .bor, .bxor]

/-- What folding preserves: both the shape and being constant. -/
theorem mkFn_closed {Q : Expr → Prop} (hc : ∀ v, Q (.const v)) (hw : ∀ w, Q (.cbits w))
    (hf : ∀ name args, name ≠ .add → name ≠ .mul → name ≠ .power → (∀ a ∈ args, Q a) →
      Q (.fn name args)) (hi : ∀ name a, Q (.fn name [a]) → Q a)
    {name : Name} (hn : name ∈ foldable) {args : List Expr} (ha : ∀ a ∈ args, Q a) {e : Expr}
    (he : mkFn (simp n) name args = some e) : Q e := by
  unfold mkFn at he
  split at he <;>
    first
    | (exfalso; revert hn; decide)
    | (simp only [reduceCtorEq] at he; done)
    | skip
  · simp only [Option.some.injEq] at he; subst he
    unfold mkReorderingSign
    split
    · exact hc _
    · split
      · exact hc _
      · exact hf _ _ (by simp) (by simp) (by simp) ha
  · simp only [Option.some.injEq] at he; subst he
    unfold mkCountOneBits
    split
    · exact hc _
    · exact hf _ _ (by simp) (by simp) (by simp) ha
  · unfold mkLeftShift at he
    split at he
    · split at he
      · simp only [Option.some.injEq] at he; subst he; exact hw _
      · simp at he
    · split at he <;> simp only [Option.some.injEq] at he <;> subst he
      · exact ha _ (by simp)
      · exact hf _ _ (by simp) (by simp) (by simp) ha
  · simp only [Option.some.injEq] at he; subst he
    unfold mkAnd
    split
    · exact hc _
    · exact hw _
    · split
      · exact hc _
      · split
        · exact hw _
        · exact hf _ _ (by simp) (by simp) (by simp) ha
  · simp only [Option.some.injEq] at he; subst he
    unfold mkOr
    split
    · exact hc _
    · exact hw _
    · split
      · exact ha _ (by simp)
      · split
        · exact ha _ (by simp)
        · exact hf _ _ (by simp) (by simp) (by simp) ha
  · simp only [Option.some.injEq] at he; subst he
    unfold mkXor
    split
    · exact hc _
    · exact hw _
    · split
      · exact ha _ (by simp)
      · split
        · exact ha _ (by simp)
        · exact hf _ _ (by simp) (by simp) (by simp) ha
  · simp only [Option.some.injEq] at he; subst he
    unfold mkExp
    split
    · exact hi .logarithm _ (ha _ (by simp))
    · exact hf _ _ (by simp) (by simp) (by simp) ha
  · simp only [Option.some.injEq] at he; subst he
    unfold mkLog
    split
    · exact hi .exponential _ (ha _ (by simp))
    · exact hf _ _ (by simp) (by simp) (by simp) ha
  all_goals
    simp only [Option.some.injEq] at he; subst he
    exact hf _ _ (by simp) (by simp) (by simp) ha

theorem mkFn_cst {name : Name} (hn : name ∈ foldable) {args : List Expr} (ha : ∀ a ∈ args, Cst a)
    {e : Expr} (he : mkFn (simp n) name args = some e) : Cst e :=
  mkFn_closed cst_const cst_cbits (fun _ _ _ _ _ h => cst_fn.2 h)
    (fun _ a h => cst_fn.1 h a (by simp)) hn ha he

theorem mkFn_built {name : Name} (hn : name ∈ foldable) {args : List Expr}
    (ha : ∀ a ∈ args, Built a) {e : Expr} (he : mkFn (simp n) name args = some e) : Built e :=
  mkFn_closed .const .cbits (fun _ _ h1 h2 h3 h => built_plain h h1 h2 h3)
    (fun _ _ h => GATL.Built.of_mem h (by simp)) hn ha he

/-- Folding a function of one evaluated argument. -/
theorem refines1 {name : Name} (hn : name ∈ foldable)
    (hs : name ∈ elementary ∨ name = .countOneBits) {a a' e : Expr} (ha : Refines a a')
    (he : mkFn (simp n) name [a'] = some e) : Refines (.fn name [a]) e := by
  intro ρ v hb hv
  rw [den_fn] at hv
  simp only [denList] at hv
  obtain ⟨x, hx⟩ := interp_strict1 hs hv
  obtain ⟨b', d'⟩ := ha ρ x (GATL.Built.of_mem hb (by simp)) hx
  have hb' : ∀ b ∈ [a'], Built b := by simpa using b'
  refine ⟨mkFn_built hn hb' he, mkFn_ok (ρ := ρ) hb' ?_ he v ?_⟩
  · unfold FoldOk
    split
    · rename_i h; simp at h
    · exfalso; revert hn; decide
    · trivial
  · simp only [denList, d', ← hx]
    exact hv

/-- Folding a function of two evaluated arguments. -/
theorem refines2 {name : Name} (hn : name ∈ foldable)
    (hs : name = .band ∨ name = .bor ∨ name = .bxor ∨ name = .leftShift ∨ name = .reorderingSign)
    {l r l' r' e : Expr} (hl : Refines l l') (hr : Refines r r')
    (he : mkFn (simp n) name [l', r'] = some e) : Refines (.fn name [l, r]) e := by
  intro ρ v hb hv
  rw [den_fn] at hv
  simp only [denList] at hv
  obtain ⟨x, y, hx, hy⟩ := interp_strict2 hs hv
  obtain ⟨b1, d1⟩ := hl ρ x (GATL.Built.of_mem hb (by simp)) hx
  obtain ⟨b2, d2⟩ := hr ρ y (GATL.Built.of_mem hb (by simp)) hy
  have hb' : ∀ b ∈ [l', r'], Built b := by
    intro b hb
    simp only [List.mem_cons, List.not_mem_nil, or_false] at hb
    rcases hb with rfl | rfl <;> assumption
  refine ⟨mkFn_built hn hb' he, mkFn_ok (ρ := ρ) hb' ?_ he v ?_⟩
  · unfold FoldOk
    split
    · exfalso; revert hn; decide
    · rename_i h; simp at h
    · trivial
  · simp only [denList, d1, d2, ← hx, ← hy]
    exact hv

theorem sumVals_num {vs : List (Option Val)} {v : Val} (h : sumVals vs = some v) :
    ∃ x, v = .num x := by
  unfold sumVals at h
  split at h
  · exact ⟨_, (Option.some.inj h).symm⟩
  · split at h
    · exact ⟨_, (Option.some.inj h).symm⟩
    · simp at h
  · simp at h

theorem prodVals_num {vs : List (Option Val)} {v : Val} (h : prodVals vs = some v) :
    ∃ x, v = .num x := by
  unfold prodVals at h
  split at h
  · exact ⟨_, (Option.some.inj h).symm⟩
  · split at h
    · exact ⟨_, (Option.some.inj h).symm⟩
    · simp at h
  · simp at h

theorem add_num {ρ : Env} {args : List Expr} {v : Val} (h : den ρ (.fn .add args) = some v) :
    ∃ x, v = .num x := by
  rw [den_fn] at h
  rcases args with _ | ⟨a, as⟩
  · simp [denList, interp] at h
  · simp only [denList, interp] at h
    exact sumVals_num h

theorem mul_num {ρ : Env} {args : List Expr} {v : Val} (h : den ρ (.fn .mul args) = some v) :
    ∃ x, v = .num x := by
  rw [den_fn] at h
  rcases args with _ | ⟨a, as⟩
  · simp [denList, interp] at h
  · simp only [denList, interp] at h
    exact prodVals_num h

theorem power_num {ρ : Env} {l r : Expr} {v : Val} (h : den ρ (.fn .power [l, r]) = some v) :
    ∃ x, v = .num x := by
  rw [den_fn] at h
  simp only [denList] at h
  generalize den ρ l = a at h
  generalize den ρ r = b at h
  rcases a with _ | x | _ | _ <;> rcases b with _ | y | _ | _ <;>
    simp only [interp, reduceCtorEq] at h
  split at h
  · exact ⟨_, (Option.some.inj h).symm⟩
  · simp at h

/-- Of two evaluated numbers, one is stored exactly if one is not constant. -/
theorem anyIs_num {l r : Expr} {cl cr : Code} (hl : NumOut l cl) (hr : NumOut r cr) :
    anyIs .stored cl.1 cr.1 = !(isConstant l && isConstant r) ∧
      anyIs .storedBits cl.1 cr.1 = false ∧
      (isConstant l = true → isConstant r = true → cl.2 ++ cr.2 = []) := by
  rcases hl with ⟨k1, rfl⟩ | ⟨k1, k2, k3, -⟩ <;> rcases hr with ⟨m1, rfl⟩ | ⟨m1, m2, m3, -⟩
  · simp [anyIs, k1, can_stored]
  · simp [anyIs, k1, cst_can m3, cst_ne_bits m3]
  · simp [anyIs, m1, cst_can k3, cst_ne_bits k3]
  · simp [anyIs, k1, m1, k2, m2, cst_ne_stored k3, cst_ne_stored m3, cst_ne_bits k3, cst_ne_bits m3]

theorem anyIs_bits {l r : Expr} {cl cr : Code} (hl : BitsOut l cl) (hr : BitsOut r cr) :
    anyIs .storedBits cl.1 cr.1 = !(isConstant l && isConstant r) ∧
      anyIs .stored cl.1 cr.1 = false ∧
      (isConstant l = true → isConstant r = true → cl.2 ++ cr.2 = []) := by
  rcases hl with ⟨k1, rfl⟩ | ⟨k1, k2, k3, -⟩ <;> rcases hr with ⟨m1, rfl⟩ | ⟨m1, m2, m3, -⟩
  · simp [anyIs, k1, can_bits]
  · simp [anyIs, k1, cst_can m3, cst_ne_stored m3]
  · simp [anyIs, m1, cst_can k3, cst_ne_stored k3]
  · simp [anyIs, k1, m1, k2, m2, cst_ne_stored k3, cst_ne_stored m3, cst_ne_bits k3, cst_ne_bits m3]

theorem NumOut.cst {l : Expr} {c : Code} (h : NumOut l c) (hc : isConstant l = true) :
    Cst c.1 ∧ Refines l c.1 ∧ c.2 = [] := by
  rcases h with ⟨k, -⟩ | ⟨-, k2, k3, k4⟩
  · rw [hc] at k; cases k
  · exact ⟨k3, k4, k2⟩

theorem BitsOut.cst {l : Expr} {c : Code} (h : BitsOut l c) (hc : isConstant l = true) :
    Cst c.1 ∧ Refines l c.1 ∧ c.2 = [] := by
  rcases h with ⟨k, -⟩ | ⟨-, k2, k3, k4⟩
  · rw [hc] at k; cases k
  · exact ⟨k3, k4, k2⟩

theorem NumOut.var {l : Expr} {c : Code} (h : NumOut l c) (hc : isConstant l = false) :
    c = (.stored, [.value l]) := by
  rcases h with ⟨-, k⟩ | ⟨k, -⟩
  · exact k
  · rw [hc] at k; cases k

theorem BitsOut.var {l : Expr} {c : Code} (h : BitsOut l c) (hc : isConstant l = false) :
    c = (.storedBits, [.bits l]) := by
  rcases h with ⟨-, k⟩ | ⟨k, -⟩
  · exact k
  · rw [hc] at k; cases k

theorem isConstant1 (name : Name) (a : Expr) : isConstant (.fn name [a]) = isConstant a := by
  rw [isConstant, isConstantAll, isConstantAll, Bool.and_true]

theorem isConstant2 (name : Name) (l r : Expr) :
    isConstant (.fn name [l, r]) = (isConstant l && isConstant r) := by
  rw [isConstant, isConstantAll, isConstantAll, isConstantAll, Bool.and_true]

theorem elementary_foldable {name : Name} (h : name ∈ elementary) : name ∈ foldable :=
  List.mem_append_left _ h

theorem compile_const (v : Int) : compile n L U (.const v) = some (.const v, []) := rfl

/-- Evaluation of an expression over the variables of the context: a value that is not constant is
stored as a whole, a constant is simplified and keeps its value. -/
theorem compile_out {k : Kind} {e : Expr} (h : Evaluable L U k e) :
    ∀ c, compile n L U e = some c → Out k e c := by
  induction h with
  | const v =>
    intro c hc
    rw [compile_const] at hc
    simp only [Option.some.injEq] at hc; subst hc
    exact .inr ⟨by rw [isConstant], rfl, cst_const v, fun ρ w hb hw => ⟨hb, hw⟩⟩
  | cbits w =>
    intro c hc
    change some (Expr.cbits w, []) = some c at hc
    simp only [Option.some.injEq] at hc; subst hc
    exact .inr ⟨by rw [isConstant], rfl, cst_cbits w, fun ρ v hb hw => ⟨hb, hw⟩⟩
  | value t i hL hU =>
    intro c hc
    change (if L ≤ t ∧ t ≤ U then storeValue L U (.value t i) else some (.value t i, [])) = some c at hc
    rw [if_pos ⟨hL, hU⟩] at hc
    exact .inl ⟨by simp [isConstant], storeValue_eq hc⟩
  | bitset t i hL hU =>
    intro c hc
    change (if L ≤ t ∧ t ≤ U then storeBits L U (.bitset t i) else some (.bitset t i, [])) = some c at hc
    rw [if_pos ⟨hL, hU⟩] at hc
    exact .inl ⟨by simp [isConstant], storeBits_eq hc⟩
  | add args hn h ih =>
    intro c hc
    change compileAdd n L U args = some c at hc
    have hne : args ≠ [] := by
      rintro rfl; simp at hn
    have hs : sumOf args = .fn .add args := by
      rcases args with _ | ⟨a, _ | ⟨b, bs⟩⟩
      · rfl
      · simp at hn
      · rfl
    rcases compileAdd_out args hne ih hc with ⟨h1, h2⟩ | ⟨h1, h2, h3, h4⟩
    · rw [hs] at h2
      exact .inl ⟨by rw [isConstant, h1], h2⟩
    · refine .inr ⟨by rw [isConstant, h1], h2, h3, fun ρ v hb hv => ?_⟩
      obtain ⟨x, rfl⟩ := add_num hv
      exact h4 ρ x (V.add_inv ⟨hb, hv⟩).1
  | mul args hn h ih =>
    intro c hc
    change compileMul n L U args = some c at hc
    have hne : args ≠ [] := by
      rintro rfl; simp at hn
    have hs : prodOf args = .fn .mul args := by
      rcases args with _ | ⟨a, _ | ⟨b, bs⟩⟩
      · rfl
      · simp at hn
      · rfl
    rcases compileMul_out args hne ih hc with ⟨h1, h2⟩ | ⟨h1, h2, h3, h4⟩
    · rw [hs] at h2
      exact .inl ⟨by rw [isConstant, h1], h2⟩
    · refine .inr ⟨by rw [isConstant, h1], h2, h3, fun ρ v hb hv => ?_⟩
      obtain ⟨x, rfl⟩ := mul_num hv
      exact h4 ρ x (V.mul_inv ⟨hb, hv⟩).1
  | power l r hl hr hcc ihl ihr =>
    intro c hc
    change (do
      let (l', p) ← compile n L U l
      let (r', q) ← compile n L U r
      let e ← simp n .pow l' r'
      if anyIs .stored l' r' then storeValue L U (.fn .power [l, r]) else some (e, p ++ q)) =
        some c at hc
    simp only [Option.bind_eq_bind, Option.bind_eq_some_iff, Prod.exists] at hc
    obtain ⟨l', p, h1, r', q, h2, e, h3, hc⟩ := hc
    obtain ⟨A1, A2, A3⟩ := anyIs_num (ihl _ h1) (ihr _ h2)
    rcases hk : (isConstant l && isConstant r) with _ | _
    · rw [if_pos (by rw [A1, hk]; rfl)] at hc
      exact .inl ⟨by rw [isConstant2, hk], storeValue_eq hc⟩
    · rw [if_neg (by rw [A1, hk]; simp)] at hc
      simp only [Bool.and_eq_true] at hk
      simp only [Option.some.injEq] at hc; subst hc
      obtain ⟨B1, B2, B3⟩ := (ihl _ h1).cst hk.1
      obtain ⟨C1, C2, C3⟩ := (ihr _ h2).cst hk.2
      refine .inr ⟨by rw [isConstant2, hk.1, hk.2]; rfl, A3 hk.1 hk.2,
        (simp_over cst_voc expClosed_true n).pow _ _ B1 C1 trivial _ h3, fun ρ v hb hv => ?_⟩
      obtain ⟨z, rfl⟩ := power_num hv
      obtain ⟨x, y, hx, hy, hdir, hd, rfl⟩ := V.power_inv (ρ := ρ) (l := l) (r := r) ⟨hb, hv⟩
      have hl' : V ρ l' x := B2 ρ _ hx.1 hx.2
      have hr' : V ρ r' y := C2 ρ _ hy.1 hy.2
      refine (simp_sound ρ n).pow _ _ _ _ _ hl' hr' hd ?_ h3
      rcases hcc with k | k | ⟨w, rfl⟩ | ⟨w, rfl⟩
      · rw [hk.1] at k; cases k
      · rw [hk.2] at k; cases k
      · rw [compile_const] at h1
        simp only [Option.some.injEq, Prod.mk.injEq] at h1
        rw [← h1.1]
        exact .inr (.direct _ (direct_const w))
      · rw [compile_const] at h2
        simp only [Option.some.injEq, Prod.mk.injEq] at h2
        exact .inl ⟨w, hy.const_eq⟩
  | elementary name a hn h ih =>
    intro c hc
    rw [compile_fn1 (.inl hn)] at hc
    simp only [Option.bind_eq_bind, Option.bind_eq_some_iff, Prod.exists] at hc
    obtain ⟨a', p, h1, e, h2, hc⟩ := hc
    rcases hk : isConstant a with _ | _
    · have := (ih _ h1).var hk
      simp only [Prod.mk.injEq] at this
      rw [if_pos this.1] at hc
      exact .inl ⟨by rw [isConstant1, hk], storeValue_eq hc⟩
    · obtain ⟨B1, B2, B3⟩ := (ih _ h1).cst hk
      rw [if_neg (cst_ne_stored B1), if_neg (cst_ne_bits B1)] at hc
      simp only [Option.some.injEq] at hc; subst hc
      exact .inr ⟨by rw [isConstant1, hk], B3,
        mkFn_cst (elementary_foldable hn) (by simpa using B1) h2,
        refines1 (elementary_foldable hn) (.inl hn) B2 h2⟩
  | absolute a h hk ih =>
    intro c hc
    rw [compile_fn1 (.inr rfl)] at hc
    simp only [Option.bind_eq_bind, Option.bind_eq_some_iff, Prod.exists] at hc
    obtain ⟨a', p, h1, e, h2, hc⟩ := hc
    have := (ih _ h1).var hk
    simp only [Prod.mk.injEq] at this
    rw [if_pos this.1] at hc
    exact .inl ⟨by rw [isConstant1, hk], storeValue_eq hc⟩
  | sign l r hl hr ihl ihr =>
    intro c hc
    change (do
      let (l', p) ← compile n L U l
      let (r', q) ← compile n L U r
      if anyIs .storedBits l' r' then storeValue L U (.fn .reorderingSign [l, r])
      else some (mkReorderingSign l' r', p ++ q)) = some c at hc
    simp only [Option.bind_eq_bind, Option.bind_eq_some_iff, Prod.exists] at hc
    obtain ⟨l', p, h1, r', q, h2, hc⟩ := hc
    obtain ⟨A1, A2, A3⟩ := anyIs_bits (ihl _ h1) (ihr _ h2)
    rcases hk : (isConstant l && isConstant r) with _ | _
    · rw [if_pos (by rw [A1, hk]; rfl)] at hc
      exact .inl ⟨by rw [isConstant2, hk], storeValue_eq hc⟩
    · rw [if_neg (by rw [A1, hk]; simp)] at hc
      simp only [Bool.and_eq_true] at hk
      simp only [Option.some.injEq] at hc; subst hc
      obtain ⟨B1, B2, B3⟩ := (ihl _ h1).cst hk.1
      obtain ⟨C1, C2, C3⟩ := (ihr _ h2).cst hk.2
      exact .inr ⟨by rw [isConstant2, hk.1, hk.2]; rfl, A3 hk.1 hk.2,
        mkFn_cst (n := n) (name := .reorderingSign) (args := [l', r']) (by decide)
          (by simp [B1, C1]) rfl,
        refines2 (n := n) (by decide) (by simp) B2 C2 rfl⟩
  | count b h ih =>
    intro c hc
    change (do
      let (b', p) ← compile n L U b
      if b' = .storedBits then storeValue L U (.fn .countOneBits [b])
      else some (mkCountOneBits b', p)) = some c at hc
    simp only [Option.bind_eq_bind, Option.bind_eq_some_iff, Prod.exists] at hc
    obtain ⟨a', p, h1, hc⟩ := hc
    rcases hk : isConstant b with _ | _
    · have := (ih _ h1).var hk
      simp only [Prod.mk.injEq] at this
      rw [if_pos this.1] at hc
      exact .inl ⟨by rw [isConstant1, hk], storeValue_eq hc⟩
    · obtain ⟨B1, B2, B3⟩ := (ih _ h1).cst hk
      rw [if_neg (cst_ne_bits B1)] at hc
      simp only [Option.some.injEq] at hc; subst hc
      exact .inr ⟨by rw [isConstant1, hk], B3,
        mkFn_cst (n := n) (name := .countOneBits) (args := [a']) (by decide) (by simpa using B1) rfl,
        refines1 (n := n) (by decide) (.inr rfl) B2 rfl⟩
  | bitwise name k l r hn hkind hl hr ihl ihr =>
    intro c hc
    have hf : name ∈ foldable := by rcases hn with rfl | rfl | rfl <;> decide
    rw [compile_fn2 (by tauto)] at hc
    simp only [Option.bind_eq_bind, Option.bind_eq_some_iff, Prod.exists] at hc
    obtain ⟨l', p, h1, r', q, h2, e, h3, hc⟩ := hc
    rcases k with _ | _ | _
    · obtain ⟨A1, A2, A3⟩ := anyIs_num (ihl _ h1) (ihr _ h2)
      rcases hk : (isConstant l && isConstant r) with _ | _
      · rw [if_pos (by rw [A1, hk]; rfl)] at hc
        exact .inl ⟨by rw [isConstant2, hk], storeValue_eq hc⟩
      · rw [if_neg (by rw [A1, hk]; simp), if_neg (by rw [A2]; simp)] at hc
        simp only [Bool.and_eq_true] at hk
        simp only [Option.some.injEq] at hc; subst hc
        obtain ⟨B1, B2, B3⟩ := NumOut.cst (ihl _ h1) hk.1
        obtain ⟨C1, C2, C3⟩ := NumOut.cst (ihr _ h2) hk.2
        exact .inr ⟨by rw [isConstant2, hk.1, hk.2]; rfl, A3 hk.1 hk.2,
          mkFn_cst hf (by simp [B1, C1]) h3, refines2 hf (by tauto) B2 C2 h3⟩
    · obtain ⟨A1, A2, A3⟩ := anyIs_bits (ihl _ h1) (ihr _ h2)
      rcases hk : (isConstant l && isConstant r) with _ | _
      · rw [if_neg (by rw [A2]; simp), if_pos (by rw [A1, hk]; rfl)] at hc
        exact .inl ⟨by rw [isConstant2, hk], storeBits_eq hc⟩
      · rw [if_neg (by rw [A2]; simp), if_neg (by rw [A1, hk]; simp)] at hc
        simp only [Bool.and_eq_true] at hk
        simp only [Option.some.injEq] at hc; subst hc
        obtain ⟨B1, B2, B3⟩ := BitsOut.cst (ihl _ h1) hk.1
        obtain ⟨C1, C2, C3⟩ := BitsOut.cst (ihr _ h2) hk.2
        exact .inr ⟨by rw [isConstant2, hk.1, hk.2]; rfl, A3 hk.1 hk.2,
          mkFn_cst hf (by simp [B1, C1]) h3, refines2 hf (by tauto) B2 C2 h3⟩
    · exact absurd rfl hkind
  | shift l r hl hr ihl ihr =>
    intro c hc
    change (do
      let (l', p) ← compile n L U l
      let (r', q) ← compile n L U r
      let e ← mkLeftShift l' r'
      if (l' == .storedBits && canBeStored r') || (canBeStored l' && r' == .stored) then
        storeBits L U (.fn .leftShift [l, r])
      else some (e, p ++ q)) = some c at hc
    simp only [Option.bind_eq_bind, Option.bind_eq_some_iff, Prod.exists] at hc
    obtain ⟨l', p, h1, r', q, h2, e, h3, hc⟩ := hc
    rcases hk1 : isConstant l with _ | _ <;> rcases hk2 : isConstant r with _ | _
    · have B := BitsOut.var (ihl _ h1) hk1
      have C := NumOut.var (ihr _ h2) hk2
      simp only [Prod.mk.injEq] at B C
      rw [if_pos (by simp [B.1, C.1, can_bits, can_stored])] at hc
      exact .inl ⟨by rw [isConstant2, hk1, hk2]; rfl, storeBits_eq hc⟩
    · have B := BitsOut.var (ihl _ h1) hk1
      obtain ⟨C1, C2, C3⟩ := NumOut.cst (ihr _ h2) hk2
      simp only [Prod.mk.injEq] at B
      rw [if_pos (by rw [show canBeStored r' = true from cst_can C1]; simp [B.1])] at hc
      exact .inl ⟨by rw [isConstant2, hk1, hk2]; rfl, storeBits_eq hc⟩
    · obtain ⟨B1, B2, B3⟩ := BitsOut.cst (ihl _ h1) hk1
      have C := NumOut.var (ihr _ h2) hk2
      simp only [Prod.mk.injEq] at C
      rw [if_pos (by rw [show canBeStored l' = true from cst_can B1]; simp [C.1])] at hc
      exact .inl ⟨by rw [isConstant2, hk1, hk2]; rfl, storeBits_eq hc⟩
    · obtain ⟨B1, B2, B3⟩ := BitsOut.cst (ihl _ h1) hk1
      obtain ⟨C1, C2, C3⟩ := NumOut.cst (ihr _ h2) hk2
      have n1 : l' ≠ .storedBits := cst_ne_bits B1
      have n2 : r' ≠ .stored := cst_ne_stored C1
      rw [if_neg (by simp [n1, n2])] at hc
      simp only [Option.some.injEq] at hc; subst hc
      exact .inr ⟨by rw [isConstant2, hk1, hk2]; rfl, by simp only at B3 C3; simp [B3, C3],
        mkFn_cst (n := n) (name := .leftShift) (args := [l', r']) (by decide)
          (by simp [B1, C1]) h3,
        refines2 (n := n) (name := .leftShift) (by decide) (by simp) B2 C2 h3⟩
  | compare name k l r hn hkind hl hr hcc ihl ihr =>
    intro c hc
    rw [compile_fn2 (by tauto)] at hc
    simp only [Option.bind_eq_bind, Option.bind_eq_some_iff, Prod.exists] at hc
    obtain ⟨l', p, h1, r', q, h2, e, h3, hc⟩ := hc
    have hk : (isConstant l && isConstant r) = false := by
      rcases hcc with h | h <;> simp [h]
    rcases k with _ | _ | _
    · obtain ⟨A1, A2, A3⟩ := anyIs_num (ihl _ h1) (ihr _ h2)
      rw [if_pos (by rw [A1, hk]; rfl)] at hc
      exact ⟨by rw [isConstant2, hk], .inl (storeValue_eq hc)⟩
    · obtain ⟨A1, A2, A3⟩ := anyIs_bits (ihl _ h1) (ihr _ h2)
      rw [if_neg (by rw [A2]; simp), if_pos (by rw [A1, hk]; rfl)] at hc
      exact ⟨by rw [isConstant2, hk], .inr (storeBits_eq hc)⟩
    · exact absurd rfl hkind
  | logical name l r hn hl hr ihl ihr =>
    intro c hc
    rw [compile_fn2 (by tauto)] at hc
    simp only [Option.bind_eq_bind, Option.bind_eq_some_iff, Prod.exists] at hc
    obtain ⟨l', p, h1, r', q, h2, e, h3, hc⟩ := hc
    obtain ⟨b1, B⟩ := ihl _ h1
    obtain ⟨b2, C⟩ := ihr _ h2
    simp only [Prod.mk.injEq] at B C
    have hk : isConstant (.fn name [l, r]) = false := by rw [isConstant2, b1]; rfl
    rcases B with ⟨rfl, -⟩ | ⟨rfl, -⟩ <;> rcases C with ⟨rfl, -⟩ | ⟨rfl, -⟩
    · rw [if_pos (by simp [anyIs, can_stored])] at hc
      exact ⟨hk, .inl (storeValue_eq hc)⟩
    · rw [if_pos (by simp [anyIs, can_bits])] at hc
      exact ⟨hk, .inl (storeValue_eq hc)⟩
    · rw [if_pos (by simp [anyIs, can_bits])] at hc
      exact ⟨hk, .inl (storeValue_eq hc)⟩
    · rw [if_neg (by simp [anyIs]), if_pos (by simp [anyIs, can_bits])] at hc
      exact ⟨hk, .inr (storeBits_eq hc)⟩
  | ifElse t a b ht ha hb iht iha ihb =>
    intro c hc
    change (do
      let (t', p) ← compile n L U t
      let (a', q) ← compile n L U a
      if canBeStored t' && canBeStored a' && canBeStored a' then
        storeValue L U (.fn .ifElse [t, a, b])
      else do
        let (_, r) ← compile n L U b
        some (mkIfElse t' a' a', p ++ q ++ r)) = some c at hc
    simp only [Option.bind_eq_bind, Option.bind_eq_some_iff, Prod.exists] at hc
    obtain ⟨t', p, h1, a', q, h2, hc⟩ := hc
    obtain ⟨b1, B⟩ := iht _ h1
    have ct : canBeStored t' = true := by
      simp only [Prod.mk.injEq] at B
      rcases B with ⟨rfl, -⟩ | ⟨rfl, -⟩ <;> rfl
    have ca : canBeStored a' = true := by
      rcases iha _ h2 with ⟨-, k⟩ | ⟨-, -, k, -⟩
      · simp only [Prod.mk.injEq] at k
        rw [k.1]; rfl
      · exact cst_can k
    rw [if_pos (by simp [ct, ca])] at hc
    exact .inl ⟨by rw [isConstant, isConstantAll, b1]; rfl, storeValue_eq hc⟩

end GATL
