import Verif.Proofs.Lazy
import Verif.Proofs.Canonical

/-!
# Evaluation of sums of components in a lazy context
-/

namespace GATL

open Expr Spec

variable {n L U N : Nat} {τ : Types} {ρ ρ' : Env}

/-- Two environments agree on the variables with tags up to `B`. -/
def Agree (B : Nat) (ρ ρ' : Env) : Prop :=
  ∀ t ≤ B, ∀ i, ρ.val t i = ρ'.val t i ∧ ρ.bits t i = ρ'.bits t i

mutual
theorem den_agree {B : Nat} (h : Agree B ρ ρ') : ∀ e : Expr, greaterId e ≤ B → den ρ e = den ρ' e
  | .fn name args, hg => by
    rw [den_fn, den_fn, denList_agree h args (by simpa [greaterId] using hg)]
  | .const _, _ => by simp [den]
  | .cbits _, _ => by simp [den]
  | .value t i, hg => by
    rw [den, den, (h t (by simpa [greaterId] using hg) i).1]
  | .mapValues _ _, _ => by simp [den]
  | .bitset t i, hg => by
    rw [den, den, (h t (by simpa [greaterId] using hg) i).2]
  | .mapBitsets _ _, _ => by simp [den]
  | .cbool _, _ => by simp [den]
  | .stored, _ => by simp [den]
  | .storedMap, _ => by simp [den]
  | .storedBits, _ => by simp [den]
  | .storedMapBits, _ => by simp [den]
theorem denList_agree {B : Nat} (h : Agree B ρ ρ') : ∀ args : List Expr, greaterIdAll args ≤ B →
    denList ρ args = denList ρ' args
  | [], _ => by simp [denList]
  | a :: as, hg => by
    rw [greaterIdAll] at hg
    rw [denList, denList, den_agree h a (by omega), denList_agree h as (by omega)]
end

mutual
theorem counts_zero : ∀ e : Expr, hasStored e = false → countValues e = 0 ∧ countBits e = 0
  | .fn name args, h => by
    rw [hasStored] at h
    rw [countValues, countBits]
    exact countsAll_zero args h
  | .const _, _ => ⟨rfl, rfl⟩
  | .cbits _, _ => ⟨rfl, rfl⟩
  | .value _ _, _ => ⟨rfl, rfl⟩
  | .mapValues _ _, _ => ⟨rfl, rfl⟩
  | .bitset _ _, _ => ⟨rfl, rfl⟩
  | .mapBitsets _ _, _ => ⟨rfl, rfl⟩
  | .cbool _, _ => ⟨rfl, rfl⟩
  | .stored, h => by simp [hasStored] at h
  | .storedMap, h => by simp [hasStored] at h
  | .storedBits, h => by simp [hasStored] at h
  | .storedMapBits, h => by simp [hasStored] at h
theorem countsAll_zero : ∀ args : List Expr, hasStoredAny args = false →
    countValuesAll args = 0 ∧ countBitsAll args = 0
  | [], _ => ⟨rfl, rfl⟩
  | a :: as, h => by
    rw [hasStoredAny, Bool.or_eq_false_iff] at h
    have h1 := counts_zero a h.1
    have h2 := countsAll_zero as h.2
    rw [countValuesAll, countBitsAll, h1.1, h1.2, h2.1, h2.2]
    exact ⟨rfl, rfl⟩
end

theorem exec_append {p q : List Instr} {vs ws vs' ws'} (hp : exec τ ρ p = some (vs, ws))
    (hq : exec τ ρ q = some (vs', ws')) : exec τ ρ (p ++ q) = some (vs ++ vs', ws ++ ws') := by
  induction p generalizing vs ws with
  | nil =>
    rw [exec, Option.some.injEq, Prod.mk.injEq] at hp
    rw [← hp.1, ← hp.2]
    exact hq
  | cons i is ih =>
    rcases i with e | e
    · simp only [exec, Option.bind_eq_bind, Option.bind_eq_some_iff, Prod.exists] at hp
      obtain ⟨v, hv, vs1, ws1, h1, h2⟩ := hp
      simp only [Option.some.injEq, Prod.mk.injEq] at h2
      obtain ⟨rfl, rfl⟩ := h2
      simp [exec, hv, ih h1]
    · simp only [exec, Option.bind_eq_bind, Option.bind_eq_some_iff, Prod.exists] at hp
      obtain ⟨v, hv, vs1, ws1, h1, h2⟩ := hp
      simp only [Option.some.injEq, Prod.mk.injEq] at h2
      obtain ⟨rfl, rfl⟩ := h2
      simp [exec, hv, ih h1]

/-- The numbers of values and bitsets written. -/
def writes : List Instr → Nat × Nat
  | [] => (0, 0)
  | .value _ :: is => ((writes is).1 + 1, (writes is).2)
  | .bits _ :: is => ((writes is).1, (writes is).2 + 1)

theorem writes_append (p q : List Instr) : writes (p ++ q) = writes p + writes q := by
  induction p with
  | nil => simp [writes]
  | cons i is ih =>
    rcases i with e | e <;>
    · rw [List.cons_append]
      simp only [writes, ih]
      refine Prod.ext ?_ ?_ <;> simp only [Prod.fst_add, Prod.snd_add] <;> omega

theorem writes_exec {p : List Instr} {vs ws} (h : exec τ ρ p = some (vs, ws)) :
    writes p = (vs.length, ws.length) := by
  induction p generalizing vs ws with
  | nil =>
    rw [exec, Option.some.injEq, Prod.mk.injEq] at h
    rw [← h.1, ← h.2]; rfl
  | cons i is ih =>
    rcases i with e | e <;>
    · simp only [exec, Option.bind_eq_bind, Option.bind_eq_some_iff, Prod.exists] at h
      obtain ⟨v, hv, vs1, ws1, h1, h2⟩ := h
      simp only [Option.some.injEq, Prod.mk.injEq] at h2
      obtain ⟨rfl, rfl⟩ := h2
      simp [writes, ih h1]

/-- The outcome of evaluating a coefficient: stored, or symbolic with the same value. -/
def CoefOut (B : Nat) (e : Expr) (c : Code) : Prop :=
  c = (.stored, [.value e]) ∨
    (c.2 = [] ∧ hasStored c.1 = false ∧ greaterId c.1 ≤ B ∧ Refines e c.1)

mutual
theorem cst_greaterId : ∀ e : Expr, Cst e → greaterId e = 0
  | .fn name args, h => by
    rw [greaterId]
    exact cst_greaterIdAll args (cst_fn.1 h)
  | .const _, _ => rfl
  | .cbits _, _ => rfl
  | .cbool _, _ => rfl
  | .stored, _ => rfl
  | .storedMap, _ => rfl
  | .storedBits, _ => rfl
  | .storedMapBits, _ => rfl
  | .value _ _, h => by rcases h with ⟨_, h⟩ | ⟨_, h⟩ <;> simp at h
  | .mapValues _ _, h => by rcases h with ⟨_, h⟩ | ⟨_, h⟩ <;> simp at h
  | .bitset _ _, h => by rcases h with ⟨_, h⟩ | ⟨_, h⟩ <;> simp at h
  | .mapBitsets _ _, h => by rcases h with ⟨_, h⟩ | ⟨_, h⟩ <;> simp at h
theorem cst_greaterIdAll : ∀ args : List Expr, (∀ a ∈ args, Cst a) → greaterIdAll args = 0
  | [], _ => rfl
  | a :: as, h => by
    rw [greaterIdAll, cst_greaterId a (h a (by simp)),
      cst_greaterIdAll as fun b hb => h b (by simp [hb])]
    rfl
end

theorem NumOut.coef {B : Nat} {e : Expr} {c : Code} (h : NumOut e c) : CoefOut B e c := by
  rcases h with ⟨-, h⟩ | ⟨-, h2, h3, h4⟩
  · exact .inl h
  · exact .inr ⟨h2, (cst_stored _ h3).2.2, by rw [cst_greaterId _ h3]; exact Nat.zero_le _, h4⟩

theorem CoefOut.writes {B : Nat} {e : Expr} {c : Code} (h : CoefOut B e c) :
    writes c.2 = (countValues c.1, countBits c.1) := by
  rcases h with rfl | ⟨h2, h3, -⟩
  · rfl
  · rw [h2, (counts_zero _ h3).1, (counts_zero _ h3).2]; rfl

theorem CoefOut.reads {B : Nat} {e : Expr} {c : Code} (h : CoefOut B e c) {x : ℝ} (hb : Built e)
    (hq : NoIntQuotient τ e) (hx : Denotes ρ e x) (ha : Agree B ρ ρ') :
    ∃ vs, exec τ ρ c.2 = some (vs, []) ∧ CoefReads ρ' c.1 vs x := by
  rcases h with rfl | ⟨h2, h3, hg, h4⟩
  · exact ⟨[x], by simp [exec, eval_ok hb hq hx, asNumber], .stored x⟩
  · exact ⟨[], by rw [h2, exec], .symbolic _ _ h3 (h4 ρ _ hb hx).1
      (by rw [Denotes, ← den_agree ha _ hg]; exact (h4 ρ _ hb hx).2)⟩

/-- Expressions over variables of other contexts. -/
def Foreign (P : Nat → Prop) : Expr → Prop :=
  Over (fun e => IsConst e ∨ ∃ t i, P t ∧ e = .value t i) (fun _ => True) (fun _ => True)

theorem foreign_voc (P : Nat → Prop) :
    Voc (fun e => IsConst e ∨ ∃ t i, P t ∧ e = .value t i) (fun _ => True) (fun _ => True) :=
  ⟨fun v => .inl ⟨v, rfl⟩, trivial, trivial, trivial, fun _ _ => trivial, fun _ _ _ => trivial⟩

theorem foreign_fn {P : Nat → Prop} {name : Name} {args : List Expr} :
    Foreign P (.fn name args) ↔ ∀ a ∈ args, Foreign P a := by
  unfold Foreign
  rw [over_fn]
  simp

mutual
theorem foreign_stored {P : Nat → Prop} : ∀ e : Expr, Foreign P e → hasStored e = false
  | .fn name args, h => by
    rw [hasStored]
    exact foreign_storedAny args (foreign_fn.1 h)
  | .const _, _ => by rw [hasStored] <;> simp
  | .value _ _, _ => by rw [hasStored] <;> simp
  | .cbits _, h => by rcases h with ⟨_, h⟩ | ⟨_, _, _, h⟩ <;> simp at h
  | .mapValues _ _, h => by rcases h with ⟨_, h⟩ | ⟨_, _, _, h⟩ <;> simp at h
  | .stored, h => by rcases h with ⟨_, h⟩ | ⟨_, _, _, h⟩ <;> simp at h
  | .storedMap, h => by rcases h with ⟨_, h⟩ | ⟨_, _, _, h⟩ <;> simp at h
  | .bitset _ _, h => by rcases h with ⟨_, h⟩ | ⟨_, _, _, h⟩ <;> simp at h
  | .mapBitsets _ _, h => by rcases h with ⟨_, h⟩ | ⟨_, _, _, h⟩ <;> simp at h
  | .storedBits, h => by rcases h with ⟨_, h⟩ | ⟨_, _, _, h⟩ <;> simp at h
  | .storedMapBits, h => by rcases h with ⟨_, h⟩ | ⟨_, _, _, h⟩ <;> simp at h
  | .cbool _, h => by rcases h with ⟨_, h⟩ | ⟨_, _, _, h⟩ <;> simp at h
theorem foreign_storedAny {P : Nat → Prop} : ∀ args : List Expr, (∀ a ∈ args, Foreign P a) →
    hasStoredAny args = false
  | [], _ => by simp [hasStoredAny]
  | a :: as, h => by
    rw [hasStoredAny, foreign_stored a (h a (by simp)),
      foreign_storedAny as fun b hb => h b (by simp [hb])]
    rfl
end

mutual
theorem foreign_greaterId {B : Nat} : ∀ e : Expr, Foreign (· ≤ B) e → greaterId e ≤ B
  | .fn name args, h => by
    rw [greaterId]
    exact foreign_greaterIdAll args (foreign_fn.1 h)
  | .const _, _ => Nat.zero_le _
  | .cbits _, _ => Nat.zero_le _
  | .cbool _, _ => Nat.zero_le _
  | .stored, _ => Nat.zero_le _
  | .storedMap, _ => Nat.zero_le _
  | .storedBits, _ => Nat.zero_le _
  | .storedMapBits, _ => Nat.zero_le _
  | .value t i, h => by
    rcases h with ⟨_, h⟩ | ⟨t', i', h1, h⟩
    · simp at h
    · cases h; exact h1
  | .mapValues _ _, h => by rcases h with ⟨_, h⟩ | ⟨_, _, _, h⟩ <;> simp at h
  | .bitset _ _, h => by rcases h with ⟨_, h⟩ | ⟨_, _, _, h⟩ <;> simp at h
  | .mapBitsets _ _, h => by rcases h with ⟨_, h⟩ | ⟨_, _, _, h⟩ <;> simp at h
theorem foreign_greaterIdAll {B : Nat} : ∀ args : List Expr, (∀ a ∈ args, Foreign (· ≤ B) a) →
    greaterIdAll args ≤ B
  | [], _ => Nat.zero_le _
  | a :: as, h => by
    rw [greaterIdAll]
    exact max_le (foreign_greaterId a (h a (by simp)))
      (foreign_greaterIdAll as fun b hb => h b (by simp [hb]))
end

theorem foreign_ne {P : Nat → Prop} {e : Expr} (h : Foreign P e) : e ≠ .stored := by
  rintro rfl
  have := foreign_stored _ h
  simp [hasStored] at this

/-- The outcome for expressions over variables of other contexts. -/
def ForeignOut (P : Nat → Prop) (e : Expr) (c : Code) : Prop :=
  c.2 = [] ∧ Foreign P c.1 ∧ Refines e c.1

theorem ForeignOut.coef {B : Nat} {e : Expr} {c : Code} (h : ForeignOut (· ≤ B) e c) :
    CoefOut B e c := .inr ⟨h.1, foreign_stored _ h.2.1, foreign_greaterId _ h.2.1, h.2.2⟩

theorem compileAdd_foreign {P : Nat → Prop} (args : List Expr)
    (ha : ∀ a ∈ args, ∀ c, compile n L U a = some c → ForeignOut P a c) {c : Code}
    (hc : compileAdd n L U args = some c) :
    c.2 = [] ∧ Foreign P c.1 ∧ ∀ ρ s, SumV ρ args s → V ρ c.1 s := by
  induction args generalizing c with
  | nil => simp [compileAdd] at hc
  | cons a as ih =>
    rcases as with _ | ⟨b, bs⟩
    · rw [compileAdd] at hc
      obtain ⟨h2, h3, h4⟩ := ha a (by simp) c hc
      refine ⟨h2, h3, fun ρ s hs => ?_⟩
      obtain ⟨x, y, hx, hy, rfl⟩ := hs.uncons
      obtain rfl := hy.nil_iff
      have := h4 ρ _ hx.1 hx.2
      exact ⟨this.1, by rw [add_zero]; exact this.2⟩
    · rw [compileAdd.eq_def] at hc
      simp only [Option.bind_eq_bind, Option.bind_eq_some_iff, Prod.exists] at hc
      obtain ⟨a', p, h1, r', q, h2, e, h3, hc⟩ := hc
      obtain ⟨k2, k3, k4⟩ := ha a (by simp) _ h1
      obtain ⟨m2, m3, m4⟩ := ih (fun x hx => ha x (by simp [hx])) h2
      have : anyIs .stored a' r' = false := by
        simp [anyIs, foreign_ne k3, foreign_ne m3]
      simp only [this, Bool.false_eq_true, if_false, Option.some.injEq] at hc
      subst hc
      simp only at k2 m2 k3 m3 k4 m4
      subst k2 m2
      refine ⟨rfl, (simp_over (foreign_voc P) expClosed_true n).add _ _ k3 m3 _ h3,
        fun ρ s hs => ?_⟩
      obtain ⟨x, y, hx, hy, rfl⟩ := hs.uncons
      exact (simp_sound ρ n).add _ _ _ _ _ (k4 ρ _ hx.1 hx.2) (m4 ρ _ hy) h3

theorem compileMul_foreign {P : Nat → Prop} (args : List Expr)
    (ha : ∀ a ∈ args, ∀ c, compile n L U a = some c → ForeignOut P a c) {c : Code}
    (hc : compileMul n L U args = some c) :
    c.2 = [] ∧ Foreign P c.1 ∧ ∀ ρ s, ProdV ρ args s → V ρ c.1 s := by
  induction args generalizing c with
  | nil => simp [compileMul] at hc
  | cons a as ih =>
    rcases as with _ | ⟨b, bs⟩
    · rw [compileMul] at hc
      obtain ⟨h2, h3, h4⟩ := ha a (by simp) c hc
      refine ⟨h2, h3, fun ρ s hs => ?_⟩
      obtain ⟨x, y, hx, hy, rfl⟩ := hs.uncons
      obtain rfl := hy.nil_iff
      have := h4 ρ _ hx.1 hx.2
      exact ⟨this.1, by rw [mul_one]; exact this.2⟩
    · rw [compileMul.eq_def] at hc
      simp only [Option.bind_eq_bind, Option.bind_eq_some_iff, Prod.exists] at hc
      obtain ⟨a', p, h1, r', q, h2, e, h3, hc⟩ := hc
      obtain ⟨k2, k3, k4⟩ := ha a (by simp) _ h1
      obtain ⟨m2, m3, m4⟩ := ih (fun x hx => ha x (by simp [hx])) h2
      have : anyIs .stored a' r' = false := by
        simp [anyIs, foreign_ne k3, foreign_ne m3]
      simp only [this, Bool.false_eq_true, if_false, Option.some.injEq] at hc
      subst hc
      simp only at k2 m2 k3 m3 k4 m4
      subst k2 m2
      refine ⟨rfl, (simp_over (foreign_voc P) expClosed_true n).mul _ _ k3 m3 _ h3,
        fun ρ s hs => ?_⟩
      obtain ⟨x, y, hx, hy, rfl⟩ := hs.uncons
      exact (simp_sound ρ n).mul _ _ _ _ _ (k4 ρ _ hx.1 hx.2) (m4 ρ _ hy) h3

/-- Evaluation of arithmetic expressions over variables of other contexts. -/
theorem compile_foreign {B : Nat} {e : Expr} (h : Arithmetic (· ≤ B) e) :
    ∀ c, compile n (B + 1) U e = some c → ForeignOut (· ≤ B) e c := by
  induction h with
  | const v =>
    intro c hc
    rw [compile_const] at hc
    simp only [Option.some.injEq] at hc; subst hc
    exact ⟨rfl, over_const (foreign_voc _) v, fun ρ w hb hw => ⟨hb, hw⟩⟩
  | value t i hP =>
    intro c hc
    change (if B + 1 ≤ t ∧ t ≤ U then storeValue (B + 1) U (.value t i) else some (.value t i, [])) = some c at hc
    rw [if_neg (by omega)] at hc
    simp only [Option.some.injEq] at hc; subst hc
    exact ⟨rfl, .inr ⟨t, i, hP, rfl⟩, fun ρ w hb hw => ⟨hb, hw⟩⟩
  | add args h ih =>
    intro c hc
    obtain ⟨h1, h2, h3⟩ := compileAdd_foreign args ih hc
    refine ⟨h1, h2, fun ρ v hb hv => ?_⟩
    obtain ⟨x, rfl⟩ := add_num hv
    exact h3 ρ x (V.add_inv ⟨hb, hv⟩).1
  | mul args h ih =>
    intro c hc
    obtain ⟨h1, h2, h3⟩ := compileMul_foreign args ih hc
    refine ⟨h1, h2, fun ρ v hb hv => ?_⟩
    obtain ⟨x, rfl⟩ := mul_num hv
    exact h3 ρ x (V.mul_inv ⟨hb, hv⟩).1
  | power l v hl ih =>
    intro c hc
    change (do
      let (l', p) ← compile n (B + 1) U l
      let (r', q) ← compile n (B + 1) U (.const v)
      let e ← simp n .pow l' r'
      if anyIs .stored l' r' then storeValue (B + 1) U (.fn .power [l, .const v]) else some (e, p ++ q)) =
        some c at hc
    simp only [Option.bind_eq_bind, Option.bind_eq_some_iff, Prod.exists, compile_const,
      Option.some.injEq, Prod.mk.injEq] at hc
    obtain ⟨l', p, h1, r', q, ⟨rfl, rfl⟩, e, h3, hc⟩ := hc
    obtain ⟨B3, B1, B2⟩ := ih _ h1
    have : anyIs .stored l' (.const v) = false := by
      simp [anyIs, foreign_ne B1]
    simp only [this, Bool.false_eq_true, if_false, Option.some.injEq] at hc
    subst hc
    refine ⟨by simpa using B3, (simp_over (foreign_voc _) expClosed_true n).pow _ _ B1
      (over_const (foreign_voc _) v) trivial _ h3, fun ρ w hb hv => ?_⟩
    obtain ⟨z, rfl⟩ := power_num hv
    obtain ⟨x, y, hx, hy, hdir, hd, rfl⟩ := V.power_inv (ρ := ρ) (l := l) (r := .const v) ⟨hb, hv⟩
    exact (simp_sound ρ n).pow _ _ _ _ _ (B2 ρ _ hx.1 hx.2) hy hd (.inl ⟨v, hy.const_eq⟩) h3

/-- Adding a component in front of the others, exactly. -/
theorem addC_front_eq {k : Nat} {c : Comp} {u e : CSum} (hc : Known c) (hu : Canonical u)
    (h : IsZero u ∨ c.coef = .const 0 ∨ ∀ d ∈ u, BeforeC c d) (he : addC k [c] u = some e) :
    Canonical e ∧ From [c] u e ∧ ((c.coef = .const 0 ∧ IsZero u ∧ e = [c]) ∨
      (c.coef = .const 0 ∧ ¬ IsZero u ∧ e = u) ∨
      (c.coef ≠ .const 0 ∧ IsZero u ∧ e = [c]) ∨
      (c.coef ≠ .const 0 ∧ ¬ IsZero u ∧ e = c :: u)) := by
  obtain ⟨j, rfl⟩ := addC_pos he
  obtain ⟨e', he', hce, hf⟩ := addC_front (k := j) hc hu h
  rw [he'] at he
  cases he
  refine ⟨hce, hf, ?_⟩
  rcases u with _ | ⟨b, bs⟩
  · exact absurd rfl hu.1
  have hz : IsZero (b :: bs) ↔ b.coef = .const 0 ∧ bs = [] := by
    constructor
    · rintro ⟨d, hd, h0⟩
      simp only [List.cons.injEq] at hd
      exact ⟨hd.1 ▸ h0, hd.2⟩
    · rintro ⟨h0, rfl⟩
      exact ⟨b, rfl, h0⟩
  rw [hz]
  unfold addC at he'
  by_cases h0 : c.coef = .const 0 <;> by_cases hb : b.coef = .const 0 ∧ bs = []
  · rw [if_pos ⟨h0, rfl⟩, if_pos hb] at he'
    cases he'
    exact .inl ⟨h0, hb, rfl⟩
  · rw [if_pos ⟨h0, rfl⟩, if_neg hb] at he'
    cases he'
    exact .inr (.inl ⟨h0, hb, rfl⟩)
  · rw [if_neg (fun h => h0 h.1), if_pos hb] at he'
    cases he'
    exact .inr (.inr (.inl ⟨h0, hb, rfl⟩))
  · have hbef : ∀ d ∈ b :: bs, BeforeC c d := by
      rcases h with h | h | h
      · exact absurd (hz.1 h) hb
      · exact absurd h h0
      · exact h
    have hcb := hbef b (by simp)
    have hlt := (known_lt hc (canonical_known hu b (by simp))).2 hcb
    rw [if_neg (fun h => h0 h.1), if_neg hb, if_neg (beforeC_ne hc hcb), if_pos hlt, if_pos rfl]
      at he'
    cases he'
    exact .inr (.inr (.inr ⟨h0, hb, rfl⟩))

/-- The storage of a zero. -/
theorem reads_zero {u : CSum} {vs ws m} (hz : IsZero u) (hk : ∀ c ∈ u, Known c)
    (h : Reads ρ N u vs ws m) : vs = [] ∧ ws = [] ∧ m = 0 := by
  obtain ⟨c, rfl, h0⟩ := hz
  obtain ⟨b, eb, -⟩ := hk c (by simp)
  obtain ⟨coef, blade⟩ := c
  simp only at h0 eb
  subst h0 eb
  cases h with
  | cons hc hb hw hs =>
    cases hs
    cases hb
    cases hc with
    | symbolic _ _ h1 h2 h3 =>
      have := V.const_eq ⟨h2, h3⟩
      simp [this]

/-- The static components that evaluation reaches. -/
def Staged (n B U : Nat) (c : Comp) : Prop :=
  Known c ∧ ∀ d, compile n (B + 1) U c.coef = some d → CoefOut B c.coef d

theorem compileComp_known {B : Nat} {c : Comp} {c' : Comp} {p : List Instr} (hc : Staged n B U c)
    (h : compileComp n (B + 1) U c = some (c', p)) :
    Known c' ∧ CoefOut B c.coef (c'.coef, p) ∧ (c'.coef ≠ .const 0 → c'.blade = c.blade) ∧
      (c'.coef = .const 0 → c'.blade = .const 0) := by
  obtain ⟨⟨b, eb, hb⟩, ho⟩ := hc
  unfold compileComp at h
  simp only [Option.bind_eq_bind, Option.bind_eq_some_iff, Prod.exists, eb, compileBlade,
    Option.some.injEq, Prod.mk.injEq] at h
  obtain ⟨x, p', h1, b', q, ⟨rfl, rfl⟩, h2, h3⟩ := h
  rw [List.append_nil] at h3
  subst h3
  obtain ⟨k1, k2, k3⟩ := mkComp_known (c := x) (d := c) ⟨b, eb, hb⟩
  rw [eb] at k1 k2 k3
  subst h2
  refine ⟨k1, ?_, ?_, ?_⟩
  · rw [k2]; exact ho _ h1
  · rw [k2, eb]; exact k3
  · intro h0; rw [k2] at h0; simp [mkComp, h0]

/-- What holds of the result of evaluating a canonical sum. -/
structure SumOut (s s' : CSum) (p : List Instr) : Prop where
  canonical : Canonical s'
  blades : IsZero s' ∨ ∀ d ∈ s', ∃ c ∈ s, d.blade = c.blade
  values : writes p = (countValuesC s', countBitsC s')

theorem known_bits {c : Comp} (h : Known c) : c.blade.countValues = 0 ∧ c.blade.countBits = 0 := by
  obtain ⟨b, eb, -⟩ := h
  rw [eb]; exact ⟨rfl, rfl⟩

theorem isZero_counts {u : CSum} (h : IsZero u) (hk : ∀ c ∈ u, Known c) :
    countValuesC u = 0 ∧ countBitsC u = 0 := by
  obtain ⟨c, rfl, h0⟩ := h
  obtain ⟨h1, h2⟩ := known_bits (hk c (by simp))
  simp [countValuesC, countBitsC, Comp.countValues, Comp.countBits, h0, h1, h2, countValues,
    countBits]

theorem coefReads_zero {vs : List ℝ} {x : ℝ} (h : CoefReads ρ (.const 0) vs x) : vs = [] ∧ x = 0 := by
  cases h with
  | symbolic _ _ h1 h2 h3 =>
    have := V.const_eq ⟨h2, h3⟩
    exact ⟨rfl, by simpa using this⟩

theorem reads_comp {B : Nat} {c c' : Comp} {p : List Instr} (hc : Staged n B U c)
    (h : compileComp n (B + 1) U c = some (c', p)) {m : MV ℝ} (hm : SumDenotes ρ N [c] m)
    (hq : NoIntQuotient τ c.coef) (ha : Agree B ρ ρ') :
    ∃ vs, exec τ ρ p = some (vs, []) ∧ Reads ρ' N [c'] vs [] m := by
  obtain ⟨hk, ho, h1, h2⟩ := compileComp_known hc h
  obtain ⟨hb, ⟨x, t⟩, ⟨hx, ht⟩, hw, rfl⟩ := SumDenotes.single_iff.1 hm
  obtain ⟨vs, he, hr⟩ := ho.reads (τ := τ) hb.1 hq hx ha
  refine ⟨vs, he, ?_⟩
  obtain ⟨coef, blade⟩ := c'
  obtain ⟨b, eb, -⟩ := hc.1
  simp only at h1 h2 hr
  rw [eb] at ht
  have ht' : t = .const b := ht
  subst ht'
  by_cases h0 : coef = .const 0
  · obtain rfl := h2 h0
    subst h0
    obtain ⟨rfl, rfl⟩ := coefReads_zero hr
    have := Reads.cons (ρ := ρ') (n := N) hr (.const 0) (by simp [WellTyped, vecs]) .nil
    simpa using this
  · have hbl := h1 h0
    rw [eb] at hbl
    subst hbl
    have := Reads.cons (ρ := ρ') (n := N) hr (.const b) hw .nil
    simpa using this

theorem reads_append {c : Comp} {u : CSum} {vs ws m vs' ws' m'} (h : Reads ρ N [c] vs ws m)
    (h' : Reads ρ N u vs' ws' m') : Reads ρ N (c :: u) (vs ++ vs') (ws ++ ws') (m + m') := by
  cases h with
  | cons hc hb hw hs =>
    cases hs
    rw [List.append_nil, List.append_nil, add_zero]
    exact .cons hc hb hw h'

/-- Evaluation of a sum of components with static basis blades. -/
theorem compileC_out {B : Nat} : ∀ (s s' : CSum) (p : List Instr), s ≠ [] → (∀ c ∈ s, Staged n B U c) →
    s.Pairwise BeforeC → compileC n (B + 1) U s = some (s', p) →
    SumOut s s' p ∧ ∀ (τ : Types) (ρ ρ' : Env) (N : Nat) (A : MV ℝ), Agree B ρ ρ' → SumDenotes ρ N s A →
      (∀ c ∈ s, NoIntQuotient τ c.coef) →
      ∃ vs, exec τ ρ p = some (vs, []) ∧ Reads ρ' N s' vs [] A
  | [], _, _, hne, _, _, _ => absurd rfl hne
  | [c], s', p, _, hk, _, h => by
    simp only [compileC, Option.bind_eq_bind, Option.bind_eq_some_iff, Prod.exists,
      Option.some.injEq, Prod.mk.injEq] at h
    obtain ⟨c', p', h1, rfl, rfl⟩ := h
    have hs := hk c (by simp)
    obtain ⟨k1, ho, k2, k3⟩ := compileComp_known hs h1
    refine ⟨⟨canonical_single k1, ?_, ?_⟩, fun τ ρ ρ' N A hag hA hq => reads_comp hs h1 hA (hq c (by simp)) hag⟩
    · by_cases h0 : c'.coef = .const 0
      · exact .inl ⟨c', rfl, h0⟩
      · exact .inr fun d hd => ⟨c, by simp, by rw [List.mem_singleton] at hd; rw [hd, k2 h0]⟩
    · rw [ho.writes]
      simp [countValuesC, countBitsC, Comp.countValues, Comp.countBits, known_bits k1]
  | c :: d :: cs, s', p, _, hk, hp, h => by
    rw [compileC.eq_def] at h
    simp only [Option.bind_eq_bind, Option.bind_eq_some_iff, Prod.exists,
      Option.some.injEq, Prod.mk.injEq] at h
    obtain ⟨c', p', h1, u, q, h2, s'', h3, rfl, rfl⟩ := h
    have hs := hk c (by simp)
    obtain ⟨k1, ho, k2, k3⟩ := compileComp_known hs h1
    rw [List.pairwise_cons] at hp
    obtain ⟨⟨hcu, hbu, hwu⟩, hru⟩ := compileC_out (d :: cs) u q (by simp)
      (fun x hx => hk x (by simp at hx ⊢; tauto)) hp.2 h2
    have hcond : IsZero u ∨ c'.coef = .const 0 ∨ ∀ x ∈ u, BeforeC c' x := by
      by_cases h0 : c'.coef = .const 0
      · exact .inr (.inl h0)
      · rcases hbu with hz | hbu
        · exact .inl hz
        · refine .inr (.inr fun x hx => ?_)
          obtain ⟨y, hy, e⟩ := hbu x hx
          exact beforeC_congr_left (beforeC_congr_right (hp.1 y hy) e) (k2 h0)
    obtain ⟨hce, hf, hcase⟩ := addC_front_eq k1 hcu hcond h3
    have hwc := ho.writes
    simp only at hwc
    have hku := canonical_known hcu
    refine ⟨⟨hce, ?_, ?_⟩, fun τ ρ ρ' N A hag hA hq => ?_⟩
    · rcases hcase with ⟨h0, hz, rfl⟩ | ⟨h0, hz, rfl⟩ | ⟨h0, hz, rfl⟩ | ⟨h0, hz, rfl⟩
      · exact .inl ⟨c', rfl, h0⟩
      · rcases hbu with h | h
        · exact absurd h hz
        · refine .inr fun x hx => ?_
          obtain ⟨y, hy, e⟩ := h x hx
          exact ⟨y, by simp at hy ⊢; tauto, e⟩
      · exact .inr fun x hx => ⟨c, by simp, by rw [List.mem_singleton] at hx; rw [hx, k2 h0]⟩
      · rcases hbu with h | h
        · exact absurd h hz
        · refine .inr fun x hx => ?_
          rcases List.mem_cons.1 hx with rfl | hx
          · exact ⟨c, by simp, k2 h0⟩
          · obtain ⟨y, hy, e⟩ := h x hx
            exact ⟨y, by simp at hy ⊢; tauto, e⟩
    · rw [writes_append, hwc, hwu]
      obtain ⟨b1, b2⟩ := known_bits k1
      rcases hcase with ⟨h0, hz, rfl⟩ | ⟨h0, hz, rfl⟩ | ⟨h0, hz, rfl⟩ | ⟨h0, hz, rfl⟩
      · obtain ⟨z1, z2⟩ := isZero_counts hz hku
        rw [z1, z2]
        simp [countValuesC, countBitsC, Comp.countValues, Comp.countBits, b1, b2]
      · simp [h0, countValues, countBits]
      · obtain ⟨z1, z2⟩ := isZero_counts hz hku
        rw [z1, z2]
        simp [countValuesC, countBitsC, Comp.countValues, Comp.countBits, b1, b2]
      · simp [countValuesC, countBitsC, Comp.countValues, Comp.countBits, b1, b2]
    · obtain ⟨m₁, m₂, hm₁, hm₂, rfl⟩ := SumDenotes.cons_iff.1 hA
      obtain ⟨vs₁, e₁, r₁⟩ := reads_comp hs h1 hm₁ (hq c (by simp)) hag
      obtain ⟨vs₂, e₂, r₂⟩ := hru τ ρ ρ' N m₂ hag hm₂ fun x hx => hq x (by simp at hx ⊢; tauto)
      refine ⟨vs₁ ++ vs₂, exec_append e₁ e₂, ?_⟩
      rcases hcase with ⟨h0, hz, rfl⟩ | ⟨h0, hz, rfl⟩ | ⟨h0, hz, rfl⟩ | ⟨h0, hz, rfl⟩
      · obtain ⟨rfl, -, rfl⟩ := reads_zero hz hku r₂
        simpa using r₁
      · obtain ⟨rfl, -, rfl⟩ := reads_zero ⟨c', rfl, h0⟩ (by simpa using k1) r₁
        simpa using r₂
      · obtain ⟨rfl, -, rfl⟩ := reads_zero hz hku r₂
        simpa using r₁
      · exact reads_append r₁ r₂

end GATL
