import Verif.Proofs.Functions
import Verif.Proofs.Depth
import Verif.Spec.Quotients

/-!
# Run-time evaluation computes the value
-/

namespace GATL

open Expr Spec

variable {ρ : Env} {τ : Types}

theorem runtimeSign (a b : Word) : ((reorderingSignRuntime a b : Int) : ℝ) = orderSign a b := by
  rw [← orderSign_eq]
  unfold reorderingSignRuntime reorderingSign
  rw [reorderingLoop_eq, Nat.zero_add]

theorem evalFn_ok {name : Name} {ds es : List (Option Val)} (hle : List.Forall₂ OLe ds es)
    (h1 : name ≠ .power) (h2 : name ≠ .mul) (h3 : name ≠ .add) : OLe (interp name ds) (evalFn name es) := by
  intro v hv
  unfold interp at hv
  split at hv <;> try contradiction
  all_goals
    simp only [List.forall₂_cons_left_iff, List.forall₂_nil_left_iff] at hle
  case h_1 => obtain ⟨_, _, ha, ⟨_, _, hb, rfl, rfl⟩, rfl⟩ := hle; rw [ha _ rfl, hb _ rfl]; simpa [evalFn, runtimeSign] using hv
  case h_2 =>
    obtain ⟨_, _, ha, rfl, rfl⟩ := hle
    rw [ha _ rfl]; simpa [evalFn, ones_eq_card] using hv
  all_goals first
    | (obtain ⟨_, _, ha, rfl, rfl⟩ := hle; rw [ha _ rfl]; exact hv)
    | (obtain ⟨_, _, ha, ⟨_, _, hb, rfl, rfl⟩, rfl⟩ := hle; rw [ha _ rfl, hb _ rfl]; exact hv)
    | (obtain ⟨_, _, ha, ⟨_, _, hb, rfl, rfl⟩, rfl⟩ := hle; rw [ha _ rfl]; exact hv)
    | skip
  case h_20 =>
    obtain ⟨_, _, ha, ⟨_, _, hb, ⟨_, _, hc, rfl, rfl⟩, rfl⟩, rfl⟩ := hle
    rw [ha _ rfl, hb _ hv]; rfl
  case h_21 =>
    obtain ⟨_, _, ha, ⟨_, _, hb, ⟨_, _, hc, rfl, rfl⟩, rfl⟩, rfl⟩ := hle
    rw [ha _ rfl, hc _ hv]; rfl
  case h_22 a =>
    obtain ⟨_, _, ha, rfl, rfl⟩ := hle
    rw [ha _ rfl, ← hv]
    simp only [evalFn]
    by_cases h : 0 ≤ a
    · rw [if_pos h, abs_of_nonneg h]
    · rw [if_neg h, abs_of_neg (not_le.1 h)]
  case h_27 a =>
    obtain ⟨_, _, ha, rfl, rfl⟩ := hle
    rw [ha _ rfl]
    split_ifs at hv
    exact hv

/-- The value of a power is computed by its special forms. -/
theorem evalPower_ok {l r : Option Val} {rest : Expr} (hr : OLe (den ρ rest) r) {v : Val}
    (hv : interp .power [l, den ρ rest] = some v) : evalPower rest l r = some v := by
  have key : ∃ x y, l = some (.num x) ∧ den ρ rest = some (.num y) ∧ PowDefined x y ∧
      v = .num (x ^ y) := by
    unfold interp at hv
    split at hv <;> simp_all
  obtain ⟨x, y, rfl, hy, hp, rfl⟩ := key
  unfold evalPower
  simp only
  have cst : ∀ c : Int, rest = .const c → y = c := by
    rintro c rfl
    simpa [den] using hy.symm
  have hrec : ∀ c : Int, 0 < c → rest = recip c → y = (c : ℝ)⁻¹ := by
    rintro c hc rfl
    have hc' : PowDefined (c : ℝ) ((-1 : Int) : ℝ) := .inl (by exact_mod_cast hc)
    simp only [den, denList, interp, hc', if_true, Option.some.injEq, Val.num.injEq] at hy
    rw [← hy, Real.rpow_intCast, zpow_neg_one]
  split_ifs with h1 h0 h2 h3 h4 h5 h0 h6
  · have := cst _ h1
    subst this
    rcases hp with hp | hp | hp
    · exact absurd h0 hp.ne'
    · norm_num at hp
    · exact absurd h0 hp.1.ne
  · have := cst _ h1
    subst this
    rw [Real.rpow_intCast, zpow_neg_one, one_div]
  · have := cst _ h2
    subst this
    rw [Real.rpow_intCast]; norm_cast; rw [sq]
  · have := cst _ h3
    subst this
    rw [Real.rpow_intCast]; norm_cast; congr 2; ring
  · have := cst _ h4
    subst this
    rw [Real.rpow_intCast]; norm_cast; congr 2; ring
  · have := hrec 2 (by norm_num) h5
    rw [Real.sqrt_eq_rpow, this]; norm_num
  · have := hrec 2 (by norm_num) h5
    rcases hp with hp | hp | ⟨_, n, hn⟩
    · exact absurd hp.le h0
    · exact absurd hp.1.ge h0
    · exfalso
      rw [this] at hn
      have h2 : (2 : ℝ) * n = 1 := by rw [← hn]; norm_num
      have h2' : 2 * n = 1 := by exact_mod_cast h2
      omega
  · have := hrec 3 (by norm_num) h6
    unfold cubeRoot
    rcases le_or_gt 0 x with hx | hx
    · rw [if_pos hx, this]; norm_num
    · rcases hp with hp | hp | ⟨_, n, hn⟩
      · exact absurd hp hx.not_gt
      · exact absurd hp.1 hx.ne
      · exfalso
        rw [this] at hn
        have h2 : (3 : ℝ) * n = 1 := by rw [← hn]; norm_num
        have h2' : 3 * n = 1 := by exact_mod_cast h2
        omega
  · rw [hr _ hy]
    simp [stdPow, hp]

theorem prodVals_cons {a : Option Val} {as : List (Option Val)} {v : Val}
    (h : prodVals (a :: as) = some v) :
    ∃ x y, a = some (.num x) ∧ prodVals as = some (.num y) ∧ v = .num (x * y) := by
  unfold prodVals at h
  split at h <;> simp_all
  split at h <;> simp_all

theorem sumVals_cons {a : Option Val} {as : List (Option Val)} {v : Val}
    (h : sumVals (a :: as) = some v) :
    ∃ x y, a = some (.num x) ∧ sumVals as = some (.num y) ∧ v = .num (x + y) := by
  unfold sumVals at h
  split at h <;> simp_all
  split at h <;> simp_all

theorem noIntQuotientAll_mem {args : List Expr} (h : NoIntQuotientAll τ args) :
    ∀ a ∈ args, NoIntQuotient τ a := by
  induction args with
  | nil => simp
  | cons a as ih =>
    unfold NoIntQuotientAll at h
    intro b hb
    rcases List.mem_cons.1 hb with rfl | hb
    · exact h.1
    · exact ih h.2 b hb

/-- The condition on quotients for the factors of a product. -/
def Tail (τ : Types) (args : List Expr) : Prop :=
  ∀ pre l r, args = pre ++ [l, powerOf r (.const (-1))] →
    l = .const (-1) ∨ floating τ l = true ∨ floating τ r = true

theorem Tail.cons {a : Expr} {args : List Expr} (h : Tail τ (a :: args)) : Tail τ args :=
  fun pre l r e => h (a :: pre) l r (by rw [e]; rfl)

theorem mul_safe {args : List Expr} (h : NoIntQuotient τ (.fn .mul args)) :
    NoIntQuotientAll τ args ∧ Tail τ args := by
  unfold NoIntQuotient at h; exact h

theorem size_mem {a : Expr} {args : List Expr} (h : a ∈ args) : size a < sizeList args := by
  induction args with
  | nil => simp at h
  | cons b as ih =>
    rw [sizeList]
    rcases List.mem_cons.1 h with rfl | h
    · omega
    · have := ih h; omega

theorem built_args {name : Name} {args : List Expr} (h : Built (.fn name args)) :
    ∀ a ∈ args, Built a := by cases h; assumption

theorem den_recip {r : Expr} {x : ℝ} (h : den ρ (powerOf r (.const (-1))) = some (.num x)) :
    ∃ y, den ρ r = some (.num y) ∧ y ≠ 0 ∧ x = y⁻¹ := by
  rw [den_fn] at h
  simp only [denList, den] at h
  rcases hr : den ρ r with _ | y | _ | _ <;> rw [hr] at h <;> simp only [interp, reduceCtorEq] at h
  split_ifs at h with hp
  refine ⟨y, rfl, ?_, ?_⟩
  · rintro rfl
    rcases hp with hp | hp | hp
    · exact lt_irrefl _ hp
    · norm_num at hp
    · exact lt_irrefl _ hp.1
  · simp only [Option.some.injEq, Val.num.injEq] at h
    rw [← h, Real.rpow_intCast, zpow_neg_one]

theorem eval_all (N : Nat) :
    (∀ e, size e ≤ N → Built e → NoIntQuotient τ e → OLe (den ρ e) (eval τ ρ e)) ∧
    (∀ args, args ≠ [] → sizeList args ≤ N → (∀ a ∈ args, Built a) → NoIntQuotientAll τ args →
      Tail τ args → OLe (prodVals (denList ρ args)) (evalMul τ ρ args)) ∧
    (∀ args, args ≠ [] → sizeList args ≤ N → (∀ a ∈ args, Built a) → NoIntQuotientAll τ args →
      OLe (sumVals (denList ρ args)) (evalAdd τ ρ args)) := by
  induction N with
  | zero =>
    refine ⟨fun e h => ?_, fun args hne h => ?_, fun args hne h => ?_⟩
    · cases e <;> simp [size] at h
    · cases args <;> simp_all [sizeList]
    · cases args <;> simp_all [sizeList]
  | succ N ih =>
    obtain ⟨ihE, ihM, ihA⟩ := ih
    refine ⟨?_, ?_, ?_⟩
    · intro e hs hb hq v hv
      unfold eval
      split
      · simpa [den] using hv
      · simpa [den] using hv
      · simpa [den] using hv
      · simpa [den] using hv
      · simpa [den] using hv
      · next l r =>
        rw [den_fn] at hv
        simp only [size, sizeList] at hs
        have hB := built_args hb
        have hQ : NoIntQuotientAll τ [l, r] := by simpa [NoIntQuotient] using hq
        simp only [NoIntQuotientAll, and_true] at hQ
        have hr := ihE r (by omega) (hB r (by simp)) hQ.2
        simp only [denList] at hv
        rcases hl : den ρ l with _ | x
        · rw [hl] at hv; simp [interp] at hv
        · rw [ihE l (by omega) (hB l (by simp)) hQ.1 _ hl]
          rw [hl] at hv
          exact evalPower_ok hr hv
      · next args hne =>
        obtain ⟨l, r, rfl, _⟩ : ∃ l r, args = [l, r] ∧ Direct l := by
          cases hb with
          | fn _ _ _ _ _ hp => exact hp rfl
        exact absurd rfl (hne l r)
      · next args =>
        rw [den_fn] at hv
        simp only [size] at hs
        have hQ := mul_safe hq
        have hne : args ≠ [] := by
          rintro rfl; simp [denList, interp] at hv
        obtain ⟨a, as, rfl⟩ := List.exists_cons_of_ne_nil hne
        refine ihM _ hne (by omega) (built_args hb) hQ.1 hQ.2 v ?_
        simpa only [denList, interp] using hv
      · next args =>
        rw [den_fn] at hv
        simp only [size] at hs
        have hQ : NoIntQuotientAll τ args := by simpa [NoIntQuotient] using hq
        have hne : args ≠ [] := by
          rintro rfl; simp [denList, interp] at hv
        obtain ⟨a, as, rfl⟩ := List.exists_cons_of_ne_nil hne
        refine ihA _ hne (by omega) (built_args hb) hQ v ?_
        simpa only [denList, interp] using hv
      · next name args h1 h2 h3 h4 =>
        rw [den_fn] at hv
        simp only [size] at hs
        have hQ : NoIntQuotientAll τ args := by
          unfold NoIntQuotient at hq
          split at hq
          · next h => cases h; exact hq.1
          · next h => cases h; exact hq
          · next h _ => simp_all
        refine evalFn_ok ?_ (fun h => h2 h) (fun h => h3 h) (fun h => h4 h) v hv
        have hB := built_args hb
        have hS : ∀ a ∈ args, size a ≤ N := fun a ha => by have := size_mem ha; omega
        have hQ' := noIntQuotientAll_mem hQ
        clear * - hB hS hQ' ihE
        induction args with
        | nil => simp [denList, evalList]
        | cons a as ih =>
          simp only [denList, evalList]
          refine List.Forall₂.cons (ihE a (hS a (by simp)) (hB a (by simp)) (hQ' a (by simp))) ?_
          exact ih (fun a ha => hB a (by simp [ha])) (fun a ha => hS a (by simp [ha]))
            (fun a ha => hQ' a (by simp [ha]))
      all_goals simp [den] at hv
    · intro args hne hs hB hQ hT v hv
      unfold evalMul
      split
      · exact absurd rfl hne
      · next a =>
        obtain ⟨x, y, hx, hy, rfl⟩ := prodVals_cons hv
        simp only [denList, prodVals, Option.some.injEq, Val.num.injEq] at hy
        subst hy
        simp only [sizeList] at hs
        rw [mul_one]
        exact ihE a (by omega) (hB a (by simp)) (noIntQuotientAll_mem hQ a (by simp)) _ hx
      · next l r =>
        obtain ⟨x, y, hx, hy, rfl⟩ := prodVals_cons hv
        obtain ⟨z, w, hz, hw, e⟩ := prodVals_cons hy
        simp only [denList, prodVals, Option.some.injEq, Val.num.injEq] at hw
        subst hw
        rw [mul_one, Val.num.injEq] at e
        subst e
        obtain ⟨u, hu, hu0, rfl⟩ := den_recip hz
        simp only [sizeList, size] at hs
        have hrb : Built r := built_args (hB (powerOf r (.const (-1))) (by simp)) r (by simp)
        have hrq : NoIntQuotient τ r := by
          have := noIntQuotientAll_mem hQ (powerOf r (.const (-1))) (by simp)
          simp only [powerOf, NoIntQuotient, NoIntQuotientAll] at this
          exact this.1
        rw [ihE r (by omega) hrb hrq _ hu]
        split_ifs with hl
        · subst hl
          simp only [den, Option.some.injEq, Val.num.injEq] at hx
          simp only [evalPower, if_true, if_neg hu0, num1]
          rw [← hx]; push_cast; congr 2; field_simp
        · rw [ihE l (by omega) (hB l (by simp)) (noIntQuotientAll_mem hQ l (by simp)) _ hx]
          have hf : (floating τ l || floating τ r) = true := by
            rcases hT [] l r rfl with h | h | h
            · exact absurd h hl
            · rw [h]; rfl
            · rw [h]; simp
          simp only [num2, divide, if_neg hu0, hf, if_true, Option.map_some]
          rw [div_eq_mul_inv]
      · next rest h1 h2 =>
        obtain ⟨x, y, hx, hy, rfl⟩ := prodVals_cons hv
        have hne' : rest ≠ [] := h1
        simp only [sizeList] at hs
        rw [ihM rest hne' (by omega) (fun a ha => hB a (by simp [ha]))
          (by simp only [NoIntQuotientAll] at hQ; exact hQ.2) hT.cons _ hy]
        simp only [den, Option.some.injEq, Val.num.injEq] at hx
        rw [← hx, num1]; push_cast; congr 2; ring
      · next a rest h1 h2 h3 =>
        obtain ⟨x, y, hx, hy, rfl⟩ := prodVals_cons hv
        simp only [sizeList] at hs
        have hne' : rest ≠ [] := h1
        rw [ihM rest hne' (by omega) (fun a ha => hB a (by simp [ha]))
          (by simp only [NoIntQuotientAll] at hQ; exact hQ.2) hT.cons _ hy,
          ihE a (by omega) (hB a (by simp)) (noIntQuotientAll_mem hQ a (by simp)) _ hx]
        rfl
    · have neg : ∀ ls, sizeList ls ≤ N → Built (.fn .mul (.const (-1) :: ls)) →
          NoIntQuotient τ (.fn .mul (.const (-1) :: ls)) →
          ∀ x, den ρ (.fn .mul (.const (-1) :: ls)) = some (.num x) →
            evalMul τ ρ ls = some (.num (-x)) := by
        intro ls hs hb hq x hx
        have hne : ls ≠ [] := by
          rintro rfl
          cases hb with
          | fn _ _ _ _ hm _ => simpa using hm rfl
        obtain ⟨hQ, hT⟩ := mul_safe hq
        rw [den_fn] at hx
        simp only [denList, interp] at hx
        obtain ⟨y, z, hy, hz, e⟩ := prodVals_cons hx
        simp only [den, Option.some.injEq, Val.num.injEq] at hy
        rw [Val.num.injEq] at e
        rw [ihM ls hne hs (fun a ha => built_args hb a (by simp [ha]))
          (by simp only [NoIntQuotientAll] at hQ; exact hQ.2) hT.cons _ hz, e, ← hy]
        push_cast; congr 2; ring
      intro args hne hs hB hQ v hv
      unfold evalAdd
      split
      · exact absurd rfl hne
      · next a =>
        obtain ⟨x, y, hx, hy, rfl⟩ := sumVals_cons hv
        simp only [denList, sumVals, Option.some.injEq, Val.num.injEq] at hy
        subst hy
        simp only [sizeList] at hs
        rw [add_zero]
        exact ihE a (by omega) (hB a (by simp)) (noIntQuotientAll_mem hQ a (by simp)) _ hx
      · next ls rs =>
        obtain ⟨x, y, hx, hy, rfl⟩ := sumVals_cons hv
        obtain ⟨z, w, hz, hw, e⟩ := sumVals_cons hy
        simp only [denList, sumVals, Option.some.injEq, Val.num.injEq] at hw
        subst hw
        rw [add_zero, Val.num.injEq] at e
        subst e
        simp only [sizeList, size] at hs
        rw [neg ls (by omega) (hB _ (by simp)) (noIntQuotientAll_mem hQ _ (by simp)) _ hx,
          neg rs (by omega) (hB _ (by simp)) (noIntQuotientAll_mem hQ _ (by simp)) _ hz]
        simp only [num2, num1, Option.map_some]
        congr 2; ring
      · next ls rest h1 h2 =>
        obtain ⟨x, y, hx, hy, rfl⟩ := sumVals_cons hv
        simp only [sizeList, size] at hs
        have hne' : rest ≠ [] := h1
        rw [neg ls (by omega) (hB _ (by simp)) (noIntQuotientAll_mem hQ _ (by simp)) _ hx,
          ihA rest hne' (by omega) (fun a ha => hB a (by simp [ha]))
            (by simp only [NoIntQuotientAll] at hQ; exact hQ.2) _ hy]
        simp only [num2, Option.map_some]
        congr 2; ring
      · next l rs _ =>
        obtain ⟨x, y, hx, hy, rfl⟩ := sumVals_cons hv
        obtain ⟨z, w, hz, hw, e⟩ := sumVals_cons hy
        simp only [denList, sumVals, Option.some.injEq, Val.num.injEq] at hw
        subst hw
        rw [add_zero, Val.num.injEq] at e
        subst e
        simp only [sizeList, size] at hs
        rw [neg rs (by omega) (hB _ (by simp)) (noIntQuotientAll_mem hQ _ (by simp)) _ hz,
          ihE l (by omega) (hB _ (by simp)) (noIntQuotientAll_mem hQ _ (by simp)) _ hx]
        simp only [num2, Option.map_some]
        congr 2; ring
      · next a rest h1 _ _ _ =>
        obtain ⟨x, y, hx, hy, rfl⟩ := sumVals_cons hv
        simp only [sizeList] at hs
        have hne' : rest ≠ [] := h1
        rw [ihA rest hne' (by omega) (fun a ha => hB a (by simp [ha]))
            (by simp only [NoIntQuotientAll] at hQ; exact hQ.2) _ hy,
          ihE a (by omega) (hB _ (by simp)) (noIntQuotientAll_mem hQ _ (by simp)) _ hx]
        rfl

/-- Where the value is defined and no integers are divided, run-time evaluation computes it. -/
theorem eval_ok {e : Expr} (hb : Built e) (hq : NoIntQuotient τ e) {v : Val}
    (hv : den ρ e = some v) : eval τ ρ e = some v :=
  (eval_all (size e)).1 e le_rfl hb hq v hv

/-- Division of integers in C++ is `Int.tdiv`. -/
theorem truncate_eq (a b : ℤ) (h0 : b ≠ 0) : truncate (a / b : ℝ) = ((a.tdiv b : ℤ) : ℝ) := by
  unfold truncate
  have hb0 : (b : ℝ) ≠ 0 := by exact_mod_cast h0
  have h := Int.tmod_add_mul_tdiv a b
  have hab : |(a.tmod b)| < |b| := by
    rw [Int.abs_eq_natAbs, Int.abs_eq_natAbs, Int.natAbs_tmod]
    exact_mod_cast Nat.mod_lt _ (Int.natAbs_pos.2 h0)
  have hpos : 0 ≤ a → 0 ≤ a.tmod b := fun h => Int.tmod_nonneg _ h
  have hneg : a ≤ 0 → a.tmod b ≤ 0 := fun h => by
    have := Int.tmod_nonneg b (a := -a) (by omega)
    rw [Int.neg_tmod] at this; omega
  generalize a.tmod b = m at *
  generalize a.tdiv b = t at *
  have e : (a / b : ℝ) = t + m / b := by
    rw [← h]; push_cast; field_simp; ring
  have e1 : |(m / b : ℝ)| < 1 := by
    rw [abs_div, div_lt_one (by positivity)]
    exact_mod_cast hab
  rw [abs_lt] at e1
  split_ifs with hc
  · have : (0 : ℝ) ≤ m / b := by
      rcases le_total 0 a with ha | ha
      · have h1 : (0:ℝ) ≤ m := by exact_mod_cast hpos ha
        rcases lt_or_gt_of_ne hb0 with hb | hb
        · have ha' : (0:ℝ) ≤ a := by exact_mod_cast ha
          have : a = 0 := by
            have : (a:ℝ)/b ≤ 0 := div_nonpos_of_nonneg_of_nonpos ha' hb.le
            have : (a:ℝ)/b = 0 := le_antisymm this hc
            rw [div_eq_zero_iff] at this
            rcases this with h | h
            · exact_mod_cast h
            · exact absurd h hb0
          have h2 := hneg this.le
          have h3 := hpos this.ge
          have : m = 0 := le_antisymm h2 h3
          simp [this]
        · positivity
      · have h1 : (m:ℝ) ≤ 0 := by exact_mod_cast hneg ha
        rcases lt_or_gt_of_ne hb0 with hb | hb
        · exact div_nonneg_of_nonpos h1 hb.le
        · have ha' : (a:ℝ) ≤ 0 := by exact_mod_cast ha
          have : a = 0 := by
            have : (a:ℝ)/b ≤ 0 := div_nonpos_of_nonpos_of_nonneg ha' hb.le
            have : (a:ℝ)/b = 0 := le_antisymm this hc
            rw [div_eq_zero_iff] at this
            rcases this with h | h
            · exact_mod_cast h
            · exact absurd h hb0
          have : m = 0 := le_antisymm (hneg this.le) (hpos this.ge)
          simp [this]
    have : ⌊(a / b : ℝ)⌋ = t := by
      rw [Int.floor_eq_iff, e]; constructor <;> linarith
    rw [this]
  · push Not at hc
    have : (m / b : ℝ) ≤ 0 := by
      rcases le_total 0 a with ha | ha
      · have h1 : (0:ℝ) ≤ m := by exact_mod_cast hpos ha
        rcases lt_or_gt_of_ne hb0 with hb | hb
        · exact div_nonpos_of_nonneg_of_nonpos h1 hb.le
        · have : (0:ℝ) ≤ a / b := by
            have : (0:ℝ) ≤ a := by exact_mod_cast ha
            positivity
          linarith
      · have h1 : (m:ℝ) ≤ 0 := by exact_mod_cast hneg ha
        rcases lt_or_gt_of_ne hb0 with hb | hb
        · have : (0:ℝ) ≤ a / b := by
            have : (a:ℝ) ≤ 0 := by exact_mod_cast ha
            exact div_nonneg_of_nonpos this hb.le
          linarith
        · exact div_nonpos_of_nonpos_of_nonneg h1 hb.le
    have : ⌈(a / b : ℝ)⌉ = t := by
      rw [Int.ceil_eq_iff, e]; constructor <;> linarith
    rw [this]

end GATL
