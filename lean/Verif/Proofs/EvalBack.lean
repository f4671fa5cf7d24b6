import Verif.Proofs.Eval
import Verif.Spec.Defined

/-!
# Run-time evaluation is undefined where the value is, and integers have integer types
-/

namespace GATL

open Expr Spec

variable {ρ : Env} {τ : Types}

theorem evalFn_back {name : Name} {ds es : List (Option Val)} (hle : List.Forall₂ OLe es ds)
    (ht : name ≠ .tangent) : OLe (evalFn name es) (interp name ds) := by
  intro v hv
  unfold evalFn at hv
  split at hv <;> try contradiction
  all_goals
    simp only [List.forall₂_cons_left_iff, List.forall₂_nil_left_iff] at hle
  case h_1 => obtain ⟨_, _, ha, ⟨_, _, hb, rfl, rfl⟩, rfl⟩ := hle; rw [ha _ rfl, hb _ rfl]; simpa [interp, runtimeSign] using hv
  case h_2 =>
    obtain ⟨_, _, ha, rfl, rfl⟩ := hle
    rw [ha _ rfl]; simpa [interp, ones_eq_card] using hv
  case h_16 a b =>
    obtain ⟨_, _, ha, ⟨_, _, hb, rfl, rfl⟩, rfl⟩ := hle
    rw [ha _ rfl]
    cases a with
    | false => simpa [interp] using hv
    | true =>
      simp only [if_true] at hv
      split at hv
      · rw [hb _ rfl]; simpa [interp] using hv
      · cases hv
  case h_17 a b =>
    obtain ⟨_, _, ha, ⟨_, _, hb, rfl, rfl⟩, rfl⟩ := hle
    rw [ha _ rfl]
    cases a with
    | true => simpa [interp] using hv
    | false =>
      simp only [Bool.false_eq_true, if_false] at hv
      split at hv
      · rw [hb _ rfl]; simpa [interp] using hv
      · cases hv
  case h_18 t a b =>
    obtain ⟨_, _, ha, ⟨_, _, hb, ⟨_, _, hc, rfl, rfl⟩, rfl⟩, rfl⟩ := hle
    rw [ha _ rfl]
    cases t with
    | true => simp only [if_true] at hv; rw [hb _ hv]; rfl
    | false => simp only [Bool.false_eq_true, if_false] at hv; rw [hc _ hv]; rfl
  case h_19 a =>
    obtain ⟨_, _, ha, rfl, rfl⟩ := hle
    rw [ha _ rfl, ← hv]
    simp only [interp]
    by_cases h : 0 ≤ a
    · rw [if_pos h, abs_of_nonneg h]
    · rw [if_neg h, abs_of_neg (not_le.1 h)]
  all_goals first
    | (obtain ⟨_, _, ha, rfl, rfl⟩ := hle; rw [ha _ rfl]; exact hv)
    | (obtain ⟨_, _, ha, ⟨_, _, hb, rfl, rfl⟩, rfl⟩ := hle; rw [ha _ rfl, hb _ rfl]; exact hv)
    | exact absurd rfl ht

theorem evalPower_back {l l' r : Option Val} {rest : Expr} (hl : OLe l l') (hr : OLe r (den ρ rest)) (h3 : rest ≠ recip 3)
    {v : Val} (hv : evalPower rest l r = some v) : interp .power [l', den ρ rest] = some v := by
  unfold evalPower at hv
  split at hv
  · next x =>
    rw [hl _ rfl]
    have pint : ∀ c : Int, (x ≠ 0 ∨ 0 < c) → PowDefined x (c : ℝ) := by
      intro c hc
      rcases lt_trichotomy x 0 with h | h | h
      · exact .inr (.inr ⟨h, c, rfl⟩)
      · exact .inr (.inl ⟨h, by rcases hc with hc | hc; exact absurd h hc; exact_mod_cast hc⟩)
      · exact .inl h
    split_ifs at hv with h1 h0 h2 h3' h4 h5 h6
    · subst h1
      rw [den, interp, if_pos (pint _ (.inl h0)), ← hv, Real.rpow_intCast, zpow_neg_one, one_div]
    · subst h2
      rw [den, interp, if_pos (pint _ (.inr (by norm_num))), ← hv, Real.rpow_intCast]
      congr 2; norm_cast; rw [sq]
    · subst h3'
      rw [den, interp, if_pos (pint _ (.inr (by norm_num))), ← hv, Real.rpow_intCast]
      congr 2; norm_cast; ring
    · subst h4
      rw [den, interp, if_pos (pint _ (.inr (by norm_num))), ← hv, Real.rpow_intCast]
      congr 2; norm_cast; ring
    · subst h5
      have hd : den ρ (recip 2) = some (.num (2 : ℝ)⁻¹) := by
        have hc' : PowDefined ((2 : Int) : ℝ) ((-1 : Int) : ℝ) := .inl (by norm_num)
        simp only [den, denList, interp, hc', if_true, Option.some.injEq, Val.num.injEq]
        rw [Real.rpow_intCast, zpow_neg_one]; norm_num
      have hp : PowDefined x (2 : ℝ)⁻¹ := by
        rcases h6.lt_or_eq with h | h
        · exact .inl h
        · exact .inr (.inl ⟨h.symm, by norm_num⟩)
      rw [hd, interp, if_pos hp, ← hv, Real.sqrt_eq_rpow]
      norm_num
    · split at hv
      · next y =>
        rw [hr _ rfl]
        unfold stdPow at hv
        split_ifs at hv with hp
        · rw [interp, if_pos hp]; simpa using hv
        · simp at hv
      · cases hv
  · cases hv

theorem prodVals_two {x y : ℝ} {a : Option Val} {as : List (Option Val)} (ha : a = some (.num x))
    (hs : prodVals as = some (.num y)) : prodVals (a :: as) = some (.num (x * y)) := by
  rw [ha, prodVals, hs]

theorem sumVals_two {x y : ℝ} {a : Option Val} {as : List (Option Val)} (ha : a = some (.num x))
    (hs : sumVals as = some (.num y)) : sumVals (a :: as) = some (.num (x + y)) := by
  rw [ha, sumVals, hs]

theorem num1_inv {a : Option Val} {v : Val} (h : num1 a = some v) : ∃ x, a = some (.num x) ∧ v = .num (-x) := by
  unfold num1 at h
  split at h
  · exact ⟨_, rfl, by simpa using h.symm⟩
  · cases h

theorem num2_inv {f : ℝ → ℝ → Option ℝ} {a b : Option Val} {v : Val} (h : num2 f a b = some v) :
    ∃ x y z, a = some (.num x) ∧ b = some (.num y) ∧ f x y = some z ∧ v = .num z := by
  unfold num2 at h
  split at h
  · obtain ⟨z, hz, rfl⟩ := Option.map_eq_some_iff.1 h
    exact ⟨_, _, z, rfl, rfl, hz, rfl⟩
  · cases h

theorem den_recip_back {r : Expr} {x : ℝ} (h : den ρ r = some (.num x)) (h0 : x ≠ 0) :
    den ρ (powerOf r (.const (-1))) = some (.num x⁻¹) := by
  have hp : PowDefined x ((-1 : Int) : ℝ) := by
    rcases lt_or_gt_of_ne h0 with h | h
    · exact .inr (.inr ⟨h, -1, rfl⟩)
    · exact .inl h
  rw [den_fn]
  simp only [denList, den, h, interp, if_pos hp]
  rw [Real.rpow_intCast, zpow_neg_one]

theorem definite_args {name : Name} {args : List Expr} (h : Definite (.fn name args)) : ∀ a ∈ args, Definite a := by
  cases h with
  | leaf _ h => exact absurd rfl (h _ _)
  | fn _ _ h _ _ => exact h

theorem definite_name {name : Name} {args : List Expr} (h : Definite (.fn name args)) :
    name ≠ .tangent ∧ (name = .power → ∀ l, args ≠ [l, recip 3]) := by
  cases h with
  | leaf _ h => exact absurd rfl (h _ _)
  | fn _ _ _ h h' => exact ⟨h, h'⟩

theorem evalMul_num {args : List Expr} (hl : 2 ≤ args.length) {v : Val} (h : evalMul τ ρ args = some v) :
    ∃ x, v = .num x := by
  unfold evalMul at h
  split at h
  · simp at hl
  · simp at hl
  · split_ifs at h
    · obtain ⟨x, -, rfl⟩ := num1_inv h; exact ⟨_, rfl⟩
    · obtain ⟨_, _, z, -, -, -, rfl⟩ := num2_inv h; exact ⟨_, rfl⟩
  · obtain ⟨x, -, rfl⟩ := num1_inv h; exact ⟨_, rfl⟩
  · obtain ⟨_, _, z, -, -, -, rfl⟩ := num2_inv h; exact ⟨_, rfl⟩

theorem evalAdd_num {args : List Expr} (hl : 2 ≤ args.length) {v : Val} (h : evalAdd τ ρ args = some v) :
    ∃ x, v = .num x := by
  unfold evalAdd at h
  split at h
  · simp at hl
  · simp at hl
  · obtain ⟨x, -, rfl⟩ := num1_inv h; exact ⟨_, rfl⟩
  all_goals obtain ⟨_, _, z, -, -, -, rfl⟩ := num2_inv h; exact ⟨_, rfl⟩

theorem eval_back_all (N : Nat) :
    (∀ e, size e ≤ N → Built e → NoIntQuotient τ e → Definite e → OLe (eval τ ρ e) (den ρ e)) ∧
    (∀ args, args ≠ [] → sizeList args ≤ N → (∀ a ∈ args, Built a) → NoIntQuotientAll τ args →
      Tail τ args → (∀ a ∈ args, Definite a) → ∀ x, evalMul τ ρ args = some (.num x) → prodVals (denList ρ args) = some (.num x)) ∧
    (∀ args, args ≠ [] → sizeList args ≤ N → (∀ a ∈ args, Built a) → NoIntQuotientAll τ args →
      (∀ a ∈ args, Definite a) → ∀ x, evalAdd τ ρ args = some (.num x) → sumVals (denList ρ args) = some (.num x)) := by
  induction N with
  | zero =>
    refine ⟨fun e h => ?_, fun args hne h => ?_, fun args hne h => ?_⟩
    · cases e <;> simp [size] at h
    · cases args <;> simp_all [sizeList]
    · cases args <;> simp_all [sizeList]
  | succ N ih =>
    obtain ⟨ihE, ihM, ihA⟩ := ih
    refine ⟨?_, ?_, ?_⟩
    · intro e hs hb hq hd v hv
      unfold eval at hv
      split at hv
      · simpa [den] using hv
      · simpa [den] using hv
      · simpa [den] using hv
      · simpa [den] using hv
      · simpa [den] using hv
      · next l r =>
        rw [den_fn]
        simp only [size, sizeList] at hs
        have hB := built_args hb
        have hQ : NoIntQuotientAll τ [l, r] := by simpa [NoIntQuotient] using hq
        simp only [NoIntQuotientAll, and_true] at hQ
        have hr := ihE r (by omega) (hB r (by simp)) hQ.2 (definite_args hd r (by simp))
        have hl := ihE l (by omega) (hB l (by simp)) hQ.1 (definite_args hd l (by simp))
        simp only [denList]
        refine evalPower_back hl hr ?_ hv
        rintro rfl
        exact (definite_name hd).2 rfl l rfl
      · cases hv
      · next args =>
        rw [den_fn]
        simp only [size] at hs
        have hQ := mul_safe hq
        have hlen : 2 ≤ args.length := by
          cases hb with
          | fn _ _ _ _ hm _ => exact hm rfl
        have hne : args ≠ [] := by rintro rfl; simp at hlen
        obtain ⟨x, rfl⟩ := evalMul_num hlen hv
        obtain ⟨a, as, rfl⟩ := List.exists_cons_of_ne_nil hne
        have := ihM _ hne (by omega) (built_args hb) hQ.1 hQ.2 (definite_args hd) x hv
        simpa only [denList, interp] using this
      · next args =>
        rw [den_fn]
        simp only [size] at hs
        have hQ : NoIntQuotientAll τ args := by simpa [NoIntQuotient] using hq
        have hlen : 2 ≤ args.length := by
          cases hb with
          | fn _ _ _ ha _ _ => exact ha rfl
        have hne : args ≠ [] := by rintro rfl; simp at hlen
        obtain ⟨x, rfl⟩ := evalAdd_num hlen hv
        obtain ⟨a, as, rfl⟩ := List.exists_cons_of_ne_nil hne
        have := ihA _ hne (by omega) (built_args hb) hQ (definite_args hd) x hv
        simpa only [denList, interp] using this
      · next name args h1 h2 h3 h4 =>
        rw [den_fn]
        simp only [size] at hs
        have hQ : NoIntQuotientAll τ args := by
          unfold NoIntQuotient at hq
          split at hq
          · next h => cases h; exact hq.1
          · next h => cases h; exact hq
          · next h _ => simp_all
        refine evalFn_back ?_ (definite_name hd).1 v hv
        have hB := built_args hb
        have hS : ∀ a ∈ args, size a ≤ N := fun a ha => by have := size_mem ha; omega
        have hQ' := noIntQuotientAll_mem hQ
        have hD := definite_args hd
        clear * - hB hS hQ' hD ihE
        induction args with
        | nil => simp [denList, evalList]
        | cons a as ih =>
          simp only [denList, evalList]
          refine List.Forall₂.cons (ihE a (hS a (by simp)) (hB a (by simp)) (hQ' a (by simp)) (hD a (by simp))) ?_
          exact ih (fun a ha => hB a (by simp [ha])) (fun a ha => hS a (by simp [ha]))
            (fun a ha => hQ' a (by simp [ha])) (fun a ha => hD a (by simp [ha]))
      all_goals cases hv
    · intro args hne hs hB hQ hT hD v hv
      unfold evalMul at hv
      split at hv
      · exact absurd rfl hne
      · next a =>
        simp only [sizeList] at hs
        have h := ihE a (by omega) (hB a (by simp)) (noIntQuotientAll_mem hQ a (by simp)) (hD a (by simp)) _ hv
        have := prodVals_two (as := []) h rfl
        rwa [mul_one] at this
      · next l r =>
        simp only [sizeList, size] at hs
        have hrb : Built r := built_args (hB (powerOf r (.const (-1))) (by simp)) r (by simp)
        have hrd : Definite r := definite_args (hD (powerOf r (.const (-1))) (by simp)) r (by simp)
        have hrq : NoIntQuotient τ r := by
          have := noIntQuotientAll_mem hQ (powerOf r (.const (-1))) (by simp)
          simp only [powerOf, NoIntQuotient, NoIntQuotientAll] at this
          exact this.1
        split_ifs at hv with hl
        · subst hl
          obtain ⟨x, hx, e⟩ := num1_inv hv
          rcases hr : eval τ ρ r with _ | y | _ | _ <;> rw [hr] at hx <;> simp only [evalPower, reduceCtorEq, if_true] at hx
          split_ifs at hx with h0
          simp only [Option.some.injEq, Val.num.injEq] at hx e
          have h := prodVals_two (x := -1) (as := denList ρ [powerOf r (.const (-1))]) (a := den ρ (.const (-1)))
            (by simp [den]) (prodVals_two (as := []) (den_recip_back (ihE r (by omega) hrb hrq hrd _ hr) h0) rfl)
          simp only [denList] at h ⊢
          rw [h, e, ← hx]
          congr 2; field_simp
        · obtain ⟨x, y, z, hx, hy, hz, e⟩ := num2_inv hv
          have hf : (floating τ l || floating τ r) = true := by
            rcases hT [] l r rfl with h | h | h
            · exact absurd h hl
            · rw [h]; rfl
            · rw [h]; simp
          unfold divide at hz
          rw [if_pos hf] at hz
          split_ifs at hz with h0
          simp only [Option.some.injEq, Val.num.injEq] at hz e
          have h := prodVals_two (as := denList ρ [powerOf r (.const (-1))])
            (ihE l (by omega) (hB l (by simp)) (noIntQuotientAll_mem hQ l (by simp)) (hD l (by simp)) _ hx)
            (prodVals_two (as := []) (den_recip_back (ihE r (by omega) hrb hrq hrd _ hy) h0) rfl)
          simp only [denList] at h ⊢
          rw [h, e, ← hz]
          congr 2; field_simp
      · next rest h1 h2 =>
        obtain ⟨x, hx, e⟩ := num1_inv hv
        have hne' : rest ≠ [] := h1
        simp only [sizeList] at hs
        have h := ihM rest hne' (by omega) (fun a ha => hB a (by simp [ha]))
          (by simp only [NoIntQuotientAll] at hQ; exact hQ.2) hT.cons (fun a ha => hD a (by simp [ha])) _ hx
        have := prodVals_two (a := den ρ (.const (-1))) (x := -1) (by simp [den]) h
        simp only [denList] at this ⊢
        rw [this, e]
        congr 2; ring
      · next a rest h1 h2 h3 =>
        obtain ⟨x, y, z, hx, hy, hz, e⟩ := num2_inv hv
        simp only [sizeList] at hs
        have hne' : rest ≠ [] := h1
        have h := ihM rest hne' (by omega) (fun a ha => hB a (by simp [ha]))
          (by simp only [NoIntQuotientAll] at hQ; exact hQ.2) hT.cons (fun a ha => hD a (by simp [ha])) _ hy
        have := prodVals_two (ihE a (by omega) (hB a (by simp)) (noIntQuotientAll_mem hQ a (by simp)) (hD a (by simp)) _ hx) h
        simp only [denList] at this ⊢
        rw [this, e, ← Option.some.inj hz]
    · have neg : ∀ ls, sizeList ls ≤ N → Built (.fn .mul (.const (-1) :: ls)) →
          NoIntQuotient τ (.fn .mul (.const (-1) :: ls)) → Definite (.fn .mul (.const (-1) :: ls)) →
          ∀ x, evalMul τ ρ ls = some (.num x) → den ρ (.fn .mul (.const (-1) :: ls)) = some (.num (-x)) := by
        intro ls hs hb hq hd x hx
        have hne : ls ≠ [] := by
          rintro rfl
          cases hb with
          | fn _ _ _ _ hm _ => simpa using hm rfl
        obtain ⟨hQ, hT⟩ := mul_safe hq
        have h := ihM ls hne hs (fun a ha => built_args hb a (by simp [ha]))
          (by simp only [NoIntQuotientAll] at hQ; exact hQ.2) hT.cons (fun a ha => definite_args hd a (by simp [ha])) _ hx
        have := prodVals_two (a := den ρ (.const (-1))) (x := -1) (by simp [den]) h
        rw [den_fn]
        simp only [denList, interp]
        rw [this]
        congr 2; ring
      intro args hne hs hB hQ hD v hv
      unfold evalAdd at hv
      split at hv
      · exact absurd rfl hne
      · next a =>
        simp only [sizeList] at hs
        have h := ihE a (by omega) (hB a (by simp)) (noIntQuotientAll_mem hQ a (by simp)) (hD a (by simp)) _ hv
        have := sumVals_two (as := []) h rfl
        rwa [add_zero] at this
      · next ls rs =>
        obtain ⟨w, hw, e⟩ := num1_inv hv
        obtain ⟨x, y, z, hx, hy, hz, e'⟩ := num2_inv hw
        simp only [sizeList, size] at hs
        have h1 := neg ls (by omega) (hB _ (by simp)) (noIntQuotientAll_mem hQ _ (by simp)) (hD _ (by simp)) _ hx
        have h2 := neg rs (by omega) (hB _ (by simp)) (noIntQuotientAll_mem hQ _ (by simp)) (hD _ (by simp)) _ hy
        have := sumVals_two h1 (sumVals_two (as := []) h2 rfl)
        simp only [denList] at this ⊢
        rw [this, e]
        simp only [Option.some.injEq, Val.num.injEq] at hz e'
        rw [e', ← hz]
        congr 2; ring
      · next ls rest h1 h2 =>
        obtain ⟨x, y, z, hx, hy, hz, e⟩ := num2_inv hv
        simp only [sizeList, size] at hs
        have hne' : rest ≠ [] := h1
        have h3 := neg ls (by omega) (hB _ (by simp)) (noIntQuotientAll_mem hQ _ (by simp)) (hD _ (by simp)) _ hy
        have h4 := ihA rest hne' (by omega) (fun a ha => hB a (by simp [ha]))
            (by simp only [NoIntQuotientAll] at hQ; exact hQ.2) (fun a ha => hD a (by simp [ha])) _ hx
        have := sumVals_two h3 h4
        simp only [denList] at this ⊢
        rw [this, e, ← Option.some.inj hz]
        congr 2; ring
      · next l rs _ =>
        obtain ⟨x, y, z, hx, hy, hz, e⟩ := num2_inv hv
        simp only [sizeList, size] at hs
        have h3 := neg rs (by omega) (hB _ (by simp)) (noIntQuotientAll_mem hQ _ (by simp)) (hD _ (by simp)) _ hy
        have h4 := ihE l (by omega) (hB _ (by simp)) (noIntQuotientAll_mem hQ _ (by simp)) (hD _ (by simp)) _ hx
        have := sumVals_two h4 (sumVals_two (as := []) h3 rfl)
        simp only [denList] at this ⊢
        rw [this, e, ← Option.some.inj hz]
        congr 2; ring
      · next a rest h1 _ _ _ =>
        obtain ⟨x, y, z, hx, hy, hz, e⟩ := num2_inv hv
        simp only [sizeList] at hs
        have hne' : rest ≠ [] := h1
        have h4 := ihA rest hne' (by omega) (fun a ha => hB a (by simp [ha]))
            (by simp only [NoIntQuotientAll] at hQ; exact hQ.2) (fun a ha => hD a (by simp [ha])) _ hy
        have h3 := ihE a (by omega) (hB _ (by simp)) (noIntQuotientAll_mem hQ _ (by simp)) (hD _ (by simp)) _ hx
        have := sumVals_two h3 h4
        simp only [denList] at this ⊢
        rw [this, e, ← Option.some.inj hz]

/-- What evaluation returns is the value. -/
theorem eval_back {e : Expr} (hb : Built e) (hq : NoIntQuotient τ e) (hd : Definite e) {v : Val}
    (hv : eval τ ρ e = some v) : den ρ e = some v :=
  (eval_back_all (size e)).1 e le_rfl hb hq hd v hv

theorem truncate_integer (q : ℝ) : ∃ k : ℤ, truncate q = k := by
  unfold truncate
  split_ifs
  · exact ⟨_, rfl⟩
  · exact ⟨_, rfl⟩

theorem floatingMul_cons {a : Expr} {rest : List Expr}
    (h : ¬ ∃ r, rest = [.fn .power [r, .const (-1)]]) :
    floatingMul τ (a :: rest) = (floating τ a || floatingMul τ rest) := by
  rw [floatingMul]
  rintro r rfl
  exact h ⟨r, rfl⟩

theorem floatingMul_minus {ls : List Expr} (hf : floatingMul τ (.const (-1) :: ls) = false) :
    floatingMul τ ls = false := by
  by_cases h : ∃ r, ls = [.fn .power [r, .const (-1)]]
  · obtain ⟨r, rfl⟩ := h
    simp [floatingMul] at hf
  · rw [floatingMul_cons h] at hf
    simp only [Bool.or_eq_false_iff] at hf
    exact hf.2

/-- Whatever has an integer type is an integer. -/
theorem eval_integer_all (hρ : ∀ t i, τ t = false → ∃ k : ℤ, ρ.val t i = k) (N : Nat) :
    (∀ e, size e ≤ N → floating τ e = false → ∀ x, eval τ ρ e = some (.num x) → ∃ k : ℤ, x = k) ∧
    (∀ args, sizeList args ≤ N → floatingMul τ args = false → ∀ x, evalMul τ ρ args = some (.num x) → ∃ k : ℤ, x = k) ∧
    (∀ args, sizeList args ≤ N → floatingAdd τ args = false → ∀ x, evalAdd τ ρ args = some (.num x) → ∃ k : ℤ, x = k) := by
  induction N with
  | zero =>
    refine ⟨fun e h => ?_, fun args h _ x hx => ?_, fun args h _ x hx => ?_⟩
    · cases e <;> simp [size] at h
    · cases args with
      | nil => simp only [evalMul, Option.some.injEq, Val.num.injEq] at hx; exact ⟨0, by simp [← hx]⟩
      | cons a as => simp [sizeList] at h
    · cases args with
      | nil => simp only [evalAdd, Option.some.injEq, Val.num.injEq] at hx; exact ⟨0, by simp [← hx]⟩
      | cons a as => simp [sizeList] at h
  | succ N ih =>
    obtain ⟨ihE, ihM, ihA⟩ := ih
    refine ⟨?_, ?_, ?_⟩
    · intro e hs hf x hx
      unfold eval at hx
      split at hx
      · simp only [Option.some.injEq, Val.num.injEq] at hx; exact ⟨_, hx.symm⟩
      · next t i =>
        simp only [Option.some.injEq, Val.num.injEq] at hx
        simp only [floating] at hf
        rw [← hx]; exact hρ _ _ hf
      · simp at hx
      · simp at hx
      · simp at hx
      · next l r =>
        simp only [size, sizeList] at hs
        have hr : r = .const 2 ∨ r = .const 3 ∨ r = .const 4 := by
          by_contra hc
          unfold floating at hf
          split at hf <;> simp_all
        have hfl : floating τ l = false := by
          rcases hr with rfl | rfl | rfl <;> simpa [floating] using hf
        unfold evalPower at hx
        split at hx
        · next y hy =>
          obtain ⟨k, rfl⟩ := ihE l (by omega) hfl _ hy
          rcases hr with rfl | rfl | rfl <;> simp at hx
          · exact ⟨k * k, by rw [← hx]; push_cast; rfl⟩
          · exact ⟨k * k * k, by rw [← hx]; push_cast; rfl⟩
          · exact ⟨k * k * (k * k), by rw [← hx]; push_cast; rfl⟩
        · cases hx
      · simp at hx
      · next args =>
        simp only [size] at hs
        exact ihM _ (by omega) (by simpa [floating] using hf) _ hx
      · next args =>
        simp only [size] at hs
        exact ihA _ (by omega) (by simpa [floating] using hf) _ hx
      · next name args _ _ _ _ =>
        simp only [size] at hs
        have hl : ∀ args, evalList τ ρ args = args.map (eval τ ρ) := by
          intro args
          induction args with
          | nil => rfl
          | cons a as ih => simp only [evalList, List.map_cons, ih]
        have hn : ∀ n : ℕ, some (Val.num (n : ℝ)) = some (Val.num x) → ∃ k : ℤ, x = k := by
          intro n h
          simp only [Option.some.injEq, Val.num.injEq] at h
          exact ⟨(n : ℤ), by rw [← h]; simp⟩
        rw [hl] at hx
        generalize heq : args.map (eval τ ρ) = vs at hx
        unfold evalFn at hx
        split at hx <;> try (simp at hx; done)
        case h_1 => simp only [Option.some.injEq, Val.num.injEq] at hx; exact ⟨_, hx.symm⟩
        case h_2 => exact hn _ hx
        case h_16 => split_ifs at hx <;> (try split at hx) <;> simp at hx
        case h_17 => split_ifs at hx <;> (try split at hx) <;> simp at hx
        case h_18 =>
          simp only [List.map_eq_cons_iff, List.map_eq_nil_iff] at heq
          obtain ⟨c, _, rfl, hc, a, _, rfl, ha, b, _, rfl, hb, rfl⟩ := heq
          simp only [sizeList] at hs
          simp only [floating, Bool.or_eq_false_iff] at hf
          split_ifs at hx
          · exact ihE a (by omega) hf.1 _ (ha.trans hx)
          · exact ihE b (by omega) hf.2 _ (hb.trans hx)
        case h_19 =>
          simp only [List.map_eq_cons_iff, List.map_eq_nil_iff] at heq
          obtain ⟨c, _, rfl, hc, rfl⟩ := heq
          simp only [sizeList] at hs
          simp only [floating] at hf
          obtain ⟨k, rfl⟩ := ihE c (by omega) hf _ hc
          simp only [Option.some.injEq, Val.num.injEq] at hx
          split_ifs at hx
          · exact ⟨k, hx.symm⟩
          · exact ⟨-k, by rw [← hx]; push_cast; rfl⟩
        case h_7 => split_ifs at hx; exact hn _ hx
        case h_9 => split_ifs at hx; exact hn _ hx
        case h_11 => split_ifs at hx; exact hn _ hx
        all_goals simp [floating] at hf
      all_goals simp at hx
    · intro args hs hf v hv
      unfold evalMul at hv
      split at hv
      · simp only [Option.some.injEq, Val.num.injEq] at hv; exact ⟨0, by simp [← hv]⟩
      · next a =>
        simp only [sizeList] at hs
        rw [floatingMul_cons (by simp)] at hf
        simp only [Bool.or_eq_false_iff] at hf
        exact ihE a (by omega) hf.1 _ hv
      · next l r =>
        rw [floatingMul] at hf
        split_ifs at hf hv with hl
        simp only [Bool.or_eq_false_iff] at hf
        obtain ⟨x, y, z, hx, hy, hz, e⟩ := num2_inv hv
        unfold divide at hz
        simp only [hf.1, hf.2, Bool.or_self, Bool.false_eq_true, if_false] at hz
        split_ifs at hz with h0
        simp only [Option.some.injEq, Val.num.injEq] at hz e
        rw [e, ← hz]
        exact truncate_integer _
      · next rest h1 h2 =>
        obtain ⟨x, hx, e⟩ := num1_inv hv
        simp only [sizeList] at hs
        obtain ⟨k, rfl⟩ := ihM rest (by omega) (floatingMul_minus hf) _ hx
        exact ⟨-k, by simpa using e⟩
      · next a rest h1 h2 h3 =>
        obtain ⟨x, y, z, hx, hy, hz, e⟩ := num2_inv hv
        simp only [sizeList] at hs
        rw [floatingMul_cons (by rintro ⟨r, rfl⟩; exact h2 r rfl)] at hf
        simp only [Bool.or_eq_false_iff] at hf
        obtain ⟨k, rfl⟩ := ihE a (by omega) hf.1 _ hx
        obtain ⟨m, rfl⟩ := ihM rest (by omega) hf.2 _ hy
        simp only [Option.some.injEq, Val.num.injEq] at hz e
        exact ⟨k * m, by rw [e, ← hz]; push_cast; rfl⟩
    · have neg : ∀ ls, sizeList ls ≤ N → floating τ (.fn .mul (.const (-1) :: ls)) = false →
          ∀ x, evalMul τ ρ ls = some (.num x) → ∃ k : ℤ, x = k := by
        intro ls hs hf x hx
        exact ihM ls hs (floatingMul_minus (by simpa [floating] using hf)) x hx
      intro args hs hf v hv
      unfold evalAdd at hv
      split at hv
      · simp only [Option.some.injEq, Val.num.injEq] at hv; exact ⟨0, by simp [← hv]⟩
      all_goals simp only [floatingAdd, Bool.or_eq_false_iff, Bool.or_false] at hf
      all_goals simp only [sizeList, size] at hs
      · next a => exact ihE a (by omega) hf _ hv
      · next ls rs =>
        obtain ⟨w, hw, e⟩ := num1_inv hv
        obtain ⟨x, y, z, hx, hy, hz, e'⟩ := num2_inv hw
        obtain ⟨k, rfl⟩ := neg ls (by omega) hf.1 _ hx
        obtain ⟨m, rfl⟩ := neg rs (by omega) hf.2 _ hy
        simp only [Option.some.injEq, Val.num.injEq] at hz e e'
        exact ⟨-(k + m), by rw [e, e', ← hz]; push_cast; rfl⟩
      · next ls rest h1 h2 =>
        obtain ⟨x, y, z, hx, hy, hz, e⟩ := num2_inv hv
        obtain ⟨m, rfl⟩ := neg ls (by omega) hf.1 _ hy
        obtain ⟨k, rfl⟩ := ihA rest (by omega) hf.2 _ hx
        simp only [Option.some.injEq, Val.num.injEq] at hz e
        exact ⟨k - m, by rw [e, ← hz]; push_cast; rfl⟩
      · next l rs _ =>
        obtain ⟨x, y, z, hx, hy, hz, e⟩ := num2_inv hv
        obtain ⟨m, rfl⟩ := neg rs (by omega) hf.2 _ hy
        obtain ⟨k, rfl⟩ := ihE l (by omega) hf.1 _ hx
        simp only [Option.some.injEq, Val.num.injEq] at hz e
        exact ⟨k - m, by rw [e, ← hz]; push_cast; rfl⟩
      · next a rest h1 _ _ _ =>
        obtain ⟨x, y, z, hx, hy, hz, e⟩ := num2_inv hv
        obtain ⟨m, rfl⟩ := ihA rest (by omega) hf.2 _ hy
        obtain ⟨k, rfl⟩ := ihE a (by omega) hf.1 _ hx
        simp only [Option.some.injEq, Val.num.injEq] at hz e
        exact ⟨k + m, by rw [e, ← hz]; push_cast; rfl⟩

theorem eval_integer (hρ : ∀ t i, τ t = false → ∃ k : ℤ, ρ.val t i = k) {e : Expr} (hf : floating τ e = false)
    {x : ℝ} (hx : eval τ ρ e = some (.num x)) : ∃ k : ℤ, x = k :=
  (eval_integer_all hρ (size e)).1 e le_rfl hf x hx

end GATL
