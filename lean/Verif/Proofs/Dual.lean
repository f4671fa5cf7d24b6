import Verif.Model.Dual
import Verif.Proofs.AlgebraTypes
import Verif.Proofs.RationalType
import Verif.Proofs.Algebras

/-!
# The inverse of the pseudoscalar

Lemmas for `Verif.Props.Dual`: the inverse of the pseudoscalar is known at compile time.
-/

namespace GATL

open Expr Spec

variable {τ : Types} {ρ : Env} {P Q k : Nat}

/-- `1` or `-1`. -/
def alternating (n : Nat) : Int := if n % 2 = 0 then 1 else -1

/-- `v I`. -/
def fullBlade (v : Int) (n : Nat) : CSum := [⟨.const v, .const (BitVec.ofNat 64 (2 ^ n - 1))⟩]

theorem reverse_full : ∀ n : Fin 63, reverseExpr 40 (fullBlade 1 n) = some (fullBlade (alternating (n * (n - 1) / 2)) n) := by
  decide +kernel

theorem divide_full : ∀ n : Fin 63, ∀ s : Bool, (do
    let i ← powExpr 40 (fullBlade (if s then 1 else -1) 0) (constSum (-1))
    lazyOnly (← mulC (orthMapping 63 mkRealFactor .gp) 40 (fullBlade (alternating (n * (n - 1) / 2)) n) i))
      = some (fullBlade ((if s then 1 else -1) * alternating (n * (n - 1) / 2)) n) := by
  decide +kernel

theorem factor_full : ∀ P Q : Fin 63, P.val + Q.val ≤ 62 →
    mkSignedFactor P Q 0 (mkAnd (Blade.const (BitVec.ofNat 64 (2 ^ (P.val + Q.val) - 1))).bits
      (Blade.const (BitVec.ofNat 64 (2 ^ (P.val + Q.val) - 1))).bits) = .const (if Q.val % 2 = 0 then 1 else -1) := by
  decide +kernel

theorem norm_full : ∀ n : Fin 63, ∀ s : Bool,
    mulC (orthMapping n (fun _ => .const (if s then 1 else -1)) .sp) 40 (fullBlade 1 n)
      (fullBlade (alternating (n * (n - 1) / 2)) n) = some (fullBlade (if s then 1 else -1) 0) := by
  decide +kernel

theorem mulC_single_congr {M M' : CMapping} {n : Nat} {a b : Comp} (h : M n a.blade b.blade = M' n a.blade b.blade) :
    mulC M (n + 1) [a] [b] = mulC M' (n + 1) [a] [b] := by
  simp only [mulC, h]

theorem orth_congr {dims n : Nat} {f f' : Expr → Expr} {g : GradedProduct} {L R : Blade}
    (h : f (mkAnd L.bits R.bits) = f' (mkAnd L.bits R.bits)) :
    orthMapping dims f g n L R = orthMapping dims f' g n L R := by
  simp only [orthMapping, h]

theorem pseudo_inverse (h : P + Q ≤ 62) : inverseExpr P Q 0 40 (fullBlade 1 (P + Q))
    = some (fullBlade ((if Q % 2 = 0 then 1 else -1) * alternating ((P + Q) * (P + Q - 1) / 2)) (P + Q)) := by
  have h1 := reverse_full ⟨P + Q, by omega⟩
  have h2 := factor_full ⟨P, by omega⟩ ⟨Q, by omega⟩ h
  have h3 := norm_full ⟨P + Q, by omega⟩ (decide (Q % 2 = 0))
  have h4 := divide_full ⟨P + Q, by omega⟩ (decide (Q % 2 = 0))
  simp only [decide_eq_true_eq] at h1 h2 h3 h4
  have h5 : normExpr P Q 0 40 (fullBlade 1 (P + Q)) = some (fullBlade (if Q % 2 = 0 then 1 else -1) 0) := by
    unfold normExpr
    rw [h1, Option.bind_eq_bind, Option.bind_some]
    have h6 : mulC (orthMapping (P + Q + 0) (mkSignedFactor P Q 0) .sp) 40 (fullBlade 1 (P + Q))
        (fullBlade (alternating ((P + Q) * (P + Q - 1) / 2)) (P + Q)) = some (fullBlade (if Q % 2 = 0 then 1 else -1) 0) := by
      rw [← h3]
      exact mulC_single_congr (orth_congr (f' := fun _ => .const (if Q % 2 = 0 then 1 else -1)) h2)
    rw [h6]
    rfl
  unfold inverseExpr
  rw [h5, h1]
  exact h4

theorem pseudo_inverse_object (h : P + Q ≤ 62) (hk : 40 ≤ k) : ∃ fl, inverse P Q 0 k τ ρ ⟨false, fullBlade 1 (P + Q), [], []⟩
    = some ⟨fl, fullBlade ((if Q % 2 = 0 then 1 else -1) * alternating ((P + Q) * (P + Q - 1) / 2)) (P + Q), [], []⟩ := by
  obtain ⟨⟨fl, h1⟩, -⟩ := inverse_pure (τ := τ) (outer := ρ) (k := 40) (X := ⟨false, fullBlade 1 (P + Q), [], []⟩) rfl (pseudo_inverse h)
  rw [← inverse_signed] at h1
  have h2 := inverseIn_mono (signedSpace_mono P Q 0) hk _ _ h1
  rw [inverse_signed] at h2
  exact ⟨fl, h2⟩

theorem call2_floats {f : CSum → CSum → Option CSum} {X : Object} {e : CSum} (he : hasStoredC e = false) (fl fl' : Bool) :
    call2 k τ ρ f X ⟨fl, e, [], []⟩ = call2 k τ ρ f X ⟨fl', e, [], []⟩ := by
  have hi : storedInputs [X, ⟨fl, e, [], []⟩] = storedInputs [X, ⟨fl', e, [], []⟩] := by simp [storedInputs, he, List.filter_cons]
  have hb : baseId [X, ⟨fl, e, [], []⟩] = baseId [X, ⟨fl', e, [], []⟩] := rfl
  have ha : ∀ b, arguments b [X, ⟨fl, e, [], []⟩] = arguments b [X, ⟨fl', e, [], []⟩] := by intro b; simp [arguments, he]
  simp only [call2, hb, ha, contextObject, contextEval, hi]

/-- `dual(A)` is `undual(A)` for the inverse of the pseudoscalar. -/
theorem dual_undual (h : P + Q ≤ 62) (hk : 40 ≤ k) (A : Object) :
    dualProgram.runLazy P Q 0 k τ ρ [A, ⟨false, fullBlade 1 (P + Q), [], []⟩] = undualProgram.runLazy P Q 0 k τ ρ
      [A, ⟨false, fullBlade ((if Q % 2 = 0 then 1 else -1) * alternating ((P + Q) * (P + Q - 1) / 2)) (P + Q), [], []⟩] := by
  obtain ⟨fl, h1⟩ := pseudo_inverse_object (τ := τ) (ρ := ρ) h hk
  have hs : ∀ v : Int, hasStoredC (fullBlade v (P + Q)) = false := fun _ => rfl
  have hg : ∀ v : Int, greaterIdC (fullBlade v (P + Q)) = 0 := fun _ => rfl
  have hb : ∀ v : Int, baseId [A, ⟨false, fullBlade v (P + Q), [], []⟩] = greaterIdC A.expr := by
    intro v; simp [baseId, hg]
  have ha : ∀ (b : Nat) (v : Int), arguments b [A, ⟨false, fullBlade v (P + Q), [], []⟩]
      = (arguments b [A]).map fun as => as ++ [fullBlade v (P + Q)] := by
    intro b v
    simp only [arguments, hs]
    by_cases hA : hasStoredC A.expr
    · simp only [hA, if_true]
      cases tagC (b + 1) 0 0 A.expr <;> simp
    · simp [hA]
  have hi : ∀ v : Int, storedInputs [A, ⟨false, fullBlade v (P + Q), [], []⟩] = storedInputs [A] := by
    intro v; simp [storedInputs, hs, List.filter_cons]
  have hc : ∀ v e, contextObject k τ ρ [A, ⟨false, fullBlade v (P + Q), [], []⟩] e = contextObject k τ ρ [A] e := by
    intro v e
    have : baseId [A] = greaterIdC A.expr := by simp [baseId]
    simp only [contextObject, contextEval, hb, hi, this]
  unfold Rational.runLazy Rational.lazyType Program.runLazy
  simp only [hb, ha, hc]
  cases hx : arguments (greaterIdC A.expr) [A] with
  | none => rfl
  | some as =>
    have : ∃ a, as = [a] := by
      simp only [arguments] at hx
      split_ifs at hx
      · cases ht : tagC (greaterIdC A.expr + 1) 0 0 A.expr with
        | none => simp [ht] at hx
        | some a => simp [ht] at hx; exact ⟨a, hx.symm⟩
      · simp at hx; exact ⟨_, hx.symm⟩
    obtain ⟨a, rfl⟩ := this
    simp only [dualProgram, undualProgram, Rational.run, Program.run, Option.map_some, Option.bind_eq_bind, Option.bind_some,
      List.cons_append, List.nil_append, List.zipWith_cons_cons, List.zipWith_nil_right, List.getElem?_cons_zero,
      List.getElem?_cons_succ]
    have h1' : inverse P Q 0 k τ ρ (lazyObject false (fullBlade 1 (P + Q))) = some ⟨fl, fullBlade _ (P + Q), [], []⟩ := h1
    rw [h1']
    simp only [Option.bind_some, List.cons_append, List.nil_append, List.getElem?_cons_zero, List.getElem?_cons_succ]
    rw [call2_floats (hs _) fl false]
    change Option.bind (Option.bind (call2 _ _ _ _ _ (lazyObject false _)) _) _ = _
    cases call2 k τ ρ (mulC (orthMapping (P + Q + 0) (mkSignedFactor P Q 0) .lcont) k) (lazyObject A.floats a)
      (lazyObject false (fullBlade ((if Q % 2 = 0 then 1 else -1) * alternating ((P + Q) * (P + Q - 1) / 2)) (P + Q))) <;> rfl

end GATL
