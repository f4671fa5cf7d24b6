import Verif.Props.Unit
import Verif.Proofs.TestsTotal

/-!
# Quotients of negative integers that do not compile
-/

namespace GATL

open Expr Spec

variable {τ : Types} {ρ : Env} {k : Nat}

/-- The quotient of two negative integers whose quotient is a unit fraction is rejected. -/
theorem negative_quotient (n : Nat) : simp n .mul (.const (-1)) (powerOf (.const (-2)) (.const (-1))) = none := by
  cases n with
  | zero => rfl
  | succ n =>
    change applyRules (mulRules (simp n)) (.const (-1)) (powerOf (.const (-2)) (.const (-1))) = none
    unfold mulRules
    have e3 : simplerRational (simp n) (-1) (-2) = none := by
      have a1 : iabs (-1) = some 1 := by decide
      have a2 : iabs (-2) = some 2 := by decide
      have g : igcd 1 2 = 1 := by decide
      have s : isign (-1) * isign (-2) * 1 = 1 := by decide
      simp only [simplerRational, a1, a2, Option.bind_eq_bind, Option.bind_some, g, if_true, s]
      cases simp n .pow (.const 2) (.const (-1)) with
      | none => rfl
      | some e => simp [mkMul]
    rw [applyRules_skip (by simp [mulZero]), applyRules_skip (by simp [mulOne]),
      applyRules_skip (by simp [mulDistribute, asAdd]),
      applyRules_skip (by simp [mulHelper, asMul, mulCollect1]),
      applyRules_skip (by simp [mulHelper, asMul, mulCollect2, asPower]),
      applyRules_skip (by simp [mulHelper, asMul, mulCollect3, asPower]),
      applyRules_skip (by simp [mulHelper, asMul, mulConst1, asConst, asRecip])]
    exact applyRules_fire (by simp [mulConst2, asConst, asRecip, e3])

theorem contextObject_type {Ms : List Object} (h : ∀ M ∈ Ms, hasStoredC M.expr = false) (e : CSum) :
    ∃ o, contextObject k τ ρ Ms e = some o ∧ o.expr = e :=
  ⟨_, by simp only [contextObject, contextEval_lazy h, Option.bind_eq_bind, Option.bind_some]; rfl, rfl⟩

/-- `e1 - e2`, where the coefficients are known at compile time. -/
abbrev differenceObj : Object := ⟨true, [⟨.const 1, .const 1⟩, ⟨.const (-1), .const 2⟩], [], []⟩

theorem inverse_fails : inverse 0 2 0 k τ ρ differenceObj = none := by
  cases hk : inverse 0 2 0 k τ ρ differenceObj with
  | none => rfl
  | some o =>
    exfalso
    have h := inverseIn_mono (signedSpace_mono 0 2 0) (by omega : k ≤ k + 42) differenceObj o hk
    change inverse 0 2 0 (k + 42) τ ρ differenceObj = some o at h
    have hl : ∀ M ∈ [differenceObj], hasStoredC M.expr = false := by simp [hasStoredC, hasStored, Blade.hasStored]
    have hs : hasStoredC differenceObj.expr = false := rfl
    unfold inverse at h
    rw [arguments_lazy _ hl] at h
    simp only [List.map_cons, List.map_nil, Option.bind_eq_bind, Option.bind_some, Option.bind_eq_some_iff] at h
    obtain ⟨nn, hnn, q, hq, rv, hrv, r, hr, h⟩ := h
    -- the squared norm
    have hnn' : nn.expr = [⟨.const (-2), .const 0⟩] := by
      unfold normSqrObject Program.runLazy at hnn
      rw [arguments_lazy [lazyObject true differenceObj.expr] (List.forall_mem_cons.2 ⟨hs, by simp⟩)] at hnn
      simp only [List.map_cons, List.map_nil, Option.bind_eq_bind, Option.bind_some, List.zipWith_cons_cons,
        List.zipWith_nil_right, Program.run, List.getElem?_cons_zero, Option.bind_eq_some_iff] at hnn
      obtain ⟨s, ⟨r, hr, hs'⟩, h⟩ := hnn
      obtain ⟨e1, h1, h2⟩ := call1_lazy_inv (X := lazyObject true differenceObj.expr) hs hr
      have h1' := gradedMinus_mono (by omega : 40 ≤ k + 42) 0xcccccccccccccccc differenceObj.expr
        [⟨.const 1, .const 1⟩, ⟨.const (-1), .const 2⟩] (by decide +kernel)
      obtain rfl := Option.some.inj (h1.symm.trans h1')
      obtain ⟨e2, h3, h4⟩ := call2_lazy_inv (X := lazyObject true differenceObj.expr) hs (by rw [h2]; rfl) hs'
      rw [h2] at h3
      have h3' := mulC_mono (orth_mono 2 (mkSignedFactor 0 2 0) .sp) (by omega : 40 ≤ k + 42) differenceObj.expr
        [⟨.const 1, .const 1⟩, ⟨.const (-1), .const 2⟩] [⟨.const (-2), .const 0⟩] (by decide +kernel)
      obtain rfl := Option.some.inj (h3.symm.trans h3')
      obtain ⟨o', ho, eo⟩ := contextObject_type (k := k + 42) (τ := τ) (ρ := ρ)
        (Ms := [lazyObject true differenceObj.expr]) (List.forall_mem_cons.2 ⟨hs, by simp⟩) s.expr
      obtain rfl := Option.some.inj (h.symm.trans ho)
      rw [eo, ← h4]
    obtain ⟨z, hz, eq⟩ := powScalar_lazy hnn' (Y := constObject (-1)) rfl rfl rfl hq
    have hz' := simp_mono (by omega : 10 ≤ k + 42) .pow (.const (-2)) (.const (-1))
      (powerOf (.const (-2)) (.const (-1))) (by decide +kernel)
    obtain rfl := Option.some.inj (hz.symm.trans hz')
    obtain ⟨e1, h1, h2⟩ := call1_lazy_inv (X := lazyObject true differenceObj.expr) hs hrv
    have h1' := gradedMinus_mono (by omega : 40 ≤ k + 42) 0xcccccccccccccccc differenceObj.expr
      [⟨.const 1, .const 1⟩, ⟨.const (-1), .const 2⟩] (by decide +kernel)
    obtain rfl := Option.some.inj (h1.symm.trans h1')
    obtain ⟨e2, h3, h4⟩ := call2_lazy_inv (X := rv) (Y := q) (by rw [h2]; rfl) (by rw [eq]; rfl) hr
    rw [h2, eq] at h3
    unfold mulC at h3
    rw [if_neg (by simp), if_neg (by simp)] at h3
    simp only [Option.bind_eq_bind, Option.bind_eq_some_iff] at h3
    obtain ⟨s, -, u, h5, -⟩ := h3
    unfold mulC at h5
    rw [if_neg (by simp), if_neg (by simp), negative_quotient] at h5
    simp at h5

end GATL
