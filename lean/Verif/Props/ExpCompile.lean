import Verif.Proofs.ExpTotal
import Verif.Props.Exp

/-!
# Exponentials compile

**C78**: `exp` of multivectors without scalar part.

`expObject P Q R k τ ρ M T` is `exp(M, T)` in the space with signature `(P, Q, R)`, where the scalar `T` is the tolerance
and `k` the depth of template instantiation; `none` says that the call does not compile (or runs into undefined behaviour).
`weightC e` is the sum of the sizes of the coefficients of the type `e` that are known at compile time, where a stored
coefficient counts as `1`.  `IsExponential P Q R B E` says that the exponential series of `B` converges to `E`.
-/

namespace GATL.Props

open Expr Spec

variable {τ : Types} {ρ : Env} {P Q R : Nat}

/-- **C78** `exp(B, tol)` compiles from some instantiation depth on, for every multivector `B` whose type has no scalar
component and whose square is a scalar `s`, and every tolerance that is stored (as the default tolerance is) or whose type
is a constant, in the latter case unless the type of `B` makes the square a constant that exceeds the tolerance.  It is
the sum of the exponential series of `B` if `s` is zero or exceeds the tolerance, and `1 + B` otherwise. -/
theorem C78_exponential (hN : P + Q + R ≤ 62) (M T : Object) (B : MV ℝ) (s tol : ℝ)
    (hM : Represents ρ (P + Q + R) M B) (hT : ScalarValue ρ (P + Q + R) T tol) (h0 : 0 ≤ tol)
    (hs : signedProd P Q R .gp B B = Finsupp.single 0 s) (hb : ∀ c ∈ M.expr, c.blade ≠ .const 0)
    (hw : weightC M.expr < 2 ^ 31) (hz : ∀ c ∈ M.expr, c.coef = .const 0 → c.blade = .const 0)
    (hc : T.expr = [⟨.stored, .const 0⟩] ∨ ∀ c, ConstantSquare ρ P Q R M c → |c| ≤ tol) :
    ∃ depth, ∀ k, depth ≤ k → ∃ o, expObject P Q R k τ ρ M T = some o ∧
      ∃ E, Represents ρ (P + Q + R) o E ∧ (tol < |s| ∨ s = 0 → IsExponential P Q R B E) ∧
        (|s| ≤ tol → E = Finsupp.single 0 1 + B) := by
  obtain ⟨k0, hk⟩ := Total.exp_total (τ := τ) hN hM hT h0 hb hc hw hz
  refine ⟨k0, fun k hle => ?_⟩
  obtain ⟨o, ho⟩ := hk k hle
  have hn : ∀ c, M.expr ≠ [⟨c, .const 0⟩] := fun c e => hb ⟨c, .const 0⟩ (by rw [e]; simp) rfl
  obtain ⟨E, -, h1, h2, h3⟩ := C37_exponential hN M T o B s tol hM hT h0 hs ho
  exact ⟨o, ho, E, h3 hn hc, fun h => h1 (h.imp_right .inl), fun h => h2 h hn⟩

-- the hypotheses hold for `exp(x e1^e2, 1)`
example (x : ℝ) : ∃ depth, ∀ k, depth ≤ k → ∃ o, expObject 3 0 0 k τ ρ (planeObj x) (scalarObj 1) = some o ∧
    ∃ E, Represents ρ 3 o E ∧ (1 < |-x ^ 2| ∨ -x ^ 2 = 0 → IsExponential 3 0 0 (Finsupp.single 3 x) E) ∧
      (|-x ^ 2| ≤ 1 → E = Finsupp.single 0 1 + Finsupp.single 3 x) :=
  C78_exponential (by norm_num) _ _ _ _ 1 (plane_represents x) (scalarObj_value 3 1) (by norm_num) (plane_square x)
    (by simp) (by simp [weightC, coefWeight]) (by simp) (.inl rfl)

end GATL.Props
