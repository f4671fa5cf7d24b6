import Verif.Proofs.DeltaTotal
import Verif.Props.Take

/-!
# The delta product compiles

**C49**

`deltaProduct` is `dp` in the space with signature `(P, Q, R)`.  The argument `k` is the depth to which the compiler
instantiates templates, and the result is `none` if the call does not compile at that depth, or evaluates something
undefined.  `weightC` is the sum of the sizes of the integers in a type.
-/

namespace GATL.Props

open Expr Spec

variable {τ : Types} {ρ : Env} {P Q R : Nat}

/-- **C49** `dp(A, B, tol)` compiles from some instantiation depth on, and returns the part of the geometric product with
the largest grade of a component above the tolerance, if the sums of the sizes of the compile-time coefficients of `A` and
of `B` are less than `2 ^ 31`.

Missing: basis vectors chosen at run time, where it is false (`C49_runtime_blades_is_false`). -/
theorem C49_dp_compiles_partial (hn : P + Q + R ≤ 62) {M M' T : Object} {A B : MV ℝ} {tol : ℝ}
    (hM : Represents ρ (P + Q + R) M A) (hM' : Represents ρ (P + Q + R) M' B)
    (hw : weightC M.expr < 2 ^ 31) (hw' : weightC M'.expr < 2 ^ 31)
    (hT : ScalarValue ρ (P + Q + R) T tol) (h0 : 0 ≤ tol) :
    ∃ depth, ∀ k, depth ≤ k → ∃ o, deltaProduct P Q R k τ ρ M M' T = some o ∧
      ∃ g : ℤ, IsLargestGrade (Above tol (signedProd P Q R .gp A B)) g ∧
        Represents ρ (P + Q + R) o (gradePart g (signedProd P Q R .gp A B)) := by
  have hb : weightC M.expr * weightC M'.expr < 2 ^ 63 :=
    lt_of_le_of_lt (Nat.mul_le_mul hw.le hw'.le) (by norm_num)
  obtain ⟨k0, hk⟩ := Total.dp_total (τ := τ) hn hM hM' hT hb
  refine ⟨k0 + 1, fun k hle => ?_⟩
  obtain ⟨j, rfl⟩ : ∃ j, k = j + 1 := ⟨k - 1, by omega⟩
  obtain ⟨o, ho⟩ := hk (j + 1) (by omega)
  exact ⟨o, ho, C49_dp_partial P Q R j hn hM hM' hT h0 o ho⟩

-- two vectors and a tolerance
example (x y z w tol : ℝ) (h : 0 ≤ tol) : ∃ depth, ∀ k, depth ≤ k → ∃ o,
    deltaProduct 3 0 0 k τ ρ (vecObj x y) (vecObj z w) (scalarObj tol) = some o :=
  let ⟨d, hd⟩ := C49_dp_compiles_partial (P := 3) (Q := 0) (R := 0) (by norm_num) (vec_represents x y)
    (vec_represents z w) (by simp [weightC, coefWeight]) (by simp [weightC, coefWeight]) (scalarObj_value 3 tol) h
  ⟨d, fun k hk => let ⟨o, ho, _⟩ := hd k hk; ⟨o, ho⟩⟩

end GATL.Props
