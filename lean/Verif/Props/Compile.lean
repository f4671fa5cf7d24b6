import Verif.Proofs.RunTotal
import Verif.Props.Lazy

/-!
Property C73: programs of sums, differences, products and involutions compile.

`k` is the depth to which the compiler instantiates the templates of the simplifier; `none` is a program that
does not compile at that depth.  `Program.weight` and `Program.degree` (`Verif.Spec.Totality`) bound the integers
known at compile time that the program gives rise to.
-/

namespace GATL.Props

open Expr Spec

variable {τ : Types} {ρ : Env}

/-- **C73** A program of sums, differences, products and involutions, run on evaluated multivectors one
operation after the other, compiles if no compile-time integer can overflow: from some depth on the compiler
accepts it, always with the same type of the result, and the result stands for the value of the program. -/
theorem C73_eager (P Q R : Nat) (hn : P + Q + R ≤ 62) (Ms : List Object) (As : List (MV ℝ))
    (hA : List.Forall₂ (Represents ρ (P + Q + R)) Ms As) (t : Program) (hu : t.Uses Ms.length)
    (hw : t.weight Ms < 2 ^ 63) :
    ∃ (s : CSum) (depth : Nat), ∀ k, depth ≤ k → ∃ o, t.run P Q R k τ ρ Ms = some o ∧ o.expr = s ∧
      Represents ρ (P + Q + R) o (t.value P Q R As) := by
  obtain ⟨s, -, h⟩ := Total.run_compiles hn hA t hu hw
  exact ⟨s, h⟩

/-- **C73** The same program run on the lazy arguments of a context of its inputs, and evaluated at the end. -/
theorem C73_lazy (P Q R : Nat) (hn : P + Q + R ≤ 62) (Ms : List Object) (As : List (MV ℝ))
    (hA : List.Forall₂ (Represents ρ (P + Q + R)) Ms As) (t : Program) (hu : t.Uses Ms.length)
    (hw : t.weight Ms < 2 ^ 63) (hd : t.degree < 2 ^ 63) :
    ∃ (s : CSum) (depth : Nat), ∀ k, depth ≤ k → ∃ o, t.runLazy P Q R k τ ρ Ms = some o ∧ o.expr = s ∧
      Represents ρ (P + Q + R) o (t.value P Q R As) := by
  obtain ⟨s, -, h⟩ := Total.runLazy_compiles hn hA t hu hw hd
  exact ⟨s, h⟩

-- `(a ∧ b) * ~a - 3 ((conjugate of a) rp (b - 7))` for two vectors, with any of the graded products as `*`
example (x y z w : ℝ) (g : GradedProduct) :
    let Ms := [vecObj x y, vecObj z w]
    let t : Program := .sub (.graded g (.op (.input 0) (.input 1)) (.reverse (.input 0)))
      (.scale 3 (.rp (.conjugate (.input 0)) (.add (.input 1) (.lit (-7)))))
    List.Forall₂ (Represents ρ 3) Ms [Finsupp.single 1 x + Finsupp.single 2 y, Finsupp.single 1 z + Finsupp.single 2 w] ∧
    t.Uses Ms.length ∧ t.weight Ms < 2 ^ 63 ∧ t.degree < 2 ^ 63 := by
  refine ⟨.cons (vec_represents x y) (.cons (vec_represents z w) .nil), ?_, ?_, ?_⟩
  · simp [Program.Uses]
  · simp [Program.weight, weightC, coefWeight]
  · simp [Program.degree]

/-- **C73** In particular, in every space with at most 62 basis vectors and for all evaluated multivectors, the sum, the
difference and all products of two of them, their negatives and their involutions compile, if the sums of the sizes of
their compile-time coefficients are less than `2 ^ 31`. -/
theorem C73_operations (P Q R : Nat) (hn : P + Q + R ≤ 62) (M M' : Object) (A A' : MV ℝ)
    (hM : Represents ρ (P + Q + R) M A) (hM' : Represents ρ (P + Q + R) M' A') (hw : weightC M.expr < 2 ^ 31)
    (hw' : weightC M'.expr < 2 ^ 31) (t : Program)
    (ht : t = .add (.input 0) (.input 1) ∨ t = .sub (.input 0) (.input 1) ∨ t = .op (.input 0) (.input 1) ∨
      t = .rp (.input 0) (.input 1) ∨ (∃ g, t = .graded g (.input 0) (.input 1)) ∨ t = .neg (.input 0) ∨
      t = .reverse (.input 0) ∨ t = .involute (.input 0) ∨ t = .conjugate (.input 0)) :
    ∃ (s : CSum) (depth : Nat), ∀ k, depth ≤ k → ∃ o, t.run P Q R k τ ρ [M, M'] = some o ∧ o.expr = s ∧
      Represents ρ (P + Q + R) o (t.value P Q R [A, A']) := by
  have h0 : (Program.input 0).weight [M, M'] < 2 ^ 31 := max_lt (by norm_num) hw
  have h1 : (Program.input 1).weight [M, M'] < 2 ^ 31 := max_lt (by norm_num) hw'
  have hm : (Program.input 0).weight [M, M'] * (Program.input 1).weight [M, M'] < 2 ^ 31 * 2 ^ 31 :=
    Nat.mul_lt_mul'' h0 h1
  refine C73_eager P Q R hn _ _ (.cons hM (.cons hM' .nil)) t ?_ ?_
  · rcases ht with rfl | rfl | rfl | rfl | ⟨g, rfl⟩ | rfl | rfl | rfl | rfl <;> simp [Program.Uses]
  · have hb : (2 : Nat) ^ 31 * 2 ^ 31 < 2 ^ 63 := by norm_num
    have hb' : (2 : Nat) ^ 31 + 2 ^ 31 < 2 ^ 63 := by norm_num
    rcases ht with rfl | rfl | rfl | rfl | ⟨g, rfl⟩ | rfl | rfl | rfl | rfl <;>
      (rw [Program.weight]; omega)

example (x y z w : ℝ) : Represents ρ (3 + 0 + 0) (vecObj x y) (Finsupp.single 1 x + Finsupp.single 2 y) ∧
    weightC (vecObj x y).expr < 2 ^ 31 := ⟨vec_represents x y, by simp [weightC, coefWeight]⟩

/-- **C73** The bound on the weight is sharp: the sum of two integers with weight `2 ^ 63` compiles at no depth. -/
theorem C73_overflow_is_rejected (P Q R k : Nat) :
    (Program.add (.lit (2 ^ 62)) (.lit (2 ^ 62))).weight [] = 2 ^ 63 ∧
    (Program.add (.lit (2 ^ 62)) (.lit (2 ^ 62))).run P Q R k τ ρ [] = none := by
  refine ⟨by simp [Program.weight], ?_⟩
  rcases k with _ | _ | _ | k <;> rfl

end GATL.Props
