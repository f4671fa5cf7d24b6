import Mathlib.LinearAlgebra.CliffordAlgebra.Basic
import Mathlib.LinearAlgebra.Matrix.SesquilinearForm
import Mathlib.LinearAlgebra.QuadraticForm.Basic
import Verif.Model.Metric
import Verif.Spec.Rational

/-!
# Specification vocabulary for programs in any metric space
-/

namespace GATL

open Expr Spec

/-- The value of a program whose inputs are the multivectors `As`, in a space with `n` dimensions whose metric products
are `m`. -/
noncomputable def Program.valueIn (n : Nat) (m : Metric ℝ) (As : List (MV ℝ)) : Program → MV ℝ
  | input i => As.getD i 0
  | lit v => Finsupp.single 0 (v : ℝ)
  | add s t => s.valueIn n m As + t.valueIn n m As
  | sub s t => s.valueIn n m As - t.valueIn n m As
  | neg t => - t.valueIn n m As
  | scale v t => (v : ℝ) • t.valueIn n m As
  | op s t => GATL.op (s.valueIn n m As) (t.valueIn n m As)
  | rp s t => GATL.rp n (s.valueIn n m As) (t.valueIn n m As)
  | graded g s t => m g (s.valueIn n m As) (t.valueIn n m As)
  | reverse t => GATL.reverse (t.valueIn n m As)
  | involute t => GATL.involute (t.valueIn n m As)
  | conjugate t => GATL.conjugate (t.valueIn n m As)

/-- The value of a program with inverses; `none` if the squared norm of a multivector to be inverted vanishes. -/
noncomputable def Rational.valueIn (n : Nat) (m : Metric ℝ) : Rational → List (MV ℝ) → Option (MV ℝ)
  | ret t, As => some (t.valueIn n m As)
  | bind t rest, As => rest.valueIn n m (As ++ [t.valueIn n m As])
  | inv t rest, As => do
    let A := t.valueIn n m As
    let x := rnormSqr m A
    if x = 0 then none else rest.valueIn n m (As ++ [x⁻¹ • GATL.reverse A])

namespace Spec

/-- The products `m` are those of the geometric algebra of the space with `n` dimensions in which the basis vectors `e(i)`
and `e(j)` have the metric product `M i j`: they are bilinear, the multivectors with the geometric product are the Clifford
algebra, the geometric product with a vector is the outer product plus the contraction, the contraction by a vector is the
antiderivation given by the metric, and the other products of homogeneous multivectors are grade parts of the geometric
product. -/
structure GeometricAlgebra (n : Nat) (M : Matrix (Fin n) (Fin n) ℝ) (m : Metric ℝ) : Prop where
  add_left : ∀ g A B C, A ∈ space ℝ n → B ∈ space ℝ n → C ∈ space ℝ n → m g (A + B) C = m g A C + m g B C
  add_right : ∀ g A B C, A ∈ space ℝ n → B ∈ space ℝ n → C ∈ space ℝ n → m g A (B + C) = m g A B + m g A C
  clifford : ∃ Φ : CliffordAlgebra M.toQuadraticForm' ≃ₗ[ℝ] space ℝ n, (Φ 1 : MV ℝ) = scalar 1 ∧
    (∀ v, (Φ (CliffordAlgebra.ι _ v) : MV ℝ) = vectorOf v) ∧ ∀ x y, (Φ (x * y) : MV ℝ) = m .gp (Φ x) (Φ y)
  vector : ∀ (v : Fin n → ℝ) B, B ∈ space ℝ n → m .gp (vectorOf v) B = op (vectorOf v) B + m .lcont (vectorOf v) B
  contract_scalar : ∀ (v : Fin n → ℝ) (a : ℝ), m .lcont (vectorOf v) (scalar a) = 0
  contract_op : ∀ (v w : Fin n → ℝ) B, B ∈ space ℝ n → m .lcont (vectorOf v) (op (vectorOf w) B)
    = (∑ i, ∑ j, w i * M i j * v j) • B - op (vectorOf w) (m .lcont (vectorOf v) B)
  parts : ∀ (r s : Nat) A B, A ∈ space ℝ n → B ∈ space ℝ n → Homogeneous r A → Homogeneous s B →
    m .lcont A B = gradePart ((s : Int) - r) (m .gp A B) ∧
    m .rcont A B = gradePart ((r : Int) - s) (m .gp A B) ∧
    m .dot A B = gradePart |(r : Int) - s| (m .gp A B) ∧
    m .hip A B = (if r = 0 ∨ s = 0 then 0 else gradePart |(r : Int) - s| (m .gp A B)) ∧
    m .sp A B = gradePart 0 (m .gp A B)

/-- The lazy program compiles to a type in which no quotient of two numbers of integer type is computed. -/
def NoIntegerDivisionIn (S : SpaceType) (n : Nat) (τ : Types) (ρ : Env) (Ms : List Object) (t : Rational) : Prop :=
  ∀ e, t.lazyTypeIn S n τ ρ Ms = some e →
    ∀ c ∈ e, NoIntQuotient (contextTypes τ (baseId Ms) (storedInputs Ms)) c.coef

end Spec

end GATL
