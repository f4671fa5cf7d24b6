import Verif.Model.Lazy

/-!
# Grades of multivectors and grade parts

Model of `extra/grade.hpp`, `extra/take_grade.hpp` and `extra/delta_product.hpp`.  Citations are relative
to `/repo/cpp/include/gatl/ga`.  `none` means that the program does not compile.
-/

namespace GATL

open Expr Spec

/-- `deduce_grade_result<component<...>, ...>`, `extra/grade.hpp:164-171`, and
`deduce_largest_grade_result<component<...>, ...>`, `:196-203`; `-2` is `UNDETERMINED_GRADE`. -/
def compGrade (n : Nat) (tol : Expr) (c : Comp) : Option Expr := do
  let a ← mkAbsolute (simp n) c.coef
  some (mkIfElse (mkLessOrEqual a tol) (.const (-2)) (mkCountOneBits c.blade.bits))

/-- The combination of the grades of the first component and of the other ones,
`extra/grade.hpp:141-161`; `-1` is `MIXED_GRADE`. -/
def joinGrades (a r : Expr) : Expr :=
  mkIfElse (mkEqual a (.const (-1))) (.const (-1))
    (mkIfElse (mkEqual r (.const (-1))) (.const (-1))
      (mkIfElse (mkEqual a (.const (-2))) r
        (mkIfElse (mkEqual r (.const (-2))) a
          (mkIfElse (mkEqual a r) a (.const (-1))))))

/-- `deduce_grade_result`, `extra/grade.hpp:125-171`. -/
def deduceGrade (n : Nat) (tol : Expr) : CSum → Option Expr
  | [] => none
  | [c] => compGrade n tol c
  | c :: cs => do some (joinGrades (← compGrade n tol c) (← deduceGrade n tol cs))

/-- `deduce_largest_grade_result`, `extra/grade.hpp:173-203`. -/
def deduceLargestGrade (n : Nat) (tol : Expr) : CSum → Option Expr
  | [] => none
  | [c] => compGrade n tol c
  | c :: cs => do
    let a ← compGrade n tol c
    let r ← deduceLargestGrade n tol cs
    some (mkIfElse (mkLessOrEqual a r) r a)

/-- `coefficient_t` of a scalar expression. -/
def scalarCoef : CSum → Option Expr
  | [⟨c, .const 0⟩] => some c
  | _ => none

/-- `grade(arg, tol)`, `extra/grade.hpp:241-246`. -/
noncomputable def grade (n : Nat) (τ : Types) (outer : Env) (A tol : Object) : Option Object :=
  call2 n τ outer (fun a t => do some [⟨← deduceGrade n (← scalarCoef t) a, .const 0⟩]) A tol

/-- `flag` of the result of `grade`, `extra/grade.hpp:80-88`, `:111-113`: `0` is `SINGLE_GRADE`. -/
def gradeFlag (g : Int) : Int := if 0 ≤ g then 0 else g

/-- `largest_grade(arg, tol)`, `extra/grade.hpp:263-268`. -/
noncomputable def largestGrade (n : Nat) (τ : Types) (outer : Env) (A tol : Object) : Option Object :=
  call2 n τ outer (fun a t => do some [⟨← deduceLargestGrade n (← scalarCoef t) a, .const 0⟩]) A tol

/-- `keep_grade<component<...>, component<Grade, constant_basis_blade<0> > >`,
`extra/take_grade.hpp:46-81`. -/
def keepComp (g : Expr) (c : Comp) : Option Comp :=
  match c.blade, g with
  | .const b, .const k => some (if (ones b : Int) = k then c else Comp.zero)
  | .dyn G e, .const k =>
    if 0 ≤ k ∧ k ≤ 63 ∧ G &&& ((1 : Word) <<< k.toNat) ≠ 0 then do
      some (mkComp (mkIfElse (mkEqual (mkCountOneBits e) (.const k)) c.coef (.const 0))
        (← mkDynBlade ((1 : Word) <<< k.toNat) e))
    else some Comp.zero
  | b, g => some (mkComp (mkIfElse (mkEqual (mkCountOneBits b.bits) g) c.coef (.const 0)) b)

/-- `keep_grade`, `extra/take_grade.hpp:32-81`. -/
def keepGrade (n : Nat) (g : Expr) : CSum → Option CSum
  | [] => none
  | [c] => do some [← keepComp g c]
  | c :: cs => do addC n [← keepComp g c] (← keepGrade n g cs)

/-- `take_grade(arg, k)`, `extra/take_grade.hpp:85-90`. -/
noncomputable def takeGrade (n : Nat) (τ : Types) (outer : Env) (A k : Object) : Option Object :=
  call2 n τ outer (fun a g => do keepGrade n (← scalarCoef g) a) A k

/-- `take_largest_grade(arg, tol)`, `extra/take_grade.hpp:107-112`. -/
noncomputable def takeLargestGrade (n : Nat) (τ : Types) (outer : Env) (A tol : Object) : Option Object := do
  match ← arguments (baseId [A, tol]) [A, tol] with
  | [a, t] =>
    let A' := lazyObject A.floats a
    let g ← largestGrade n τ outer A' (lazyObject tol.floats t)
    let r ← takeGrade n τ outer A' g
    contextObject n τ outer [A, tol] r.expr
  | _ => none

/-- `dp(lhs, rhs, tol, mtr)`, `extra/delta_product.hpp:29-33`, in the space with signature
`(P, Q, R)`. -/
noncomputable def deltaProduct (P Q R n : Nat) (τ : Types) (outer : Env) (A B tol : Object) : Option Object := do
  match ← arguments (baseId [A, B, tol]) [A, B, tol] with
  | [a, b, t] =>
    let p ← call2 n τ outer (mulC (orthMapping (P + Q + R) (mkSignedFactor P Q R) .gp) n)
      (lazyObject A.floats a) (lazyObject B.floats b)
    let r ← takeLargestGrade n τ outer p (lazyObject tol.floats t)
    contextObject n τ outer [A, B, tol] r.expr
  | _ => none

end GATL
