import Verif.Spec.Lazy

/-!
# Which programs must compile

Integers known at compile time are 64-bit numbers.  A program can only be expected to compile if no integer
in the polynomials it gives rise to overflows.  `Program.weight` bounds the integer coefficients of these
polynomials and `Program.degree` their exponents, in the most pessimistic way: as if nothing cancelled.
-/

namespace GATL.Spec

/-- The size of a coefficient of an evaluated multivector: the absolute value of an integer known at
compile time, and 1 for a number known at run time. -/
def coefWeight : Expr → Nat
  | .const v => v.natAbs
  | _ => 1

/-- The sum of the sizes of all coefficients. -/
def weightC (s : CSum) : Nat := (s.map fun c => coefWeight c.coef).sum

end GATL.Spec

namespace GATL

open Spec

/-- A bound for the sum of the absolute values of the integer coefficients. -/
def Program.weight (Ms : List Object) : Program → Nat
  | input i => max 1 ((Ms[i]?.map fun M => weightC M.expr).getD 0)
  | lit v => max 1 v.natAbs
  | add s t => s.weight Ms + t.weight Ms
  | sub s t => s.weight Ms + t.weight Ms
  | neg t => t.weight Ms
  | scale v t => max 1 v.natAbs * t.weight Ms
  | op s t => s.weight Ms * t.weight Ms
  | rp s t => s.weight Ms * t.weight Ms
  | graded _ s t => s.weight Ms * t.weight Ms
  | reverse t => t.weight Ms
  | involute t => t.weight Ms
  | conjugate t => t.weight Ms

/-- The degree of the polynomials in the numbers stored in the inputs. -/
def Program.degree : Program → Nat
  | input _ => 1
  | lit _ => 0
  | add s t => max s.degree t.degree
  | sub s t => max s.degree t.degree
  | neg t => t.degree
  | scale _ t => t.degree
  | op s t => s.degree + t.degree
  | rp s t => s.degree + t.degree
  | graded _ s t => s.degree + t.degree
  | reverse t => t.degree
  | involute t => t.degree
  | conjugate t => t.degree

/-- The program uses no inputs other than the first `n`. -/
def Program.Uses (n : Nat) : Program → Prop
  | input i => i < n
  | lit _ => True
  | add s t => s.Uses n ∧ t.Uses n
  | sub s t => s.Uses n ∧ t.Uses n
  | neg t => t.Uses n
  | scale _ t => t.Uses n
  | op s t => s.Uses n ∧ t.Uses n
  | rp s t => s.Uses n ∧ t.Uses n
  | graded _ s t => s.Uses n ∧ t.Uses n
  | reverse t => t.Uses n
  | involute t => t.Uses n
  | conjugate t => t.Uses n

end GATL
