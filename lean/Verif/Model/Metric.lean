import Verif.Model.GeneralTypes
import Verif.Model.Rational

/-!
# Programs in any metric space

`Verif/Model/Lazy.lean` and `Verif/Model/Rational.lean` run programs in the signed spaces; the functions of the library are
templates, and the only thing they take from the metric space is the mapping `metric_space_mapping_t`,
`core/mapping.hpp:48-62`, and the number of its dimensions.  Here the same functions take both as arguments, so that
they can be run in the conformal space and in spaces with a metric matrix.  Citations are relative to
`/repo/cpp/include/gatl/ga`.  `none` means that the program does not compile.
-/

namespace GATL

open Expr Spec

/-- A metric space type: the number of dimensions and the mapping of each graded product. -/
structure SpaceType where
  dims : Nat
  mapping : GradedProduct → CMapping

/-- `signed_metric_space<P, Q, R>`, `model/signed/metric_space.hpp:29-71`. -/
def signedSpace (P Q R : Nat) : SpaceType := ⟨P + Q + R, orthMapping (P + Q + R) (mkSignedFactor P Q R)⟩

/-- `general_metric_space<Entries...>`, `model/general/metric_space.hpp:27-68`. -/
def matrixSpace (n : Nat) (entries : List Expr) : SpaceType := ⟨n, genMapping n (mkMatrixEntry n entries)⟩

/-- `conformal_metric_space<D>`, `model/conformal/metric_space.hpp:29-48`. -/
def conformalSpace (D : Nat) : SpaceType := ⟨D + 2, genMapping (D + 2) (mkConformalEntry D)⟩

namespace Program

/-- Running a program in the space `S`, as `Program.run`. -/
noncomputable def runIn (S : SpaceType) (k : Nat) (τ : Types) (outer : Env) (Ms : List Object) :
    Program → Option Object
  | input i => Ms[i]?
  | lit v => some (constObject v)
  | add s t => do call2 k τ outer (addC k) (← runIn S k τ outer Ms s) (← runIn S k τ outer Ms t)
  | sub s t => do call2 k τ outer (subC k) (← runIn S k τ outer Ms s) (← runIn S k τ outer Ms t)
  | neg t => do call1 k τ outer (negC k) (← runIn S k τ outer Ms t)
  | scale v t => do
    call1 k τ outer (mulC (orthMapping 63 mkRealFactor .gp) k (constSum v)) (← runIn S k τ outer Ms t)
  | op s t => do
    call2 k τ outer (mulC (extMapping S.dims) k) (← runIn S k τ outer Ms s) (← runIn S k τ outer Ms t)
  | rp s t => do
    call2 k τ outer (mulC (regMapping S.dims) k) (← runIn S k τ outer Ms s) (← runIn S k τ outer Ms t)
  | graded g s t => do
    call2 k τ outer (mulC (S.mapping g) k) (← runIn S k τ outer Ms s) (← runIn S k τ outer Ms t)
  | reverse t => do call1 k τ outer (gradedMinusC k 0xcccccccccccccccc) (← runIn S k τ outer Ms t)
  | involute t => do call1 k τ outer (gradedMinusC k 0xaaaaaaaaaaaaaaaa) (← runIn S k τ outer Ms t)
  | conjugate t => do call1 k τ outer (gradedMinusC k 0x6666666666666666) (← runIn S k τ outer Ms t)

/-- Running a program lazily in the space `S`, as `Program.runLazy`. -/
noncomputable def runLazyIn (S : SpaceType) (k : Nat) (τ : Types) (outer : Env) (Ms : List Object) (t : Program) :
    Option Object := do
  let as ← arguments (baseId Ms) Ms
  let r ← t.runIn S k τ outer (List.zipWith (fun M a => lazyObject M.floats a) Ms as)
  contextObject k τ outer Ms r.expr

end Program

/-- `rnorm_sqr(arg, mtr)`, `extra/reverse_norm.hpp:29-33`. -/
noncomputable def normSqrIn (S : SpaceType) (n : Nat) (τ : Types) (outer : Env) (M : Object) : Option Object :=
  (Program.graded .sp (.input 0) (.reverse (.input 0))).runLazyIn S n τ outer [M]

/-- `inv(arg, mtr)`, `extra/versor_inverse.hpp:29-33`, as `inverse`. -/
noncomputable def inverseIn (S : SpaceType) (n : Nat) (τ : Types) (outer : Env) (M : Object) : Option Object := do
  match ← arguments (baseId [M]) [M] with
  | [a] =>
    let A := lazyObject M.floats a
    let i ← powScalar n τ outer (← normSqrIn S n τ outer A) (constObject (-1))
    let r ← call2 n τ outer (mulC (orthMapping 63 mkRealFactor .gp) n) (← reverseObject n τ outer A) i
    contextObject n τ outer [M] r.expr
  | _ => none

namespace Rational

/-- Running a program with inverses in the space `S`, as `Rational.run`. -/
noncomputable def runIn (S : SpaceType) (n : Nat) (τ : Types) (outer : Env) : Rational → List Object → Option Object
  | ret t, Ms => t.runIn S n τ outer Ms
  | bind t rest, Ms => do rest.runIn S n τ outer (Ms ++ [← t.runIn S n τ outer Ms])
  | inv t rest, Ms => do rest.runIn S n τ outer (Ms ++ [← inverseIn S n τ outer (← t.runIn S n τ outer Ms)])

/-- The type of the lazy program in the space `S`, as `Rational.lazyType`. -/
noncomputable def lazyTypeIn (S : SpaceType) (n : Nat) (τ : Types) (outer : Env) (Ms : List Object) (t : Rational) :
    Option CSum := do
  let as ← arguments (baseId Ms) Ms
  let r ← t.runIn S n τ outer (List.zipWith (fun M a => lazyObject M.floats a) Ms as)
  some r.expr

/-- Running a program with inverses lazily in the space `S`, as `Rational.runLazy`. -/
noncomputable def runLazyIn (S : SpaceType) (n : Nat) (τ : Types) (outer : Env) (Ms : List Object) (t : Rational) :
    Option Object := do
  contextObject n τ outer Ms (← t.lazyTypeIn S n τ outer Ms)

end Rational

end GATL
