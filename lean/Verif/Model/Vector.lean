import Verif.Model.Lazy

/-!
# Making vectors and points

Model of `util/vector.hpp`, of the points of the models (`model/conformal/point.hpp`,
`model/signed/homogeneous/point.hpp`, `model/signed/minkowski/point.hpp`), of the Euclidean vectors of the
models, and of the operators they use.  Citations are relative to `/repo/cpp/include/gatl/ga`.
-/

namespace GATL

open Expr Spec

/-- A coordinate given to `vector(...)`: a native number, or a scalar multivector (whose basis blade is
`constant_basis_blade<0>`), accessed through a reference to `const` or not.  `floats`: the coefficient
type is a floating-point type. -/
inductive Coord
  | native (floats : Bool) (x : ℝ)
  | scalar (isConst floats : Bool) (coef : Expr) (values : List ℝ)

namespace Coord

/-- The coefficient in the type, `util/vector.hpp:38-70`. -/
def coef : Coord → Expr
  | native _ _ => .stored
  | scalar _ _ c _ => c

/-- The coefficient type, `util/vector.hpp:46`, `:51`, `:63`, `:68`. -/
def floats : Coord → Bool
  | native f _ => f
  | scalar _ f _ _ => f

/-- What the coordinate contributes to the storage, `util/vector.hpp:82-136`.  A native number is
stored.  A scalar accessed as `const` contributes its values; if it has any, `to_values_tuple` does not
accept them (`:94-108`: they are an lvalue).  Any other scalar is taken by the first overload of
`make_values_tuple` and contributes one number, to which it is converted
(`core/clifford_expression.hpp:648-666`). -/
noncomputable def slots : Coord → Option (List ℝ)
  | native _ x => some [x]
  | scalar true _ _ [] => some []
  | scalar true _ _ (_ :: _) => none
  | scalar false _ .stored [x] => some [x]
  | scalar false _ c _ =>
    if isConstant c then
      (eval (fun _ => false) ⟨fun _ _ => 0, fun _ _ => 0⟩ c).map fun v => [asNumber v]
    else none

end Coord

/-- `deduce_vector`, `util/vector.hpp:31-80`: the expression of the vector. -/
def deduceVector (n k : Nat) : List Coord → Option CSum
  | [] => none
  | [x] => some [mkComp x.coef (.const ((1 : Word) <<< (n - 1)))]
  | x :: xs => do
    addC k [mkComp x.coef (.const ((1 : Word) <<< (n - (xs.length + 1))))] (← deduceVector n k xs)

/-- The storages of all coordinates, one after the other, `util/vector.hpp:110-136`. -/
noncomputable def coordSlots : List Coord → Option (List ℝ)
  | [] => some []
  | x :: xs => do some ((← x.slots) ++ (← coordSlots xs))

/-- Whether the coordinate is copied into the storage. -/
def Coord.copied : Coord → Bool
  | native _ _ => true
  | scalar c _ _ _ => !c

/-- The types of the coordinates fit: native numbers are stored without a narrowing conversion
(`core/clifford_expression.hpp:181-183`, braces), and the type of the storage is the coefficient type of the
vector (`:652`). -/
def typesFit (coords : List Coord) : Bool :=
  let type := coords.any fun x => x.copied && x.floats
  (coords.all fun
    | .native f _ => f == type
    | _ => true) && type == coords.any Coord.floats

/-- `vector(mtr, coords...)` in a space with `n` dimensions, `util/vector.hpp:138-162`.  The number of
values must be the size of the storage (`core/clifford_expression.hpp:179-184`).  Simplification: there is
only one integer type and one floating-point type. -/
noncomputable def makeVector (n k : Nat) (coords : List Coord) : Option Object :=
  if coords.length = n then do
    let s ← deduceVector n k coords
    let floats := coords.any Coord.floats
    if countValuesC s = 0 then some ⟨floats, s, [], []⟩
    else do
      let vs ← coordSlots coords
      if vs.length = countValuesC s ∧ typesFit coords then some ⟨floats, s, vs, []⟩ else none
  else none

/-- `scalar(x)`, `core/scalar.hpp:39-55`. -/
def scalarObject (floats : Bool) (x : ℝ) : Object := ⟨floats, [⟨.stored, .const 0⟩], [x], []⟩

/-- A coordinate as a multivector: `core/scalar.hpp:39-55`. -/
def Coord.object : Coord → Object
  | native f x => scalarObject f x
  | scalar _ f c vs => ⟨f, [mkComp c (.const 0)], vs, []⟩

/-- `x * x`: the product of native numbers, or the geometric product of scalars,
`core/arithmetic_operators.hpp:86-89`. -/
noncomputable def Coord.squared (k : Nat) (τ : Types) (ρ : Env) : Coord → Option Object
  | native f x => some (scalarObject f (x * x))
  | c => call2 k τ ρ (mulC (orthMapping 63 mkRealFactor .gp) k) c.object c.object

/-- `((coords * coords) + ... + c<0>)`, `model/conformal/point.hpp:33`. -/
noncomputable def sumOfSquares (k : Nat) (τ : Types) (ρ : Env) : List Coord → Option Object
  | [] => some (constObject 0)
  | x :: xs => do call2 k τ ρ (addC k) (← x.squared k τ ρ) (← sumOfSquares k τ ρ xs)

/-- `A / c<v>`, `extra/arithmetic_operators.hpp:32-35`, `extra/inverse_geometric_product.hpp:31-34`,
`extra/versor_inverse.hpp:38-41`, `core/math.hpp:33-37`: `gp(A, pow(c<v>, c<-1>))` in the lazy context of
`A` (a constant has no stored entries). -/
noncomputable def divConst (k : Nat) (τ : Types) (ρ : Env) (v : Int) (A : Object) : Option Object := do
  let p ← simp k .pow (.const v) (.const (-1))
  call1 k τ ρ (fun a => mulC (orthMapping 63 mkRealFactor .gp) k a [mkComp p (.const 0)]) A

/-- A computed scalar as a coordinate: a temporary, not `const`. -/
def Object.coord (A : Object) : Option Coord :=
  match A.expr with
  | [⟨c, .const 0⟩] => some (.scalar false A.floats c A.values)
  | _ => none

/-- `c<v>` as a coordinate: `c` is a `constexpr` variable, hence `const`, `core/constant.hpp:35-36`. -/
def constCoord (v : Int) : Coord := .scalar true false (.const v) []

/-- `point(conformal_metric_space<D>, coords...)`, `model/conformal/point.hpp:31-34`. -/
noncomputable def conformalPoint (D k : Nat) (τ : Types) (ρ : Env) (coords : List Coord) :
    Option Object := do
  let s ← sumOfSquares k τ ρ coords
  let half ← divConst k τ ρ 2 s
  makeVector (D + 2) k (coords ++ [constCoord 1, ← half.coord])

/-- The metric of the conformal space, `conformal_metric_space<D>::entry`,
`model/conformal/metric_space.hpp:41-48` (1-based indices). -/
def conformalEntry {K : Type*} [CommRing K] (D row col : Nat) : K :=
  if row = col then (if row ≤ D then 1 else 0)
  else if row ≤ D ∨ col ≤ D then 0 else -1

/-- `point(minkowski_metric_space<D>, coords...)`, `model/signed/minkowski/point.hpp:31-35`. -/
noncomputable def minkowskiPoint (D k : Nat) (τ : Types) (ρ : Env) (coords : List Coord) :
    Option Object := do
  let s ← sumOfSquares k τ ρ coords
  let p ← divConst k τ ρ 2 (← call2 k τ ρ (subC k) s (constObject 1))
  let m ← divConst k τ ρ 2 (← call2 k τ ρ (addC k) s (constObject 1))
  makeVector (D + 2) k (coords ++ [← p.coord, ← m.coord])

/-- `point(homogeneous_metric_space<D>, coords...)`, `model/signed/homogeneous/point.hpp:31-34`. -/
noncomputable def homogeneousPoint (D k : Nat) (coords : List Coord) : Option Object :=
  makeVector (D + 1) k (coords ++ [constCoord 1])

/-- `euclidean_vector(homogeneous_metric_space<D>, coords...)`,
`model/signed/homogeneous/euclidean_vector.hpp:31-34`. -/
noncomputable def homogeneousVector (D k : Nat) (coords : List Coord) : Option Object :=
  makeVector (D + 1) k (coords ++ [constCoord 0])

/-- `euclidean_vector` of the conformal and the Minkowski model, `model/conformal/euclidean_vector.hpp:31-34`,
`model/signed/minkowski/euclidean_vector.hpp:31-34`. -/
noncomputable def conformalVector (D k : Nat) (coords : List Coord) : Option Object :=
  makeVector (D + 2) k (coords ++ [constCoord 0, constCoord 0])

end GATL
