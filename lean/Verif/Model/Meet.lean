import Mathlib.Analysis.Real.Sqrt
import Verif.Model.Multivector
import Verif.Model.Enumerate

/-!
# Meet, join and plunge of blades

Model of `extra/meet_and_join.hpp`, `extra/fast_meet_and_join.hpp`, `extra/plunge.hpp` and `extra/fast_plunge.hpp`.
Citations are relative to `/repo/cpp/include/gatl/ga`.

The functions are modelled on the values of the multivectors (`MV ℝ`): that expressions evaluate to the value of the
products they are made of is the subject of the expression layer.  Every product inside these functions is one of the
Euclidean metric `real_metric_space` (`constexpr auto em`), here `realProd`; the metric space of the caller only gives the
number of dimensions (and the products of `plunge`).  Simplifications:

* `trivial_copy` and `checked_trivial_copy` into the variables `meet` and `join` (whose types have all the components of
  the grades they can have) keep the value; a value that does not fit the type is not modelled;
* the components that `for_each_component` visits are given by the list of their bitsets, `bs`, in any order;
* a division by zero is the outcome `none`.
-/

namespace GATL

/-- The number `grade(arg, tol)` reports, `extra/grade.hpp:126-246` (`Model/Take.lean` has the function on objects). -/
noncomputable def gradeValue (tol : ℝ) (A : MV ℝ) : ℤ :=
  let sig := A.support.filter fun b => tol < |A b|
  if sig = ∅ then -2 else if ∀ b ∈ sig, ones b = sig.sup ones then (sig.sup ones : ℕ) else -1

/-- The number `largest_grade(arg, tol)` reports, `extra/grade.hpp:186-268`. -/
noncomputable def largestGradeValue (tol : ℝ) (A : MV ℝ) : ℤ :=
  let sig := A.support.filter fun b => tol < |A b|
  if sig = ∅ then -2 else (sig.sup ones : ℕ)

/-- `take_grade(arg, k)`, `extra/take_grade.hpp:85-90`. -/
noncomputable def takeGradeValue (k : ℤ) (A : MV ℝ) : MV ℝ := Finsupp.filter (fun b => (ones b : ℤ) = k) A

/-- `dp(lhs, rhs, tol, mtr)`, `extra/delta_product.hpp:29-33`: `take_largest_grade(gp(lhs, rhs, mtr), tol)`. -/
noncomputable def deltaValue (m : Metric ℝ) (tol : ℝ) (A B : MV ℝ) : MV ℝ :=
  takeGradeValue (largestGradeValue tol (m .gp A B)) (m .gp A B)

/-- `is_zero(arg, tol)`, `extra/tests.hpp:29-34`. -/
noncomputable def isZeroValue (tol : ℝ) (A : MV ℝ) : Bool := open Classical in decide (∀ b, |A b| ≤ tol)

/-- `unit(arg, mtr)`, `extra/unit.hpp:30-34`. -/
noncomputable def unitValue (m : Metric ℝ) (A : MV ℝ) : Option (MV ℝ) :=
  (invScalar (Real.sqrt |rnormSqr m A|)).map fun s => m .gp A (Finsupp.single 0 s)

/-- The lambda `project_vector(vector, blade, inv_blade)`, `extra/meet_and_join.hpp:42-45` and
`extra/fast_meet_and_join.hpp:41-44`. -/
noncomputable def projectVector (v B invB : MV ℝ) : MV ℝ :=
  takeGradeValue 1 (realProd .lcont (realProd .lcont v invB) B)

/-- The loop over the components that looks for the largest absolute value, `extra/meet_and_join.hpp:71-80` and
`extra/fast_meet_and_join.hpp:59-78`. -/
noncomputable def largestComponent (bs : List Word) (A : MV ℝ) : Word :=
  (bs.foldl (fun s b => if s.2 < |A b| then (b, |A b|) else s) ((0 : Word), (-1 : ℝ))).1

/-- The vector `f` of the loops, `extra/meet_and_join.hpp:83-84`: `*(f.values().begin() + (index - 1)) = 1`. -/
noncomputable def unitVector (index : Nat) : MV ℝ := Finsupp.single ((1 : Word) <<< (index - 1)) 1

/-- The variables of the loop of `_meet_and_join_impl`. -/
structure MeetState where
  meet : MV ℝ
  gradeMeet : ℤ
  join : MV ℝ
  gradeJoin : ℤ

/-- Lines 99-108 of `extra/meet_and_join.hpp`: the rejection. -/
noncomputable def rejectStep (tol : ℝ) (gradeJoin : ℤ) (lhs rhs r : MV ℝ) (s : MeetState) : Option MeetState × Bool :=
  if isZeroValue tol r then (some s, true)
  else
    let s := { s with join := realProd .lcont r s.join, gradeJoin := s.gradeJoin - 1 }
    if s.gradeJoin = gradeJoin then
      ((inv realProd s.join).map fun j => { s with meet := realProd .lcont (realProd .lcont rhs j) lhs }, false)
    else (some s, true)

/-- The body of the loop, `extra/meet_and_join.hpp:82-109`; the state is `none` after a division by zero. -/
noncomputable def meetStep (tol : ℝ) (gradeMeet gradeJoin : ℤ) (lhs invLhs rhs dualDelta invDualDelta : MV ℝ) (index : Nat) :
    Option MeetState → Option MeetState × Bool
  | none => (none, false)
  | some s =>
    let d := projectVector (unitVector index) dualDelta invDualDelta
    let p := projectVector d lhs invLhs
    if isZeroValue tol p then rejectStep tol gradeJoin lhs rhs (d - p) s
    else
      let s := { s with meet := op s.meet p, gradeMeet := s.gradeMeet + 1 }
      if s.gradeMeet = gradeMeet then
        ((inv realProd s.meet).map fun m => { s with join := op (realProd .rcont lhs m) rhs }, false)
      else rejectStep tol gradeJoin lhs rhs (d - p) s

/-- The sign change at the end, `extra/meet_and_join.hpp:116-121`. -/
noncomputable def signChange (extra : Bool) (k : ℤ) (r : MV ℝ × MV ℝ) : MV ℝ × MV ℝ :=
  if extra && decide (k % 2 ≠ 0) then (-r.1, -r.2) else r

/-- `_meet_and_join_impl<N>`, `extra/meet_and_join.hpp:31-122`; `dtol` is the tolerance `dp` takes by default, `bs dualDelta`
the bitsets of the components of `dual_delta`. -/
noncomputable def meetAndJoinImpl (n : Nat) (tol dtol : ℝ) (bs : MV ℝ → List Word) (extra : Bool) (lhs : MV ℝ) (gradeLhs : ℤ)
    (rhs : MV ℝ) (gradeRhs : ℤ) : Option (MV ℝ × MV ℝ) :=
  if gradeLhs = -2 ∨ gradeRhs = -2 then some (0, 0)
  else
    let delta := deltaValue realProd dtol lhs rhs
    let gradeDelta := gradeValue tol delta
    let gradeMeet := (gradeLhs + gradeRhs - gradeDelta) / 2
    let gradeJoin := (gradeLhs + gradeRhs + gradeDelta) / 2
    let k := (gradeJoin - gradeLhs) * (gradeJoin - gradeRhs)
    if gradeDelta ≠ gradeLhs + gradeRhs then do
      let I := Finsupp.single (← pseudoscalarBlade n) 1
      let dualDelta ← dual realProd I delta
      let invDualDelta ← inv realProd dualDelta
      let invLhs ← inv realProd lhs
      let largest := largestComponent (bs dualDelta) dualDelta
      let r ← forEachBasisVector (meetStep tol gradeMeet gradeJoin lhs invLhs rhs dualDelta invDualDelta) largest
        (some ⟨Finsupp.single 0 1, 0, I, n⟩)
      let s ← r.1
      some (signChange extra k (s.meet, s.join))
    else some (signChange extra k (Finsupp.single 0 1, delta))

/-- `meet_and_join(lhs, rhs, tol, mtr)`, `extra/meet_and_join.hpp:126-133`. -/
noncomputable def meetAndJoin (n : Nat) (tol dtol : ℝ) (bs : MV ℝ → List Word) (lhs rhs : MV ℝ) : Option (MV ℝ × MV ℝ) :=
  let gradeLhs := gradeValue tol lhs
  let gradeRhs := gradeValue tol rhs
  if gradeLhs ≤ gradeRhs then meetAndJoinImpl n tol dtol bs false lhs gradeLhs rhs gradeRhs
  else meetAndJoinImpl n tol dtol bs true rhs gradeRhs lhs gradeLhs

/-- The body of the loop of `_fast_join_impl`, `extra/fast_meet_and_join.hpp:85-96`; the state is the join and its grade, or
`none` after a division by zero. -/
noncomputable def fastStep (n : Nat) (tol : ℝ) (rhs invLargest : MV ℝ) (index : Nat) :
    Option (MV ℝ × ℤ) → Option (MV ℝ × ℤ) × Bool
  | none => (none, false)
  | some (join, g) =>
    match unitValue realProd (projectVector (unitVector index) rhs invLargest) with
    | none => (none, false)
    | some u =>
      let next := op join u
      if isZeroValue tol next then (some (join, g), true)
      else
        match unitValue realProd next with
        | none => (none, false)
        | some join => (some (join, g + 1), decide (g + 1 ≤ n))

/-- `_fast_join_impl<N>`, `extra/fast_meet_and_join.hpp:31-104`; `bs` are the bitsets of the components of `rhs`.  That a
component of a container is found at run time (`not_implemented_error`) is not modelled. -/
noncomputable def fastJoinImpl (n : Nat) (tol : ℝ) (bs : List Word) (extra : Bool) (lhs : MV ℝ) (gradeLhs : ℤ) (rhs : MV ℝ)
    (gradeRhs : ℤ) : Option (MV ℝ) :=
  if gradeLhs = -2 ∨ gradeRhs = -2 then some 0
  else do
    let join ← unitValue realProd lhs
    if gradeLhs = 0 ∨ gradeLhs = n then some join
    else do
      let largest := largestComponent bs rhs
      let invLargest := reverse (Finsupp.single largest (1 : ℝ))
      let r ← forEachBasisVector (fastStep n tol rhs invLargest) largest (some (join, gradeLhs))
      let s ← r.1
      some (if extra && decide ((gradeLhs * gradeRhs) % 2 ≠ 0) then -s.1 else s.1)

/-- `fast_join(lhs, rhs, tol, mtr)`, `extra/fast_meet_and_join.hpp:108-115`; `bs` gives the bitsets of the components. -/
noncomputable def fastJoin (n : Nat) (tol : ℝ) (bs : MV ℝ → List Word) (lhs rhs : MV ℝ) : Option (MV ℝ) :=
  let gradeLhs := gradeValue tol lhs
  let gradeRhs := gradeValue tol rhs
  if gradeRhs ≤ gradeLhs then fastJoinImpl n tol (bs rhs) false lhs gradeLhs rhs gradeRhs
  else fastJoinImpl n tol (bs lhs) true rhs gradeRhs lhs gradeLhs

/-- `fast_meet_and_join(lhs, rhs, tol, mtr)`, `extra/fast_meet_and_join.hpp:122-128`. -/
noncomputable def fastMeetAndJoin (n : Nat) (tol : ℝ) (bs : MV ℝ → List Word) (lhs rhs : MV ℝ) : Option (MV ℝ × MV ℝ) := do
  let join ← fastJoin n tol bs lhs rhs
  let j ← inv realProd join
  some (realProd .lcont (realProd .lcont rhs j) lhs, join)

/-- `plunge(lhs, rhs, tol, mtr)`, `extra/plunge.hpp:29-34`. -/
noncomputable def plunge (m : Metric ℝ) (n : Nat) (tol dtol : ℝ) (bs : MV ℝ → List Word) (lhs rhs : MV ℝ) : Option (MV ℝ) := do
  let (_, join) ← meetAndJoin n tol dtol bs lhs rhs
  let r ← dual m join rhs
  let l ← dual m join lhs
  some (op r l)

/-- `fast_plunge(lhs, rhs, tol, mtr)`, `extra/fast_plunge.hpp:29-34`. -/
noncomputable def fastPlunge (m : Metric ℝ) (n : Nat) (tol : ℝ) (bs : MV ℝ → List Word) (lhs rhs : MV ℝ) : Option (MV ℝ) := do
  let join ← fastJoin n tol bs lhs rhs
  let r ← dual m join rhs
  let l ← dual m join lhs
  some (op r l)

end GATL
