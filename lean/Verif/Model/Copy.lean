import Verif.Model.Lazy

/-!
# Copying between multivector types

Model of `core/trivial_copy.hpp`.  Citations are relative to `/repo/cpp/include/gatl/ga`.  The outer
`Option` of the results is `none` where the call does not compile.  Maps (`stored_map_values`) are not
modelled: an object has no storage for them, since `count_stored_maps` is always 0
(`core/clifford_expression.hpp:159-162` specialises `count_stored_values` instead).
-/

namespace GATL

open Expr Spec

/-- What a copy does at run time: it reads past the end of a storage, it throws
`bad_checked_copy_exception` after having written some entries of the result, or it finishes after
having written some entries.  The entries written are listed in order, from the first entry of the
result's storages. -/
inductive CopyResult
  | undefined
  | threw (values : List ℝ) (bitsets : List Word)
  | done (values : List ℝ) (bitsets : List Word)

/-- Writing entries before the rest of a copy takes place. -/
def CopyResult.after (vs : List ℝ) (ws : List Word) : CopyResult → CopyResult
  | undefined => undefined
  | threw vs' ws' => threw (vs ++ vs') (ws ++ ws')
  | done vs' ws' => done (vs ++ vs') (ws ++ ws')

/-- Implicit conversion of a number to the coefficient type of the result; a floating-point number is
truncated if that is an integer type. -/
noncomputable def convertTo (floats : Bool) (x : ℝ) : ℝ := if floats then x else truncate x

/-- The entries that a step writes, and the remaining entries of the input. -/
structure CopyStep where
  values : List ℝ
  bitsets : List Word
  inputValues : List ℝ
  inputBitsets : List Word

/-- The coefficient part of `_trivial_assign`, `core/trivial_copy.hpp:234-303`: a common constant needs
no action (`:234-242`, `:266-277`), a stored value is copied (`:254-263`, `:292-303`), a constant is
evaluated and stored (`:244-252`, `:279-290`). `none` inside means reading past the end. -/
noncomputable def assignCoef (τ : Types) (ρ : Env) (floats : Bool) (i r : Expr) (iv : List ℝ) :
    Option (Option (List ℝ × List ℝ)) :=
  match r with
  | .stored =>
    match i with
    | .stored =>
      match iv with
      | [] => some none
      | x :: iv => some (some ([convertTo floats x], iv))
    | _ =>
      if isConstant i then some ((eval τ ρ i).map fun v => ([convertTo floats (asNumber v)], iv))
      else none
  | _ => if i = r ∧ isConstant i then some (some ([], iv)) else none

/-- `_trivial_assign`, `core/trivial_copy.hpp:234-303`, for components with equal basis blades. -/
noncomputable def assign (τ : Types) (ρ : Env) (floats : Bool) (i r : Comp) (iv : List ℝ) (ib : List Word) :
    Option (Option CopyStep) :=
  match i.blade, r.blade with
  | .const b, .const b' =>
    if b = b' then
      (assignCoef τ ρ floats i.coef r.coef iv).map fun s => s.map fun (vs, iv) => ⟨vs, [], iv, ib⟩
    else none
  | .dyn G .storedBits, .dyn G' .storedBits =>
    if G &&& G' = G then
      (assignCoef τ ρ floats i.coef r.coef iv).map fun s => s.bind fun (vs, iv) =>
        match ib with
        | [] => none
        | w :: ib => some ⟨vs, [w], iv, ib⟩
    else none
  | _, _ => none

/-- `_trivial_set_zero`, `core/trivial_copy.hpp:345-364`: the entries written. -/
def setZero (r : Comp) : Option (List ℝ × List Word) :=
  match r.coef, r.blade with
  | .stored, .const _ => some ([0], [])
  | .stored, .dyn _ .storedBits => some ([0], [0])
  | _, _ => none

/-- `_trivial_check_zero`, `core/trivial_copy.hpp:375-398`: `some none` is reading past the end,
otherwise whether the exception is thrown, and the remaining entries of the input.  `tol` has been
converted to the coefficient type of the input. -/
noncomputable def checkZero (tol : ℝ) (i : Comp) (iv : List ℝ) (ib : List Word) :
    Option (Option (Bool × List ℝ × List Word)) :=
  match i.coef, i.blade, iv, ib with
  | .stored, .const _, [], _ => some none
  | .stored, .const _, x :: iv, ib => some (some (decide (tol < |x|), iv, ib))
  | .stored, .dyn _ .storedBits, x :: iv, _ :: ib => some (some (decide (tol < |x|), iv, ib))
  | .stored, .dyn _ .storedBits, _, _ => some none
  | _, _, _, _ => none

/-- The rest of a list of components after its first component; the component of a zero stands for the
end of the list. -/
def advance : CSum → CSum
  | _ :: c :: cs => c :: cs
  | _ => [Comp.zero]

/-- `_trivial_copy`, `core/trivial_copy.hpp:42-232`, with `check` for `RuntimeCheck`.  The rules: equal
basis blades (`:67-89`, `:163-196`), the result's basis blade comes first (`:91-125`), the input's basis
blade comes first (`:127-161`).  The argument lists are in canonical order, and `add_t` of the rest of
such a list is that rest. -/
noncomputable def copyFrom (check : Bool) (τ : Types) (ρ : Env) (floats : Bool) (tol : ℝ) :
    Nat → CSum → CSum → List ℝ → List Word → Option CopyResult
  | 0, _, _, _, _ => none
  | _, [], _, _, _ => none
  | _, _, [], _, _ => none
  | n + 1, i :: is, r :: rs, iv, ib =>
    let zeroAndAdvance : Option CopyResult := do
      let (vs, ws) ← setZero r
      let rest ← copyFrom check τ ρ floats tol n (i :: is) (advance (r :: rs)) iv ib
      some (rest.after vs ws)
    let checkAndAdvance : Option CopyResult :=
      if check then
        match checkZero tol i iv ib with
        | none => none
        | some none => (copyFrom check τ ρ floats tol n (advance (i :: is)) (r :: rs) iv ib).map fun _ => .undefined
        | some (some (throws, iv, ib)) =>
          (copyFrom check τ ρ floats tol n (advance (i :: is)) (r :: rs) iv ib).map fun rest =>
            if throws then .threw [] [] else rest
      else none
    let assignAndAdvance : Option CopyResult :=
      match assign τ ρ floats i r iv ib with
      | none => none
      | some none =>
        if is = [] ∧ rs = [] then some .undefined
        else (copyFrom check τ ρ floats tol n (advance (i :: is)) (advance (r :: rs)) iv ib).map fun _ => .undefined
      | some (some s) =>
        if is = [] ∧ rs = [] then some (.done s.values s.bitsets)
        else (copyFrom check τ ρ floats tol n (advance (i :: is)) (advance (r :: rs)) s.inputValues
          s.inputBitsets).map fun rest => rest.after s.values s.bitsets
    match i.blade.lt r.blade, r.blade.lt i.blade with
    | true, true => none
    | false, false => assignAndAdvance
    | false, true =>
      if rs = [] ∧ r.coef = .const 0 then checkAndAdvance else zeroAndAdvance
    | true, false =>
      if is = [] ∧ i.coef = .const 0 then zeroAndAdvance else checkAndAdvance

/-- A number of template instantiations that suffices. -/
def copyDepth (input result : CSum) : Nat := input.length + result.length + 2

/-- `trivial_copy(input, result)`, `core/trivial_copy.hpp:454-472`: `floats` and `type` describe the type
of `result`. -/
noncomputable def trivialCopy (τ : Types) (ρ : Env) (input : Object) (floats : Bool) (type : CSum) :
    Option CopyResult :=
  if input.floats = floats ∧ input.expr = type then some (.done input.values input.bitsets)
  else copyFrom false τ ρ floats 0 (copyDepth input.expr type) input.expr type input.values input.bitsets

/-- `checked_trivial_copy(input, result, tol)`, `core/trivial_copy.hpp:416-441`. -/
noncomputable def checkedTrivialCopy (τ : Types) (ρ : Env) (input : Object) (floats : Bool) (type : CSum)
    (tol : ℝ) : Option CopyResult :=
  if input.floats = floats ∧ input.expr = type then some (.done input.values input.bitsets)
  else copyFrom true τ ρ floats (convertTo input.floats tol) (copyDepth input.expr type) input.expr type
    input.values input.bitsets

/-- What constructing an object from an object of another type does: the program is terminated, or the
object has the given entries. -/
inductive ConstructResult
  | undefined
  | terminated
  | constructed (values : List ℝ) (bitsets : List Word)

/-- The converting constructors, `core/trivial_copy.hpp:476-490`: `checked_trivial_copy(other, *this)`
inside a constructor declared `noexcept` (`GA_NOEXCEPT`, `core.hpp:32-45`), with the tolerance
`default_tolerance`. -/
noncomputable def convertConstruct (τ : Types) (ρ : Env) (input : Object) (floats : Bool) (type : CSum)
    (tol : ℝ) : Option ConstructResult :=
  (checkedTrivialCopy τ ρ input floats type tol).map fun
    | .undefined => .undefined
    | .threw _ _ => .terminated
    | .done vs ws => .constructed vs ws

end GATL
