import Mathlib.Analysis.SpecialFunctions.Trigonometric.Basic
import Mathlib.Analysis.SpecialFunctions.Log.Basic

/-!
# Functions of numbers
-/

namespace GATL.Spec

/-- The functions of one number. -/
inductive MathFn
  | abs | exp | log | cos | sin | tan | cosh | sinh | tanh
  deriving DecidableEq

/-- Their values, where they are defined. -/
noncomputable def MathFn.value : MathFn → ℝ → Option ℝ
  | .abs, x => some |x|
  | .exp, x => some (Real.exp x)
  | .log, x => if 0 < x then some (Real.log x) else none
  | .cos, x => some (Real.cos x)
  | .sin, x => some (Real.sin x)
  | .tan, x => if Real.cos x = 0 then none else some (Real.sin x / Real.cos x)
  | .cosh, x => some ((Real.exp x + Real.exp (-x)) / 2)
  | .sinh, x => some ((Real.exp x - Real.exp (-x)) / 2)
  | .tanh, x => some ((Real.exp x - Real.exp (-x)) / (Real.exp x + Real.exp (-x)))

end GATL.Spec
