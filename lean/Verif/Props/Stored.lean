import Verif.Model.Functions
import Verif.Spec.Stored

/-!
# Functions of stored entries

**C51**: functions of two operands of the same type are not folded if the type contains stored entries, whose values may
differ.
-/

namespace GATL.Props

open Expr Spec

theorem hasStored_of_reads {e : Expr} (h : ReadsStorage e) : hasStored e = true := by
  induction h with
  | number | mapNumber | bits | mapBits => rfl
  | argument name args a ha h ih =>
    rw [hasStored]
    induction args with
    | nil => simp at ha
    | cons b bs ihb =>
      rw [hasStoredAny]
      rcases List.mem_cons.1 ha with rfl | ha
      · rw [ih, Bool.true_or]
      · rw [ihb ha, Bool.or_true]

/-- **C51** Operands of the same type with stored entries are compared at run time. -/
theorem C51_stored_comparison (S : Simp) (l : Expr) (h : ReadsStorage l) :
    mkFn S .equal [l, l] = some (.fn .equal [l, l]) ∧ mkFn S .lessOrEqual [l, l] = some (.fn .lessOrEqual [l, l]) := by
  have hs := hasStored_of_reads h
  refine ⟨by simp [mkFn, mkEqual, hs], ?_⟩
  cases h <;> simp [mkFn, mkLessOrEqual, hs]

/-- **C51** Truth values of the same type with stored entries are combined at run time. -/
theorem C51_stored_logic (S : Simp) (l : Expr) (h : ReadsStorage l) :
    mkFn S .logicalAnd [l, l] = some (.fn .logicalAnd [l, l]) ∧ mkFn S .logicalOr [l, l] = some (.fn .logicalOr [l, l]) := by
  have hs := hasStored_of_reads h
  have hb : ∀ b, l ≠ .cbool b := by rintro b rfl; cases h
  exact ⟨by simp [mkFn, mkLogicalAnd, hs, hb], by simp [mkFn, mkLogicalOr, hb]⟩

/-- **C51** A choice of two branches of the same type with stored entries is made at run time, if its test is not known. -/
theorem C51_stored_choice (S : Simp) (t l : Expr) (h : ReadsStorage l) (ht : ∀ b, t ≠ .cbool b) :
    mkFn S .ifElse [t, l, l] = some (.fn .ifElse [t, l, l]) := by
  have hs := hasStored_of_reads h
  cases t <;> simp_all [mkFn, mkIfElse]

/-- **C51** Bitwise operations on operands of the same type with stored entries are evaluated at run time. -/
theorem C51_stored_bits (S : Simp) (l : Expr) (h : ReadsStorage l) :
    mkFn S .band [l, l] = some (.fn .band [l, l]) ∧ mkFn S .bor [l, l] = some (.fn .bor [l, l]) ∧
      mkFn S .bxor [l, l] = some (.fn .bxor [l, l]) := by
  have hs := hasStored_of_reads h
  cases h <;> simp [mkFn, mkAnd, mkOr, mkXor]

-- a sum of a literal and a stored number
example : ReadsStorage (.fn .add [.const 1, .stored]) := .argument _ _ .stored (by simp) .number
example : ReadsStorage (.fn .countOneBits [.storedBits]) := .argument _ _ .storedBits (by simp) .bits
example : ∀ b, Expr.fn .lessOrEqual [.value 1 0, .const 0] ≠ .cbool b := by simp

end GATL.Props
