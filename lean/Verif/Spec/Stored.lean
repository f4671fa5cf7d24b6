import Verif.Model.Expr

/-!
# Expressions with stored entries

A stored entry stands for the next number (or bitset) of the storage of a multivector, so two occurrences of the same type
with a stored entry need not have the same value.
-/

namespace GATL.Spec

open Expr

/-- The type contains a stored entry: a number, a bitset, or an entry of a map of either. -/
inductive ReadsStorage : Expr → Prop
  | number : ReadsStorage .stored
  | mapNumber : ReadsStorage .storedMap
  | bits : ReadsStorage .storedBits
  | mapBits : ReadsStorage .storedMapBits
  | argument (name : Name) (args : List Expr) (a : Expr) (ha : a ∈ args) (h : ReadsStorage a) : ReadsStorage (.fn name args)

end GATL.Spec
