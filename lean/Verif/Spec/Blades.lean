import Mathlib.Data.Fintype.Basic
import Mathlib.Data.Finset.Prod
import Mathlib.Algebra.Group.Int.Defs
import Mathlib.Algebra.Ring.Int.Defs
import Verif.Model.Bits

/-!
# Specification vocabulary for basis blades

A basis blade is read as the finite set of the (0-based) indices of its basis vectors.
Nothing here mentions the algorithms of the library.
-/

namespace GATL.Spec

/-- The set of basis vectors of a blade (bit `i` set means basis vector `e(i+1)`). -/
def vecs (x : Word) : Finset (Fin 64) := Finset.univ.filter fun i => x.getLsbD i = true

/-- The pairs (vector of the left blade, vector of the right blade) that are out of order: sorting
the concatenation of the two increasing lists needs exactly one swap for each of them. -/
def inversions (s t : Finset (Fin 64)) : Finset (Fin 64 × Fin 64) :=
  (s ×ˢ t).filter fun p => p.2 < p.1

/-- `L` lists the blades of grade `k` of the `n`-dimensional space: every one of them and nothing
else, in strictly increasing order of bitset (hence each exactly once). -/
structure GradeList (n k : Nat) (L : List Word) : Prop where
  increasing : L.Pairwise fun x y => x.toNat < y.toNat
  complete : ∀ b, b ∈ L ↔ (∀ i ∈ vecs b, i.val < n) ∧ (vecs b).card = k

/-- Call `f` with the 1-based index of each basis vector of the list, in order, until it returns
`false`; the final state and the last answer (`true` if there was no call). -/
def visit {σ : Type} (f : Nat → σ → σ × Bool) : List (Fin 64) → σ → σ × Bool
  | [], s => (s, true)
  | i :: l, s => let r := f (i.val + 1) s; if r.2 then visit f l r.1 else (r.1, false)

end GATL.Spec
