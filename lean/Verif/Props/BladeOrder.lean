import Verif.Model.Components
import Verif.Props.Simplify

/-!
# The order of basis blades

**C47** for the order in which the components of a sum are kept.  The basis blades of a type are known at compile time
(`.const`), or chosen at run time among those with the grades `G` (`.dyn G e`).
-/

namespace GATL.Props

open Expr Spec

/-- The basis blade is known at compile time, or given by a single bitset. -/
def LeafBlade : Blade → Prop
  | .const _ => True
  | .dyn _ e => IsBitsLeaf e

/-- **C47** (restricted) The order of basis blades, among those whose bitset is known at compile time, stored or a variable, is
a strict total order. -/
theorem C47_blades_partial (a b c : Blade) (ha : LeafBlade a) (hb : LeafBlade b) (hc : LeafBlade c) :
    Blade.lt a a = false ∧ (Blade.lt a b = true → Blade.lt b c = true → Blade.lt a c = true) ∧
      (Blade.lt a b = true ∨ a = b ∨ Blade.lt b a = true) := by
  refine ⟨?_, ?_, ?_⟩
  · cases a <;> simp [Blade.lt, lt_irrefl']
  · cases a <;> cases b <;> cases c <;>
      simp only [Blade.lt, Bool.or_eq_true, Bool.and_eq_true, beq_iff_eq, decide_eq_true_eq, BitVec.lt_def, BitVec.le_def,
        ← BitVec.toNat_inj] <;> try omega
    rename_i G e H f K g
    rintro (h1 | ⟨h1, h2⟩) (h3 | ⟨h3, h4⟩)
    · left; omega
    · left; omega
    · left; omega
    · exact .inr ⟨by omega, lt_trans_bits ha hb hc h2 h4⟩
  · cases a <;> cases b <;>
      simp only [Blade.lt, Bool.or_eq_true, Bool.and_eq_true, beq_iff_eq, decide_eq_true_eq, BitVec.lt_def, BitVec.le_def,
        ← BitVec.toNat_inj, Blade.const.injEq, Blade.dyn.injEq, reduceCtorEq, false_or] <;> try omega
    rename_i G e H f
    have := lt_total_bits (a := e) (b := f) ha hb
    rcases Nat.lt_trichotomy G.toNat H.toNat with h | h | h
    · omega
    · rcases this with h' | h' | h'
      · exact .inl (.inr ⟨h, h'⟩)
      · exact .inr (.inl ⟨h, h'⟩)
      · exact .inr (.inr (.inr ⟨h.symm, h'⟩))
    · omega

example : LeafBlade (.const 5) ∧ LeafBlade (.dyn 2 .storedBits) ∧ LeafBlade (.dyn 4 (.bitset 1 0)) :=
  ⟨trivial, trivial, trivial⟩

end GATL.Props
