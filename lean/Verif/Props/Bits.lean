import Verif.Proofs.Forms

/-! Properties C01, C02 and C08. -/

namespace GATL.Props
open Spec

/-- **C01** The grade the library computes for a basis blade (bit-parallel population count) is the
number of basis vectors in the blade, for all 2^64 bitsets. -/
theorem C01_grade_counts_vectors (x : Word) : ones x = (vecs x).card := ones_eq_card x

example : ones 0xFFFFFFFFFFFFFFFF#64 = 64 ∧ ones 0x8000000000000001#64 = 2 := by decide

/-- **C02** Both the compile-time and the run-time reordering sign of two basis blades are
`(-1)^k`, with `k` the number of pairs (vector of the left blade, vector of the right blade) that
are out of order. -/
theorem C02_reordering_sign (L R : Word) :
    reorderingSign L R = (-1) ^ (inversions (vecs L) (vecs R)).card ∧
    reorderingSignRuntime L R = (-1) ^ (inversions (vecs L) (vecs R)).card := by
  rw [reorderingSignRuntime_eq, reorderingSign_eq, strictInv_eq_card]
  exact ⟨rfl, rfl⟩

example : inversions (vecs 0b110) (vecs 0b011) = {(1, 0), (2, 0), (2, 1)} := by decide

/-- **C08** The metric factor of a blade in `signed_metric_space<P,Q,R>` is the product of the
squares of its basis vectors: `+1` for the first `P`, `-1` for the next `Q`, `0` for the next `R`. -/
theorem C08_signed_signature (P Q R : Nat) (h : P + Q + R ≤ 63) (b : Word) :
    signedFactor P Q R b = ∏ i ∈ vecs b, signature P Q R i :=
  signedFactor_eq P Q R h b

example : signedFactor 3 1 1 0b01111 = -1 ∧ signedFactor 3 1 1 0b10001 = 0 := by decide

end GATL.Props
