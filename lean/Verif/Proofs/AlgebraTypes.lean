import Verif.Model.Algebras
import Verif.Proofs.MetricType

/-!
# The types of the constants of the predefined algebras, computed
-/

namespace GATL.Algebra

open Expr Spec MinkowskiModel

/-- Half a basis vector, as a type. -/
def half : Expr := powerOf (.const 2) (.const (-1))

/-- The type of a basis vector, and those of the constants. -/
def basisType (D : Nat) : CSum := [⟨.const 1, .const ((1 : Word) <<< D)⟩]
def pseudoType (D : Nat) : CSum := [⟨.const 1, .const (BitVec.ofNat 64 (2 ^ D - 1))⟩]

theorem minkowskiNo_type : ∀ D : Fin 61,
    (subC 40 (basisType (D + 1)) (basisType D) >>= fun s => Rational.divideProgram.typeOfIn realSpace 40 [s, constSum 2])
      = some [⟨.fn .mul [.const (-1), half], .const ((1 : Word) <<< D.val)⟩, ⟨half, .const ((1 : Word) <<< (D.val + 1))⟩] ∧
    subC 40 (basisType (D + 1)) (basisType D)
      = some [⟨.const (-1), .const ((1 : Word) <<< D.val)⟩, ⟨.const 1, .const ((1 : Word) <<< (D.val + 1))⟩] := by
  decide +kernel

theorem minkowskiNi_type : ∀ D : Fin 61, addC 40 (basisType D) (basisType (D + 1))
    = some [⟨.const 1, .const ((1 : Word) <<< D.val)⟩, ⟨.const 1, .const ((1 : Word) <<< (D.val + 1))⟩] := by
  decide +kernel

theorem pseudo_blade : ∀ n : Fin 63, pseudoscalarBlade n = some (BitVec.ofNat 64 (2 ^ n.val - 1)) := by
  decide +kernel

theorem minkowskiIe_type : ∀ D : Fin 61,
    mulC (extMapping (D + 2)) 40 (basisType D) (basisType (D + 1)) = some [⟨.const 1, .const ((3 : Word) <<< D.val)⟩] ∧
    mulC ((signedSpace (D + 1) 1 0).mapping .rcont) 40 (pseudoType (D + 2)) [⟨.const 1, .const ((3 : Word) <<< D.val)⟩]
      = some (pseudoType D) := by
  decide +kernel

theorem homogeneousIe_type : ∀ D : Fin 62,
    mulC ((signedSpace (D + 1) 0 0).mapping .rcont) 40 (pseudoType (D + 1)) (basisType D) = some (pseudoType D) := by
  decide +kernel

theorem conformalEp_type : ∀ D : Fin 61,
    Rational.divideProgram.typeOfIn realSpace 40 [basisType (D + 1), constSum 2] = some [⟨half, .const ((1 : Word) <<< (D.val + 1))⟩] ∧
    subC 40 [⟨half, .const ((1 : Word) <<< (D.val + 1))⟩] (basisType D)
      = some [⟨.const (-1), .const ((1 : Word) <<< D.val)⟩, ⟨half, .const ((1 : Word) <<< (D.val + 1))⟩] ∧
    addC 40 [⟨half, .const ((1 : Word) <<< (D.val + 1))⟩] (basisType D)
      = some [⟨.const 1, .const ((1 : Word) <<< D.val)⟩, ⟨half, .const ((1 : Word) <<< (D.val + 1))⟩] := by
  decide +kernel

theorem conformalIe_type : ∀ D : Fin 8,
    mulC (extMapping (D + 2)) 40 (basisType D) (basisType (D + 1)) = some [⟨.const 1, .const ((3 : Word) <<< D.val)⟩] ∧
    mulC ((conformalSpace D).mapping .rcont) 40 (pseudoType (D + 2)) [⟨.const 1, .const ((3 : Word) <<< D.val)⟩]
      = some (pseudoType D) := by
  decide +kernel

end GATL.Algebra
