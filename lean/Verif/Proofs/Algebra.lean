import Verif.Model.Products
import Verif.Spec.Metric
import Verif.Proofs.Parity
import Mathlib.Algebra.Algebra.Basic
import Mathlib.LinearAlgebra.BilinearMap

/-! Helper lemmas: bilinear products of multivectors, associativity of the geometric product. -/

namespace GATL
open Spec

variable {K : Type*} [CommRing K]

/-! ### bilinear extension -/

theorem bilin_single (mul : BladeMul K) (l r : Word) (a b : K) :
    bilin mul (Finsupp.single l a) (Finsupp.single r b)
      = Finsupp.single (mul l r).2 (a * b * (mul l r).1) := by
  unfold bilin
  rw [Finsupp.linearCombination_single, LinearMap.smul_apply, Finsupp.linearCombination_single,
    Finsupp.smul_single, Finsupp.smul_single]
  simp only [smul_eq_mul, mul_assoc]

/-- two bilinear products agree if they agree on basis blades -/
theorem bilin_congr {mul mul' : BladeMul K}
    (h : ∀ l r, (Finsupp.single (mul l r).2 (mul l r).1 : MV K)
      = Finsupp.single (mul' l r).2 (mul' l r).1) : bilin mul = bilin mul' := by
  unfold bilin
  congr 1
  funext l
  congr 1
  funext r
  exact h l r

/-- induction principle: additive statements about a multivector follow from scaled blades -/
theorem mv_induction {p : MV K → Prop} (A : MV K) (h0 : p 0)
    (hadd : ∀ A B, p A → p B → p (A + B)) (hs : ∀ b a, p (Finsupp.single b a)) : p A :=
  Finsupp.induction_linear A h0 (fun A B => hadd A B) hs

theorem bilin_assoc (m₁ m₂ m₃ m₄ : BladeMul K)
    (h : ∀ l r t, (Finsupp.single (m₁ (m₂ l r).2 t).2 ((m₂ l r).1 * (m₁ (m₂ l r).2 t).1) : MV K)
      = Finsupp.single (m₃ l (m₄ r t).2).2 ((m₄ r t).1 * (m₃ l (m₄ r t).2).1)) (A B C : MV K) :
    bilin m₁ (bilin m₂ A B) C = bilin m₃ A (bilin m₄ B C) := by
  induction A using mv_induction with
  | h0 => simp
  | hadd A A' h h' => simp only [map_add, LinearMap.add_apply, h, h']
  | hs l a =>
    induction B using mv_induction with
    | h0 => simp
    | hadd B B' h h' => simp only [map_add, LinearMap.add_apply, h, h']
    | hs r b =>
      induction C using mv_induction with
      | h0 => simp
      | hadd C C' h h' => simp only [map_add, h, h']
      | hs t c =>
        simp only [bilin_single]
        have := congrArg (fun x => (a * b * c) • x) (h l r t)
        simp only [Finsupp.smul_single, smul_eq_mul] at this
        rw [show a * b * (m₂ l r).1 * c * (m₁ (m₂ l r).2 t).1
            = a * b * c * ((m₂ l r).1 * (m₁ (m₂ l r).2 t).1) by ring, this]
        congr 1; ring

/-! ### the geometric product of an orthogonal metric -/

theorem orthMul_gp (factor : Word → K) (L R : Word) :
    orthMul factor .gp L R = (sg K (par L R) * factor (L &&& R), L ^^^ R) := by
  simp [orthMul, areValidGrades, reorderingSign_cast]

theorem diagFactor_eq (q : Fin 64 → K) (b : Word) :
    diagFactor q b = ∏ i : Fin 64, if b.getLsbD i then q i else 1 := by
  unfold diagFactor vecs; rw [Finset.prod_filter]

theorem diagFactor_zero (q : Fin 64 → K) : diagFactor q 0 = 1 := by
  rw [diagFactor_eq]; simp

theorem diagFactor_zero' (q : Fin 64 → K) : diagFactor q 0#64 = 1 := diagFactor_zero q

theorem diagFactor_assoc (q : Fin 64 → K) (L R T : Word) :
    diagFactor q (L &&& R) * diagFactor q ((L ^^^ R) &&& T)
      = diagFactor q (R &&& T) * diagFactor q (L &&& (R ^^^ T)) := by
  simp only [diagFactor_eq, ← Finset.prod_mul_distrib]
  refine Finset.prod_congr rfl fun i _ => ?_
  simp only [BitVec.getLsbD_and, BitVec.getLsbD_xor]
  cases L.getLsbD i <;> cases R.getLsbD i <;> cases T.getLsbD i <;> simp

theorem gp_assoc (q : Fin 64 → K) (A B C : MV K) :
    orthProd (diagFactor q) .gp (orthProd (diagFactor q) .gp A B) C
      = orthProd (diagFactor q) .gp A (orthProd (diagFactor q) .gp B C) := by
  unfold orthProd
  apply bilin_assoc
  intro l r t
  simp only [orthMul_gp]
  rw [BitVec.xor_assoc, par_xor_left, par_xor_right, sg_add, sg_add]
  have h := diagFactor_assoc q l r t
  generalize diagFactor q (l &&& r) = x at h ⊢
  generalize diagFactor q ((l ^^^ r) &&& t) = y at h ⊢
  generalize diagFactor q (r &&& t) = z at h ⊢
  generalize diagFactor q (l &&& (r ^^^ t)) = w at h ⊢
  refine congrArg (Finsupp.single _) ?_
  linear_combination (sg K (par l r) * sg K (par l t) * sg K (par r t)) * h

/-- Multivectors with the geometric product of the diagonal metric `q`. -/
def Cl (_q : Fin 64 → K) : Type _ := MV K

namespace Cl
variable (q : Fin 64 → K)

noncomputable instance : AddCommGroup (Cl q) := inferInstanceAs (AddCommGroup (MV K))
noncomputable instance : Module K (Cl q) := inferInstanceAs (Module K (MV K))
noncomputable instance : Mul (Cl q) := ⟨fun A B => orthProd (diagFactor q) .gp (K := K) A B⟩
noncomputable instance : One (Cl q) := ⟨(Finsupp.single 0 1 : MV K)⟩

theorem mul_def (A B : Cl q) : A * B = orthProd (diagFactor q) .gp (K := K) A B := rfl
theorem one_def : (1 : Cl q) = (Finsupp.single 0 1 : MV K) := rfl

theorem gp_one_left (A : MV K) :
    orthProd (diagFactor q) .gp (Finsupp.single 0 1) A = A := by
  unfold orthProd
  induction A using mv_induction with
  | h0 => simp
  | hadd A B h h' => rw [map_add, h, h']
  | hs b a =>
    rw [bilin_single, orthMul_gp]
    rw [par_zero_left, sg_zero]
    simp [diagFactor_zero']

theorem gp_one_right (A : MV K) :
    orthProd (diagFactor q) .gp A (Finsupp.single 0 1) = A := by
  unfold orthProd
  induction A using mv_induction with
  | h0 => simp
  | hadd A B h h' => rw [map_add, LinearMap.add_apply, h, h']
  | hs b a =>
    rw [bilin_single, orthMul_gp]
    rw [par_zero_right, sg_zero]
    simp [diagFactor_zero']

noncomputable instance : Ring (Cl q) where
  __ := (inferInstance : AddCommGroup (Cl q))
  mul := (· * ·)
  one := 1
  mul_assoc A B C := gp_assoc q A B C
  one_mul A := gp_one_left q A
  mul_one A := gp_one_right q A
  left_distrib A B C := (bilin (orthMul (diagFactor q) .gp) (K := K) A).map_add B C
  right_distrib A B C := (bilin (orthMul (diagFactor q) .gp) (K := K)).map_add₂ A B C
  zero_mul A := (bilin (orthMul (diagFactor q) .gp) (K := K)).map_zero₂ A
  mul_zero A := (bilin (orthMul (diagFactor q) .gp) (K := K) A).map_zero

noncomputable instance : Algebra K (Cl q) :=
  Algebra.ofModule
    (fun r x y => (bilin (orthMul (diagFactor q) .gp) (K := K)).map_smul₂ r x y)
    (fun r x y => (bilin (orthMul (diagFactor q) .gp) (K := K) x).map_smul r y)

end Cl

end GATL
