import Verif.Proofs.NormSquare

/-!
Expressions without variables.
-/

namespace GATL

open Expr Spec

variable {ρ ρ' outer : Env} {τ : Types} {N P Q R n k : Nat}

/-- Sums, products and powers of integer literals. -/
abbrev Numeric : Expr → Prop := Over IsConst Alg fun _ => True

theorem closed_voc : Voc IsConst Alg fun _ => True where
  const v := ⟨v, rfl⟩
  add := .inl rfl
  mul := .inr (.inl rfl)
  power := .inr (.inr rfl)
  econst _ _ := trivial
  eneg _ _ _ := trivial

theorem closed_simp (n : Nat) : SimpOver IsConst Alg (fun _ => True) (simp n) :=
  simp_over closed_voc (fun _ _ _ _ _ => ⟨fun _ _ => trivial, fun _ _ => trivial⟩) n

theorem closed_const (v : Int) : Numeric (.const v) := over_const closed_voc v

theorem closed_closed : ExpClosed Numeric := fun n l r hl hr => ⟨(closed_simp n).add l r hl hr, (closed_simp n).mul l r hl hr⟩

theorem closed_pow {l r e : Expr} (hl : Numeric l) (hr : Numeric r) (h : simp n .pow l r = some e) : Numeric e :=
  (closed_simp n).pow l r hl hr trivial e h

theorem closed_mul {l r e : Expr} (hl : Numeric l) (hr : Numeric r) (h : simp n .mul l r = some e) : Numeric e :=
  (closed_simp n).mul l r hl hr e h

theorem closed_half : Numeric half :=
  over_fn.2 ⟨.inr (.inr rfl), fun a ha => by
    simp only [List.mem_cons, List.not_mem_nil, or_false] at ha
    rcases ha with rfl | rfl <;> exact closed_const _, fun _ _ _ _ => trivial⟩

theorem closed_stored (e : Expr) : Numeric e → hasStored e = false := by
  refine over_induct (motive := fun e => hasStored e = false) ?_ ?_ e
  · rintro e - ⟨v, rfl⟩; rfl
  · intro name args h ih
    clear h
    rw [hasStored]
    induction args with
    | nil => rfl
    | cons a as iha => rw [hasStoredAny, ih a (by simp), iha fun b hb => ih b (by simp [hb])]; rfl

/-- The value does not depend on the variables. -/
theorem closed_env (e : Expr) : Numeric e → den ρ e = den ρ' e := by
  refine over_induct (motive := fun e => den ρ e = den ρ' e) ?_ ?_ e
  · rintro e - ⟨v, rfl⟩; rfl
  · intro name args _ ih
    rw [den_fn, den_fn, denList_congr ih]

end GATL
