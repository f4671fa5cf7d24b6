import Verif.Proofs.Canonical
import Verif.Proofs.Mappings
import Verif.Proofs.Versor
import Verif.Proofs.GeneralProd

/-!
Properties C23, C24 and C45: sums and products of multivectors at the level of types.

`addC k s t = some e` says that the compiler computes the type `e` for `addition_t<s, t>` with
instantiation depth at most `k`; `mulC M k s t = some e` says the same of `product_t<s, t, M>`.
`SumDenotes ρ n s A` says that, when the variables have the values `ρ`, the value of `s` is defined
and equal to the multivector `A`, and that the possible grades declared in `s` are right in a space
with `n` dimensions.  `op`, `rp`, `signedProd` and the sign changes are those of properties C03 to
C13; they are determined there by the algebraic laws.
-/

namespace GATL.Props

open Expr Spec

variable (ρ : Env)

/-- The vector `x₀ e1 + x₁ e2`. -/
abbrev vec₂ : CSum := [⟨.value 1 0, .const 1⟩, ⟨.value 1 1, .const 2⟩]
/-- A vector along a basis vector chosen at run time. -/
abbrev dyn₁ : CSum := [⟨.value 1 0, .dyn 2 (.bitset 1 0)⟩]

/-- The value of an expression is unique. -/
theorem C23_value_unique (n : Nat) (s : CSum) (A B : MV ℝ) (hA : SumDenotes ρ n s A)
    (hB : SumDenotes ρ n s B) : A = B := by
  induction s generalizing A B with
  | nil => rw [sumDenotes_nil hA, sumDenotes_nil hB]
  | cons c cs ih =>
    obtain ⟨a₁, a₂, h₁, h₂, rfl⟩ := SumDenotes.cons_iff.1 hA
    obtain ⟨b₁, b₂, g₁, g₂, rfl⟩ := SumDenotes.cons_iff.1 hB
    rw [ih _ _ h₂ g₂]
    obtain ⟨_, x, hx, _, rfl⟩ := SumDenotes.single_iff.1 h₁
    obtain ⟨_, y, hy, _, rfl⟩ := SumDenotes.single_iff.1 g₁
    rw [compDenotes_unique hx hy]

-- the multivectors of the examples have values
example : SumDenotes ρ 3 vec₂ (Finsupp.single 1 (ρ.val 1 0) + Finsupp.single 2 (ρ.val 1 1)) := by
  refine ⟨?_, [(ρ.val 1 0, .const 1), (ρ.val 1 1, .const 2)], ?_, ?_, by simp [TBlade.bits]⟩
  · simp [CompBuilt, Built.value]
  · simp [CompDenotes, BladeDenotes, Denotes, den]
  · intro a ha
    simp only [List.mem_cons, List.not_mem_nil, or_false] at ha
    rcases ha with rfl | rfl <;> simp only [WellTyped] <;> decide
example (h : ρ.bits 1 0 = 4) : SumDenotes ρ 3 dyn₁ (Finsupp.single 4 (ρ.val 1 0)) := by
  refine ⟨?_, [(ρ.val 1 0, .dyn 2 4)], ?_, ?_, by simp [TBlade.bits]⟩
  · simp [CompBuilt, Built.value, Built.bitset, isConstant]
  · simp [CompDenotes, BladeDenotes, Denotes, den, h]
  · intro a ha
    simp only [List.mem_cons, List.not_mem_nil, or_false] at ha
    subst ha
    refine ⟨by decide, by decide, fun _ => ⟨1, by decide, by decide⟩⟩

/-- **C23** The type computed for the outer product denotes the outer product of the values. -/
theorem C23_op (n : Nat) (hn : n ≤ 62) (k : Nat) (s t e : CSum) (A B : MV ℝ)
    (hA : SumDenotes ρ n s A) (hB : SumDenotes ρ n t B)
    (he : mulC (extMapping n) k s t = some e) : SumDenotes ρ n e (op A B) :=
  mulC_ok (by omega) (extMapping_ok hn n) k s t e A B (fun _ _ _ _ => .inl rfl) hA hB he

/-- **C23** The type computed for the regressive product denotes the regressive product. -/
theorem C23_rp (n : Nat) (hn : n ≤ 62) (k : Nat) (s t e : CSum) (A B : MV ℝ)
    (hA : SumDenotes ρ n s A) (hB : SumDenotes ρ n t B)
    (he : mulC (regMapping n) k s t = some e) : SumDenotes ρ n e (rp n A B) :=
  mulC_ok (by omega) (regMapping_ok hn) k s t e A B (fun _ _ _ _ => trivial) hA hB he

/-- **C23** (orthogonal metrics) The type computed for `gp`, `lcont`, `rcont`, `dot`, `hip` or `sp`
in `signed_metric_space<P,Q,R>` denotes that product of the values.  The products of
general metric spaces are in `Props/GeneralTypes.lean`. -/
theorem C23_metric_products_partial (P Q R : Nat) (h : P + Q + R ≤ 62) (g : GradedProduct) (k : Nat)
    (s t e : CSum) (A B : MV ℝ) (hA : SumDenotes ρ (P + Q + R) s A)
    (hB : SumDenotes ρ (P + Q + R) t B)
    (he : mulC (orthMapping (P + Q + R) (mkSignedFactor P Q R) g) k s t = some e) :
    SumDenotes ρ (P + Q + R) e (signedProd P Q R g A B) :=
  mulC_ok (by omega) (orthMapping_ok h (f := fun b => ((signedFactor P Q R b : Int) : ℝ))
    (signedFactor_ok P Q R) g _) k s t e A B (fun _ _ _ _ => .inl rfl) hA hB he

/-- A multivector whose expression is that of a scalar. -/
abbrev IsScalar (s : CSum) : Prop := ∃ c, s = [⟨c, .const 0⟩]

theorem realFactor_ok (b : Expr) (w : Word) (_ : BV ρ b w) : V ρ (mkRealFactor b) (1 : ℝ) := by
  have := V.const (ρ := ρ) 1
  unfold mkRealFactor
  simpa using this

theorem scalar_grades {s t : CSum} (n : Nat) (h : IsScalar s ∨ IsScalar t) :
    ∀ a ∈ s, ∀ b ∈ t, SpaceOk n 63 a.blade.grades b.blade.grades := by
  intro a ha b hb
  have h0 : (Blade.const 0).grades = 1 := by decide
  refine .inr ⟨rfl, ?_⟩
  rcases h with ⟨c, rfl⟩ | ⟨c, rfl⟩
  · left
    rw [List.mem_singleton] at ha
    rw [ha]; exact h0
  · right
    rw [List.mem_singleton] at hb
    rw [hb]; exact h0

/-- **C23** When one operand is a scalar, the library multiplies in its 63-dimensional real space
whatever the space of the other operand is; the result is that of the metric space of the other
operand all the same. -/
theorem C23_scalar_operand (P Q R : Nat) (h : P + Q + R ≤ 62) (g : GradedProduct) (k : Nat)
    (s t e : CSum) (A B : MV ℝ) (hs : IsScalar s ∨ IsScalar t)
    (hA : SumDenotes ρ (P + Q + R) s A) (hB : SumDenotes ρ (P + Q + R) t B)
    (he : mulC (orthMapping 63 mkRealFactor g) k s t = some e) :
    SumDenotes ρ (P + Q + R) e (signedProd P Q R g A B) := by
  have key := mulC_ok (by omega) (orthMapping_ok h (f := fun _ => (1 : ℝ)) (realFactor_ok ρ) g 63)
    k s t e A B (scalar_grades _ hs) hA hB he
  have h1 : ∀ {u : CSum} {X : MV ℝ}, IsScalar u → SumDenotes ρ (P + Q + R) u X →
      ∃ x, X = Finsupp.single 0 x := by
    rintro _ X ⟨c, rfl⟩ hX
    obtain ⟨_, ⟨x, t⟩, ⟨_, ht⟩, _, rfl⟩ := SumDenotes.single_iff.1 hX
    exact ⟨x, by rw [show t = .const 0 from ht]; rfl⟩
  have hf : ((signedFactor P Q R 0 : Int) : ℝ) = 1 := by
    rw [congrFun (signedFactor_cast (K := ℝ) P Q R (by omega)) 0]
    exact diagFactor_zero _
  have hblade : ∀ (L R' : Word), L = 0 ∨ R' = 0 →
      orthMul (fun b => ((signedFactor P Q R b : Int) : ℝ)) g L R' = orthMul (fun _ => (1 : ℝ)) g L R' := by
    intro L R' h0
    have : L &&& R' = 0 := by rcases h0 with rfl | rfl <;> simp
    unfold orthMul
    simp only [this, hf]
  convert key using 1
  unfold signedProd orthProd
  refine bilinear_congr _ _ A B fun a b ha hb => ?_
  rw [bilin_single, bilin_single, hblade]
  rcases hs with hs | hs
  · obtain ⟨x, rfl⟩ := h1 hs hA
    exact .inl (by by_contra h0; exact ha (Finsupp.single_eq_of_ne h0))
  · obtain ⟨x, rfl⟩ := h1 hs hB
    exact .inr (by by_contra h0; exact hb (Finsupp.single_eq_of_ne h0))

/-- **C23** The same for the outer product, taken with `exterior_product_mapping<63>`. -/
theorem C23_scalar_op (n : Nat) (hn : n ≤ 62) (k : Nat) (s t e : CSum) (A B : MV ℝ)
    (hs : IsScalar s ∨ IsScalar t) (hA : SumDenotes ρ n s A) (hB : SumDenotes ρ n t B)
    (he : mulC (extMapping 63) k s t = some e) : SumDenotes ρ n e (op A B) :=
  mulC_ok (by omega) (extMapping_ok hn 63) k s t e A B (scalar_grades n hs) hA hB he

/-- **C23** The types computed for `reverse`, `involute` and `conjugate` denote these functions of
the value. -/
theorem C23_involutions (n : Nat) (hn : n ≤ 63) (k : Nat) (s e : CSum) (A : MV ℝ)
    (hA : SumDenotes ρ n s A) :
    (gradedMinusC k 0xcccccccccccccccc s = some e → SumDenotes ρ n e (reverse A)) ∧
    (gradedMinusC k 0xaaaaaaaaaaaaaaaa s = some e → SumDenotes ρ n e (involute A)) ∧
    (gradedMinusC k 0x6666666666666666 s = some e → SumDenotes ρ n e (conjugate A)) :=
  ⟨gradedMinusC_ok hn s e A hA, gradedMinusC_ok hn s e A hA, gradedMinusC_ok hn s e A hA⟩

/-- **C24** The sum of two multivectors in canonical form is in canonical form: strictly increasing
blades, no constant zero (except in a sum that is the constant zero); and unless it is the constant
zero its blades are blades of the operands. -/
theorem C24_canonical (k : Nat) (s t e : CSum) (hs : Canonical s) (ht : Canonical t)
    (he : addC k s t = some e) :
    Canonical e ∧ ((∃ c, e = [c] ∧ c.coef = .const 0) ∨
      ∀ d ∈ e, ∃ c ∈ s ++ t, d.blade = c.blade) :=
  addC_canonical k s t e hs ht he

/-- **C24** The addition of multivectors in canonical form compiles, at every sufficient depth and
always to the same type, if the coefficients of the common blades can be added. -/
theorem C24_compiles (s t : CSum) (hs : Canonical s) (ht : Canonical t)
    (hadd : ∀ a ∈ s, ∀ b ∈ t, a.blade = b.blade → ∃ k e, simp k .add a.coef b.coef = some e) :
    ∃ k e, ∀ k' ≥ k, addC k' s t = some e := by
  obtain ⟨k, e, he⟩ := addC_exists _ s t le_rfl hs ht hadd
  exact ⟨k, e, fun k' hk => addC_mono hk s t e he⟩

-- `(x₀ e1 + x₁ e2) + (x₁ e2 + e3)`, `e1 - e1`; the operands are canonical
example : addC 20 vec₂ [⟨.value 1 1, .const 2⟩, ⟨.const 1, .const 4⟩] =
    some [⟨.value 1 0, .const 1⟩, ⟨.fn .mul [.const 2, .value 1 1], .const 2⟩,
      ⟨.const 1, .const 4⟩] := by decide +kernel
example : addC 20 [⟨.const 1, .const 1⟩] [⟨.const (-1), .const 1⟩] =
    some [⟨.const 0, .const 0⟩] := by decide +kernel
example : Canonical vec₂ := by
  refine ⟨by simp, ?_, ?_, .inr (by simp)⟩
  · simp only [List.mem_cons, List.not_mem_nil, or_false, forall_eq_or_imp, forall_eq]
    exact ⟨⟨1, rfl, by decide⟩, 2, rfl, by decide⟩
  · simp only [List.pairwise_cons, List.mem_singleton, forall_eq, Blade.const.injEq]
    refine ⟨?_, by simp⟩
    rintro a b rfl rfl
    exact .inr (by decide)

/-- **C45** The type computed for `A + B` denotes the sum, coefficient by coefficient. -/
theorem C45_add (n : Nat) (hn : n ≤ 63) (k : Nat) (s t e : CSum) (A B : MV ℝ)
    (hA : SumDenotes ρ n s A) (hB : SumDenotes ρ n t B) (he : addC k s t = some e) :
    ∃ C, SumDenotes ρ n e C ∧ ∀ b, C b = A b + B b :=
  ⟨A + B, addC_ok hn k s t e A B hA hB he, fun _ => rfl⟩

theorem constSum_denotes (n : Nat) (v : Int) :
    SumDenotes ρ n (constSum v) (Finsupp.single 0 (v : ℝ)) := by
  refine SumDenotes.single_iff.2 ⟨⟨Built.const v, by simp⟩, ((v : ℝ), .const 0), ?_, ?_, rfl⟩
  · exact ⟨(V.const v).2, rfl⟩
  · simp [WellTyped, vecs]

/-- **C45** The type computed for `-A` denotes the negative, coefficient by coefficient. -/
theorem C45_neg (n : Nat) (hn : n ≤ 62) (k : Nat) (s e : CSum) (A : MV ℝ)
    (hA : SumDenotes ρ n s A) (he : negC k s = some e) :
    ∃ C, SumDenotes ρ n e C ∧ ∀ b, C b = - A b := by
  have key := C23_scalar_operand ρ n 0 0 (by omega) .gp k (constSum (-1)) s e _ A
    (.inl ⟨_, rfl⟩) (constSum_denotes ρ _ (-1)) hA he
  refine ⟨_, key, fun b => ?_⟩
  unfold signedProd
  rw [signedFactor_cast n 0 0 (by omega)]
  refine (DFunLike.congr_fun (gp_scalar_left _ ((-1 : Int) : ℝ) A) b).trans ?_
  simp

/-- **C45** The type computed for `A - B` denotes the difference, coefficient by coefficient. -/
theorem C45_sub (n : Nat) (hn : n ≤ 62) (k : Nat) (s t e : CSum) (A B : MV ℝ)
    (hA : SumDenotes ρ n s A) (hB : SumDenotes ρ n t B) (he : subC k s t = some e) :
    ∃ C, SumDenotes ρ n e C ∧ ∀ b, C b = A b - B b := by
  simp only [subC, Option.bind_eq_bind, Option.bind_eq_some_iff] at he
  obtain ⟨u, hu, he⟩ := he
  obtain ⟨C, hC, hCb⟩ := C45_neg ρ n hn k t u B hB hu
  obtain ⟨D, hD, hDb⟩ := C45_add ρ n (by omega) k s u e A C hA hC he
  exact ⟨D, hD, fun b => by rw [hDb, hCb, sub_eq_add_neg]⟩

/-- **C45** `A - A` is zero. -/
theorem C45_sub_self (n : Nat) (hn : n ≤ 62) (k : Nat) (s e : CSum) (A : MV ℝ)
    (hA : SumDenotes ρ n s A) (he : subC k s s = some e) : SumDenotes ρ n e 0 := by
  obtain ⟨C, hC, h⟩ := C45_sub ρ n hn k s s e A A hA hA he
  rwa [show C = 0 from Finsupp.ext fun b => by rw [h]; simp] at hC

/-- **C45** `A + B` and `B + A` have the same value. -/
theorem C45_comm (n : Nat) (hn : n ≤ 63) (k k' : Nat) (s t e e' : CSum) (A B C : MV ℝ)
    (hA : SumDenotes ρ n s A) (hB : SumDenotes ρ n t B) (he : addC k s t = some e)
    (he' : addC k' t s = some e') : SumDenotes ρ n e C ↔ SumDenotes ρ n e' C := by
  have h1 := addC_ok hn k s t e A B hA hB he
  have h2 := addC_ok hn k' t s e' B A hB hA he'
  rw [add_comm] at h2
  constructor
  · intro h; rwa [C23_value_unique ρ n e C _ h h1]
  · intro h; rwa [C23_value_unique ρ n e' C _ h h2]

/-- **C45** `(A + B) + C` and `A + (B + C)` have the same value. -/
theorem C45_assoc (n : Nat) (hn : n ≤ 63) (k : Nat) (s t u st tu e e' : CSum) (A B C D : MV ℝ)
    (hA : SumDenotes ρ n s A) (hB : SumDenotes ρ n t B) (hC : SumDenotes ρ n u C)
    (h1 : addC k s t = some st) (h2 : addC k st u = some e) (h3 : addC k t u = some tu)
    (h4 : addC k s tu = some e') : SumDenotes ρ n e D ↔ SumDenotes ρ n e' D := by
  have g1 := addC_ok hn k st u e _ C (addC_ok hn k s t st A B hA hB h1) hC h2
  have g2 := addC_ok hn k s tu e' A _ hA (addC_ok hn k t u tu B C hB hC h3) h4
  rw [add_assoc] at g1
  constructor
  · intro h; rwa [C23_value_unique ρ n e D _ h g1]
  · intro h; rwa [C23_value_unique ρ n e' D _ h g2]

-- the square of a vector, the product with a blade known at run time only, the regressive product,
-- a scalar multiple, a reverse, a negative and a difference
example : mulC (orthMapping 3 (mkSignedFactor 3 0 0) .gp) 40 vec₂ vec₂ =
    some [⟨.fn .add [powerOf (.value 1 0) (.const 2), powerOf (.value 1 1) (.const 2)],
      .const 0⟩] := by decide +kernel
example : (mulC (orthMapping 3 (mkSignedFactor 3 0 0) .gp) 40 [⟨.value 1 0, .const 1⟩] dyn₁).isSome := by
  decide +kernel
example : (mulC (extMapping 3) 40 dyn₁ [⟨.value 1 0, .const 1⟩]).isSome := by decide +kernel
example : mulC (extMapping 3) 40 vec₂ [⟨.const 1, .const 4⟩] =
    some [⟨.value 1 0, .const 5⟩, ⟨.value 1 1, .const 6⟩] := by decide +kernel
example : mulC (regMapping 3) 40 [⟨.value 1 0, .const 3⟩] [⟨.value 1 1, .const 6⟩] =
    some [⟨.fn .mul [.value 1 0, .value 1 1], .const 2⟩] := by decide +kernel
example : mulC (orthMapping 63 mkRealFactor .gp) 40 (constSum 2) vec₂ =
    some [⟨.fn .mul [.const 2, .value 1 0], .const 1⟩,
      ⟨.fn .mul [.const 2, .value 1 1], .const 2⟩] := by decide +kernel
example : (mulC (extMapping 63) 40 (constSum 2) dyn₁).isSome := by decide +kernel
example : gradedMinusC 20 0xcccccccccccccccc [⟨.value 1 0, .const 1⟩, ⟨.value 1 1, .const 3⟩] =
    some [⟨.value 1 0, .const 1⟩, ⟨.fn .mul [.const (-1), .value 1 1], .const 3⟩] := by
  decide +kernel
example : (gradedMinusC 20 0xaaaaaaaaaaaaaaaa dyn₁).isSome := by decide +kernel
example : negC 40 vec₂ = some [⟨.fn .mul [.const (-1), .value 1 0], .const 1⟩,
    ⟨.fn .mul [.const (-1), .value 1 1], .const 2⟩] := by decide +kernel
example : subC 40 vec₂ vec₂ = some [⟨.const 0, .const 0⟩] := by decide +kernel

/-- **C52** (static blades) The sum of two multivectors with statically known basis blades compiles
if the coefficients of the common blades can be added.  What is missing: run-time basis blades, for
which the claim fails (see `C52_dynamic_blades_is_false`). -/
theorem C52_static_blades_partial (s t : CSum) (hs : Canonical s) (ht : Canonical t)
    (hadd : ∀ a ∈ s, ∀ b ∈ t, a.blade = b.blade → ∃ k e, simp k .add a.coef b.coef = some e) :
    ∃ k e, addC k s t = some e :=
  addC_exists _ s t le_rfl hs ht hadd

/-- The blade of `e1 * e(i)`, where `i` is known at run time only. -/
abbrev e1i : Blade := .dyn 5 (mkXor (.cbits 1) (.bitset 1 0))
/-- The blade of `e2 * e(i)`. -/
abbrev e2i : Blade := .dyn 5 (mkXor (.cbits 2) (.bitset 1 0))

/-- **C52** fails for run-time blades.  The products `e1 * e(i)` and `e2 * e(i)` compile, have the
different blades `e1i` and `e2i`, and their sum does not compile at any depth, whatever the
coefficients (other than the constant zero) are: the order of expressions ignores the constant by
which the blades differ, and no rule of the addition applies.  In particular
`(x₀ e1 + x₁ e2) * e(i)` does not compile. -/
theorem C52_dynamic_blades_is_false :
    (mulC (orthMapping 3 (mkSignedFactor 3 0 0) .gp) 40 [⟨.const 1, .const 1⟩]
      [⟨.const 1, .dyn 2 (.bitset 1 0)⟩]).map (·.map Comp.blade) = some [e1i] ∧
    (mulC (orthMapping 3 (mkSignedFactor 3 0 0) .gp) 40 [⟨.const 1, .const 2⟩]
      [⟨.const 1, .dyn 2 (.bitset 1 0)⟩]).map (·.map Comp.blade) = some [e2i] ∧
    ∀ (k : Nat) (x y : Expr), x ≠ .const 0 → y ≠ .const 0 → addC k [⟨x, e1i⟩] [⟨y, e2i⟩] = none := by
  refine ⟨by decide +kernel, by decide +kernel, fun k x y hx hy => ?_⟩
  have h1 : e1i ≠ e2i := by decide
  have h2 : e1i.lt e2i = false := by decide +kernel
  have h3 : e2i.lt e1i = false := by decide +kernel
  cases k with
  | zero => rfl
  | succ k => simp only [addC, hx, hy, h1, h2, h3, false_and, if_false, Bool.false_eq_true]

end GATL.Props
