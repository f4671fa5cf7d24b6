import Verif.Proofs.UnitType
import Verif.Proofs.Linear

/-!
Sums of two coefficients that share nothing, and of a scalar with a multivector that has a scalar component.
-/

namespace GATL

open Expr Spec

variable {ρ : Env} {N n k L U : Nat}

theorem mkAdd_two {a b z : Expr} (h : mkAdd [a, b] = some z) : z = .fn .add [a, b] := by
  simp only [mkAdd, List.contains_cons] at h
  split_ifs at h
  cases h; rfl

/-- The sum of two expressions that are not sums: a rule for two summands applies or they are merged. -/
theorem add_merge_pair {x y z : Expr} (hx : asAdd x = none) (hy : asAdd y = none) (h0 : x ≠ .const 0) (h1 : y ≠ .const 0)
    (h : simp (n + 1) .add x y = some z) : (∃ rule ∈ combining (simp n), rule x y = some (some z)) ∨
    z = .fn .add [x, y] ∨ z = .fn .add [y, x] := by
  change applyRules (addRules (simp n)) x y = _ at h
  rw [addRules_eq] at h
  rcases applyRules_cons h with h' | ⟨-, h⟩
  · simp [addZero, h0, h1] at h'
  rcases applyRules_append h with ⟨rule, hx', h'⟩ | ⟨-, h⟩
  · rw [List.mem_map] at hx'
    obtain ⟨rule, hrule, rfl⟩ := hx'
    simp only [addHelper, hx, hy] at h'
    exact .inl ⟨rule, hrule, h'⟩
  rcases applyRules_cons h with h' | ⟨-, h⟩
  · simp only [addMergeLt, hx, hy] at h'
    split_ifs at h'
    · exact .inr (.inl (mkAdd_two (fire_some.1 h')))
    · simp at h'
  rcases applyRules_cons h with h' | ⟨-, h⟩
  · simp only [addMergeGt, hx, hy] at h'
    split_ifs at h'
    · exact .inr (.inr (mkAdd_two (fire_some.1 h')))
    · simp at h'
  rcases applyRules_cons h with h' | ⟨-, h⟩
  · simp only [addMergeEq, hx, hy] at h'
    exact .inr (.inl (mkAdd_two (fire_some.1 h')))
  · simp [applyRules] at h

/-- What can be collected if the first summand is not a product. -/
theorem add_collect {S : Simp} {x y : Expr} (hm : ∀ args, x ≠ .fn .mul args)
    (hc : (asConst x = none ∧ asRecip x = none) ∨ asConst y = none ∧ asRecip y = none ∧ asRatio y = none)
    {rule : Rule} (hrule : rule ∈ combining S) {e : Expr} (h : rule x y = some (some e)) :
    (x = y ∧ S .mul (.const 2) x = some e) ∨
      (∃ p as, y = .fn .mul (p :: as) ∧ as ≠ [] ∧ (as = [x] ∨ .fn .mul as = x) ∧ simplifies S (.const 1) p = some true ∧
        ∃ q r, S .add (.const 1) p = some q ∧ mkMul as = some r ∧ S .mul q r = some e) ∨
      ∃ as r, y = .fn .mul (x :: as) ∧ mkMul as = some r ∧ simplifies S (.const 1) r = some true ∧
        ∃ q, S .add (.const 1) r = some q ∧ S .mul x q = some e := by
  have hq : asRatio x = none := by
    unfold asRatio
    split
    · exact absurd rfl (hm _)
    · rfl
  simp only [combining, List.mem_cons, List.not_mem_nil, or_false] at hrule
  rcases hrule with rfl | rfl | rfl | rfl | rfl | rfl | rfl | rfl | rfl | rfl | rfl | rfl
  · simp only [addCollect1] at h
    split_ifs at h with e1
    · exact .inl ⟨e1, fire_some.1 h⟩
    · simp at h
  · unfold addCollect2 at h
    split at h
    · exact absurd rfl (hm _)
    · simp at h
  · unfold addCollect3 at h
    split at h
    · next p as =>
      split_ifs at h with e1
      · simp only [Option.bind_eq_bind, Option.bind_eq_some_iff] at h
        obtain ⟨b, hb, h⟩ := h
        cases b
        · simp at h
        · simp only [if_true] at h
          rw [fire_some] at h
          simp only [Option.bind_eq_some_iff] at h
          obtain ⟨q, h1, r, h2, h3⟩ := h
          exact .inr (.inl ⟨p, as, rfl, e1.1, e1.2, hb, q, r, h1, h2, h3⟩)
      · simp at h
    · simp at h
  · unfold addCollect4 at h
    split at h
    · exact absurd rfl (hm _)
    · simp at h
  · unfold addCollect5 at h
    split at h
    · exact absurd rfl (hm _)
    · simp at h
  · unfold addCollect6 at h
    split at h
    · next a as =>
      split_ifs at h with e1
      · subst e1
        simp only [Option.bind_eq_bind, Option.bind_eq_some_iff] at h
        obtain ⟨r, hr, b, hb, h⟩ := h
        cases b
        · simp at h
        · simp only [if_true] at h
          rw [fire_some] at h
          simp only [Option.bind_eq_some_iff] at h
          obtain ⟨q, h1, h3⟩ := h
          exact .inr (.inr ⟨as, r, rfl, hr, hb, q, h1, h3⟩)
      · simp at h
    · simp at h
  · unfold addCollect7 at h
    split at h
    · exact absurd rfl (hm _)
    · simp at h
  all_goals exfalso
  · rcases hc with ⟨h1, h2⟩ | ⟨h1, h2, h3⟩
    · simp [addConst1, h1] at h
    · unfold addConst1 at h
      rw [h1] at h
      cases asConst x <;> simp at h
  · rcases hc with ⟨h1, h2⟩ | ⟨h1, h2, h3⟩
    · simp [addConst2, h1, h2] at h
    · unfold addConst2 at h
      rw [h1, h2] at h
      cases asConst x <;> cases asRecip x <;> simp at h
  · rcases hc with ⟨h1, h2⟩ | ⟨h1, h2, h3⟩
    · simp [addConst3, h2, hq] at h
    · unfold addConst3 at h
      rw [h3, h2, hq] at h
      cases asRecip x <;> simp at h
  · rcases hc with ⟨h1, h2⟩ | ⟨h1, h2, h3⟩
    · simp [addConst4, h2] at h
    · unfold addConst4 at h
      rw [h2] at h
      cases asRecip x <;> simp at h
  · simp [addConst5, hq] at h

/-- The sum of two expressions that share nothing. -/
theorem add_pair {x y z : Expr} (hx : asAdd x = none) (hy : asAdd y = none) (h0 : x ≠ .const 0) (h1 : y ≠ .const 0)
    (hm : ∀ args, x ≠ .fn .mul args) (hne : x ≠ y) (hys : ∀ args, y = .fn .mul args → x ∉ args)
    (hc : (asConst x = none ∧ asRecip x = none) ∨ asConst y = none ∧ asRecip y = none ∧ asRatio y = none)
    (h : simp n .add x y = some z) : z = .fn .add [x, y] ∨ z = .fn .add [y, x] := by
  cases n with
  | zero => simp [simp] at h
  | succ n =>
    rcases add_merge_pair hx hy h0 h1 h with ⟨rule, hrule, he⟩ | h
    swap
    · exact h
    exfalso
    rcases add_collect hm hc hrule he with ⟨e, -⟩ | ⟨p, as, e, -, h', -⟩ | ⟨as, r, e, -⟩
    · exact hne e
    · rcases h' with rfl | h'
      · exact hys _ e (by simp)
      · exact hm _ h'.symm
    · exact hys _ e (by simp)

/-- One and a variable are not collected. -/
theorem simplifies_one_value {t i : Nat} : simplifies (simp n) (.const 1) (.value t i) ≠ some true := by
  intro h
  simp only [simplifies, Option.bind_eq_bind, Option.bind_eq_some_iff] at h
  obtain ⟨s, h1, pq, h2, qp, h3, h⟩ := h
  rcases add_pair rfl rfl (by simp) (by simp) (by simp) (by simp) (by simp) (.inr ⟨rfl, rfl, rfl⟩) h1 with rfl | rfl
  · simp [mkAdd] at h2 h3
    subst h2 h3
    simp at h
  · simp [mkAdd] at h2 h3
    subst h2 h3
    simp at h

/-- A sum is evaluated if its summands are and one of them is not constant. -/
theorem ge_sum {x y z : Expr} (hx : GE False n L U x) (hy : GE False n L U y)
    (hc : isConstant x = false ∨ isConstant y = false) (h : z = .fn .add [x, y] ∨ z = .fn .add [y, x]) :
    GE False n L U z := by
  rcases h with rfl | rfl
  · refine ⟨.add _ (by simp) (by simp [hx.ev, hy.ev]), .fn _ _ (by simp [hx.built, hy.built])
      (fun _ => by simp) (fun h => by cases h) (fun h => by cases h), ?_, fun τ => ?_, fun h => h.elim⟩
    · intro h; rcases hc with hc | hc <;> simp [isConstant, isConstantAll, hc] at h
    · simp [NoIntQuotient, NoIntQuotientAll, hx.noInt, hy.noInt]
  · refine ⟨.add _ (by simp) (by simp [hx.ev, hy.ev]), .fn _ _ (by simp [hx.built, hy.built])
      (fun _ => by simp) (fun h => by cases h) (fun h => by cases h), ?_, fun τ => ?_, fun h => h.elim⟩
    · intro h; rcases hc with hc | hc <;> simp [isConstant, isConstantAll, hc] at h
    · simp [NoIntQuotient, NoIntQuotientAll, hx.noInt, hy.noInt]

/-- The coefficients of a product with `w`. -/
def Summand (L U : Nat) (w z : Expr) : Prop :=
  Leaf L U z ∨ (∃ t a b, w = .fn .ifElse [t, a, b]) ∧ isConstant w = false ∧
    (z = w ∨ ∃ x, Leaf L U x ∧ x ≠ .const 1 ∧ (z = .fn .mul [x, w] ∨ z = .fn .mul [w, x]))

/-- The sum of a choice, or of one, and a coefficient of a product with a choice. -/
theorem add_summand {c w y z : Expr} (hc : c = .const 1 ∨ (∃ t a b, c = .fn .ifElse [t, a, b]) ∧ isConstant c = false)
    (gc : GE False k L U c) (hy : Summand L U w y) (gy : GE False k L U y)
    (h : simp n .add c y = some z) : GE False k L U z := by
  cases n with
  | zero => simp [simp] at h
  | succ n =>
  by_cases hy0 : y = .const 0
  · subst hy0
    have hc0 : c ≠ .const 0 := by rcases hc with rfl | ⟨⟨t, a, b, rfl⟩, -⟩ <;> simp
    change applyRules (addRules (simp n)) c _ = _ at h
    unfold addRules at h
    rw [applyRules_fire (o := some c) (by simp [addZero, hc0, fire])] at h
    cases h
    exact gc
  have hya : asAdd y = none := by
    rcases hy with (⟨v, rfl⟩ | ⟨_, _, -, -, rfl⟩) | ⟨⟨t, a, b, rfl⟩, -, rfl | ⟨x, -, -, rfl | rfl⟩⟩ <;> rfl
  rcases hc with rfl | ⟨⟨t, a, b, rfl⟩, hv⟩
  · by_cases hyc : ∃ v, y = .const v
    · obtain ⟨v, rfl⟩ := hyc
      obtain ⟨q, rfl⟩ := add_const_const h
      exact ge_const q
    have hyv : isConstant y = false := by
      rcases hy with (⟨v, rfl⟩ | ⟨_, _, -, -, rfl⟩) | ⟨-, hw, rfl | ⟨x, -, -, rfl | rfl⟩⟩
      · exact absurd ⟨v, rfl⟩ hyc
      · rfl
      · exact hw
      · simp [isConstant, isConstantAll, hw]
      · simp [isConstant, isConstantAll, hw]
    refine ge_sum gc gy (.inr hyv) (add_pair rfl hya (by simp) hy0 (by simp) (fun e => hyc ⟨1, e.symm⟩) ?_ ?_ h)
    · rintro args rfl
      rcases hy with (⟨v, e⟩ | ⟨_, _, -, -, e⟩) | ⟨⟨t, a, b, rfl⟩, hw, e | ⟨x, -, hx, e | e⟩⟩
      · cases e
      · cases e
      · cases e
      · cases e; simpa using Ne.symm hx
      · cases e; simpa using Ne.symm hx
    · refine .inr ⟨asConst_var hyv, asRecip_var hyv, ?_⟩
      unfold asRatio
      split
      · simp [isConstant, isConstantAll] at hyv
      · rfl
  · have fin : ∀ {x z : Expr} {m : Nat}, IsConst x → simp m .mul x (.fn .ifElse [t, a, b]) = some z ∨
        simp m .mul (.fn .ifElse [t, a, b]) x = some z → GE False k L U z := by
      rintro x z m ⟨v, rfl⟩ h
      have hl : Leaf L U (.const v) := .inl ⟨v, rfl⟩
      refine ge_product hl gc hv rfl (by simp) ?_
      rcases h with h | h
      · exact mul_leaf_left hl hv rfl rfl (by simp [asPower]) (by simp) h
      · exact mul_leaf_right hl hv rfl rfl (by simp [asPower]) (by simp) h
    rcases add_merge_pair rfl hya (by simp) hy0 h with ⟨rule, hrule, he⟩ | h
    swap
    · exact ge_sum gc gy (.inl hv) h
    rcases add_collect (by simp) (.inl ⟨rfl, rfl⟩) hrule he with ⟨e, h'⟩ |
      ⟨p, as, rfl, hne, h', hs, q, r, h1, h2, h3⟩ | ⟨as, r, rfl, h1, hs, q, h2, h3⟩
    · exact fin ⟨2, rfl⟩ (.inl h')
    · rcases h' with rfl | h'
      swap
      · cases h'
      obtain rfl : r = .fn .ifElse [t, a, b] := by simpa [mkMul] using h2.symm
      rcases hy with (⟨v, e⟩ | ⟨_, _, -, -, e⟩) | ⟨⟨t', a', b', rfl⟩, hw, e | ⟨x, hx, -, e | e⟩⟩
      · cases e
      · cases e
      · cases e
      · cases e
        rcases hx with ⟨v, rfl⟩ | ⟨_, _, -, -, rfl⟩
        · obtain ⟨q', rfl⟩ := add_const_const h1
          exact fin ⟨q', rfl⟩ (.inl h3)
        · exact absurd hs simplifies_one_value
      · cases e
        rcases hx with ⟨v, e⟩ | ⟨_, _, -, -, e⟩ <;> cases e
    · rcases hy with (⟨v, e⟩ | ⟨_, _, -, -, e⟩) | ⟨⟨t', a', b', rfl⟩, hw, e | ⟨x, hx, -, e | e⟩⟩
      · cases e
      · cases e
      · cases e
      · cases e
        rcases hx with ⟨v, e⟩ | ⟨_, _, -, -, e⟩ <;> cases e
      · cases e
        obtain rfl : r = x := by simpa [mkMul] using h1.symm
        rcases hx with ⟨v, rfl⟩ | ⟨_, _, -, -, rfl⟩
        · obtain ⟨q', rfl⟩ := add_const_const h2
          exact fin ⟨q', rfl⟩ (.inr h3)
        · exact absurd hs simplifies_one_value

/-! ### Sums of a scalar and a multivector -/

theorem addC_scalar_within {Q : Expr → Prop} {c : Expr} {u e : CSum} (hc : Q c) (hu : Within Q u)
    (hz : ∀ d ∈ u, ∀ j z, simp j .add c d.coef = some z → Q z) (he : addC k [⟨c, .const 0⟩] u = some e) :
    Within Q e := by
  have kc : ∀ c, Known ⟨c, .const 0⟩ := fun c => ⟨0, rfl, by simp [vecs]⟩
  have hfin : ∀ {c u k e}, Q c → Within Q u → (IsZero u ∨ c = .const 0 ∨ ∀ d ∈ u, BeforeC ⟨c, .const 0⟩ d) →
      addC k [⟨c, .const 0⟩] u = some e → Within Q e := by
    intro c u k e hc hu hfront he
    obtain ⟨h1, -, h3⟩ := addC_front_eq (kc c) hu.1 hfront he
    refine ⟨h1, ?_⟩
    rcases h3 with ⟨-, -, rfl⟩ | ⟨-, -, rfl⟩ | ⟨-, -, rfl⟩ | ⟨-, -, rfl⟩
    · simpa using hc
    · exact hu.2
    · simpa using hc
    · simpa using ⟨hc, hu.2⟩
  have hbef : ∀ {c : Expr} {d : Comp}, d.blade ≠ .const 0 → BeforeC ⟨c, .const 0⟩ d := by
    intro c d hd p q hp hq
    obtain rfl : p = 0 := by cases hp; rfl
    have hne : q ≠ 0 := by rintro rfl; exact hd hq
    have hq0 : gradeOf q ≠ 0 := fun h0 => hne (gradeOf_zero h0)
    have : gradeOf (0 : Word) = 0 := by simp [gradeOf, vecs]
    exact .inl (by omega)
  obtain ⟨-, hk, hp, hz0⟩ := canonical_iff.1 hu.1
  rcases u with _ | ⟨b, bs⟩
  · exact absurd rfl hu.1.1
  rw [List.pairwise_cons] at hp
  have hrest : ∀ d ∈ bs, d.blade ≠ .const 0 := by
    intro d hd e0
    obtain ⟨w, ew, -⟩ := hk b (by simp)
    have := hp.1 d hd w 0 ew e0
    have h0 : gradeOf (0 : Word) = 0 := by simp [gradeOf, vecs]
    rcases this with h | ⟨h, h'⟩
    · omega
    · exact absurd h' (by simp)
  by_cases hb : b.blade = .const 0
  swap
  · refine hfin hc hu (.inr (.inr fun d hd => hbef ?_)) he
    rcases List.mem_cons.1 hd with rfl | hd
    · exact hb
    · exact hrest d hd
  by_cases h0 : c = .const 0
  · exact hfin hc hu (.inr (.inl h0)) he
  by_cases h1 : IsZero (b :: bs)
  · exact hfin hc hu (.inl h1) he
  have hb0 : ¬ (b.coef = .const 0 ∧ bs = []) := by
    rintro ⟨g, rfl⟩
    exact h1 ⟨b, rfl, g⟩
  obtain ⟨j, rfl⟩ := addC_pos he
  have hmk : ∀ z, mkComp z (.const 0) = ⟨z, .const 0⟩ := by
    intro w
    have : (Blade.const 0).grades ≠ 0 := by decide
    unfold mkComp
    rw [if_neg this]
    split_ifs <;> rfl
  unfold addC at he
  rw [if_neg (by simp [h0]), if_neg hb0, if_pos hb.symm] at he
  simp only [Option.bind_eq_bind, Option.bind_eq_some_iff, hmk] at he
  obtain ⟨z, hz1, he⟩ := he
  have qz := hz b (by simp) _ _ hz1
  rcases bs with _ | ⟨d, ds⟩
  · simp only [Option.some.injEq] at he
    subst he
    exact ⟨canonical_single (kc z), by simpa using qz⟩
  · simp only at he
    refine hfin qz ⟨?_, fun c hc => hu.2 c (by simp at hc ⊢; tauto)⟩
      (.inr (.inr fun d hd => hbef (hrest d hd))) he
    exact (canonical_tail hu.1 (by simp)).1

end GATL
