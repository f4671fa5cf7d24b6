import Verif.Proofs.Vector

/-!
# Points of the models
-/

namespace GATL

open Expr Spec Props

variable {n k : Nat} {τ : Types} {ρ : Env}

theorem add_ss (k : Nat) (f g : Bool) (x y : ℝ) :
    call2 (k + 20) τ ρ (addC (k + 20)) (scalarObject f x) (scalarObject g y)
      = some (scalarObject (f || g) (x + y)) := by
  have ha : arguments (baseId [scalarObject f x, scalarObject g y])
      [scalarObject f x, scalarObject g y] =
      some [[⟨.value 1 0, .const 0⟩], [⟨.value 2 0, .const 0⟩]] := by rfl
  have hb : baseId [scalarObject f x, scalarObject g y] = 0 := by rfl
  have hs : storedInputs [scalarObject f x, scalarObject g y]
      = [scalarObject f x, scalarObject g y] := by rfl
  have he : addC (k + 20) [⟨.value 1 0, .const 0⟩] [⟨.value 2 0, .const 0⟩] =
      some [⟨.fn .add [.value 1 0, .value 2 0], .const 0⟩] := by rfl
  have hc : compileC (k + 20) 1 2 [⟨.fn .add [.value 1 0, .value 2 0], .const 0⟩] =
      some ([⟨.stored, .const 0⟩], [.value (.fn .add [.value 1 0, .value 2 0])]) := by rfl
  unfold call2
  rw [ha]
  simp only [Option.bind_eq_bind, Option.bind_some, he]
  rw [contextObject_some (by rw [hs]; simp) (by rw [hb, hs]; exact hc) (by rw [hb, hs]; rfl), hb, hs]
  cases f <;> cases g <;> rfl

/-- `v + x` of a constant and a number, as the library writes it. -/
def addConst (v : Int) : Expr := if v = 0 then .value 1 0 else .fn .add [.const v, .value 1 0]

theorem addConst_eval (f : Bool) (x : ℝ) (v : Int) (Ms : List Object) (hb : baseId Ms = 0)
    (hs : storedInputs Ms = [scalarObject f x]) :
    contextObject (k + 20) τ ρ Ms [⟨addConst v, .const 0⟩] = some (scalarObject f (v + x)) := by
  have hc : compileC (k + 20) 1 1 [⟨addConst v, .const 0⟩] =
      some ([⟨.stored, .const 0⟩], [.value (addConst v)]) := by
    rcases v with (_ | v) | v <;> rfl
  by_cases h0 : v = 0
  · subst h0
    rw [contextObject_some (by rw [hs]; simp) (by rw [hb, hs]; exact hc) (by rw [hb, hs]; rfl), hb, hs]
    rw [Int.cast_zero, zero_add]
    cases f <;> rfl
  · have ha : addConst v = .fn .add [.const v, .value 1 0] := if_neg h0
    rw [ha] at hc ⊢
    rw [contextObject_some (by rw [hs]; simp) (by rw [hb, hs]; exact hc) (by rw [hb, hs]; rfl), hb, hs]
    cases f <;> rfl

theorem add_sc (k : Nat) (f : Bool) (x : ℝ) (v : Int) :
    call2 (k + 20) τ ρ (addC (k + 20)) (scalarObject f x) (constObject v)
      = some (scalarObject f (v + x)) := by
  have ha : arguments (baseId [scalarObject f x, constObject v]) [scalarObject f x, constObject v] =
      some [[⟨.value 1 0, .const 0⟩], [⟨.const v, .const 0⟩]] := by rfl
  have he : addC (k + 20) [⟨.value 1 0, .const 0⟩] [⟨.const v, .const 0⟩] =
      some [⟨addConst v, .const 0⟩] := by rcases v with (_ | v) | v <;> rfl
  unfold call2
  rw [ha]
  simp only [Option.bind_eq_bind, Option.bind_some, he]
  exact addConst_eval f x v _ rfl rfl

theorem add_cs (k : Nat) (f : Bool) (x : ℝ) (v : Int) :
    call2 (k + 20) τ ρ (addC (k + 20)) (constObject v) (scalarObject f x)
      = some (scalarObject f (v + x)) := by
  have ha : arguments (baseId [constObject v, scalarObject f x]) [constObject v, scalarObject f x] =
      some [[⟨.const v, .const 0⟩], [⟨.value 1 0, .const 0⟩]] := by rfl
  have he : addC (k + 20) [⟨.const v, .const 0⟩] [⟨.value 1 0, .const 0⟩] =
      some [⟨addConst v, .const 0⟩] := by rcases v with (_ | v) | v <;> rfl
  unfold call2
  rw [ha]
  simp only [Option.bind_eq_bind, Option.bind_some, he]
  exact addConst_eval f x v _ rfl rfl

/-- The product of scalars in the real space. -/
theorem realMap_scalars (k : Nat) :
    orthMapping 63 mkRealFactor .gp (k + 1) (.const 0) (.const 0) = some [⟨.const 1, .const 0⟩] := by
  have h1 : gradesFit 63 (.const 0) (.const 0) = true := by decide +kernel
  have h2 : gradedGrades 63 .gp (Blade.const 0).grades (Blade.const 0).grades = some 1 := by
    decide +kernel
  have h3 : mkReorderingSign (Blade.const 0).bits (Blade.const 0).bits = .const 1 := by decide +kernel
  have h4 : simp (k + 1) .mul (.const 1) (.const 1) = some (.const 1) := by rfl
  have h5 : mkXor (Blade.const 0).bits (Blade.const 0).bits = .cbits 0 := by decide +kernel
  unfold orthMapping
  simp only [h1, if_true, h2, Option.bind_eq_bind, Option.bind_some, mkValidGrades, h3, mkRealFactor, h4, h5]
  decide +kernel

theorem mkComp_scalar (c : Expr) : mkComp c (.const 0) = ⟨c, .const 0⟩ := by
  have h : (Blade.const 0).grades ≠ 0 := by decide +kernel
  unfold mkComp
  rw [if_neg h]
  congr 1
  split <;> rfl

theorem mul_one_right (k : Nat) (c : Expr) : simp (k + 1) .mul c (.const 1) = some c := by
  have h1 : (.const 1 : Expr) ≠ .const 0 := by simp
  simp only [simp, rulesOf, mulRules, applyRules, mulZero, mulOne, h1, or_false]
  by_cases h0 : c = .const 0
  · simp [h0]
  · simp only [h0, if_false, if_true]
    split_ifs with h <;> simp [h]

/-- The product of two scalars. -/
theorem scalar_mul (k : Nat) (a b : Expr) (ha : a ≠ .const 0) (hb : b ≠ .const 0) :
    mulC (orthMapping 63 mkRealFactor .gp) (k + 2) [⟨a, .const 0⟩] [⟨b, .const 0⟩]
      = (simp (k + 1) .mul a b).map fun c => [⟨c, .const 0⟩] := by
  unfold mulC
  simp only [ha, hb, false_and, if_false, realMap_scalars, Option.bind_eq_bind, Option.bind_some]
  rcases simp (k + 1) .mul a b with _ | c
  · rfl
  · simp only [Option.bind_some, distribute, Option.bind_eq_bind, mul_one_right, mkComp_scalar]
    rfl

theorem sub_sc (k : Nat) (f : Bool) (x : ℝ) :
    call2 (k + 20) τ ρ (subC (k + 20)) (scalarObject f x) (constObject 1)
      = some (scalarObject f (-1 + x)) := by
  have ha : arguments (baseId [scalarObject f x, constObject 1]) [scalarObject f x, constObject 1] =
      some [[⟨.value 1 0, .const 0⟩], [⟨.const 1, .const 0⟩]] := by rfl
  have hn : mulC (orthMapping 63 mkRealFactor .gp) (k + 20) (constSum (-1)) [⟨.const 1, .const 0⟩] =
      some [⟨.const (-1), .const 0⟩] := by
    rw [constSum, scalar_mul (k + 18) _ _ (by simp) (by simp)]; rfl
  have he : subC (k + 20) [⟨.value 1 0, .const 0⟩] [⟨.const 1, .const 0⟩] =
      some [⟨addConst (-1), .const 0⟩] := by
    unfold subC negC
    rw [hn]
    rfl
  unfold call2
  rw [ha]
  simp only [Option.bind_eq_bind, Option.bind_some, he]
  have := addConst_eval (k := k) (τ := τ) (ρ := ρ) f x (-1) [scalarObject f x, constObject 1] rfl rfl
  simpa using this

theorem half_s (k : Nat) (f : Bool) (x : ℝ) :
    divConst (k + 20) τ ρ 2 (scalarObject f x) = some (scalarObject true (x / 2)) := by
  have hp : simp (k + 20) .pow (.const 2) (.const (-1)) = some (.fn .power [.const 2, .const (-1)]) := by
    rfl
  have ha : arguments (baseId [scalarObject f x]) [scalarObject f x] =
      some [[⟨.value 1 0, .const 0⟩]] := by rfl
  have hb : baseId [scalarObject f x] = 0 := by rfl
  have hs : storedInputs [scalarObject f x] = [scalarObject f x] := by rfl
  have he : mulC (orthMapping 63 mkRealFactor .gp) (k + 20) [⟨.value 1 0, .const 0⟩]
      [mkComp (.fn .power [.const 2, .const (-1)]) (.const 0)] =
      some [⟨.fn .mul [.fn .power [.const 2, .const (-1)], .value 1 0], .const 0⟩] := by
    rw [mkComp_scalar, scalar_mul (k + 18) _ _ (by simp) (by simp)]; rfl
  have hc : compileC (k + 20) 1 1 [⟨.fn .mul [.fn .power [.const 2, .const (-1)], .value 1 0], .const 0⟩] =
      some ([⟨.stored, .const 0⟩],
        [.value (.fn .mul [.fn .power [.const 2, .const (-1)], .value 1 0])]) := by rfl
  have hx : eval (contextTypes τ 0 [scalarObject f x]) (contextEnv ρ 0 [scalarObject f x])
      (.fn .mul [.fn .power [.const 2, .const (-1)], .value 1 0]) = some (.num (x / 2)) := by
    have h1 : eval (contextTypes τ 0 [scalarObject f x]) (contextEnv ρ 0 [scalarObject f x])
        (.fn .power [.const 2, .const (-1)]) = some (.num (1 / 2)) := by
      simp [eval, evalPower]
    have h2 : eval (contextTypes τ 0 [scalarObject f x]) (contextEnv ρ 0 [scalarObject f x])
        (.value 1 0) = some (.num x) := by rfl
    have h3 : eval (contextTypes τ 0 [scalarObject f x]) (contextEnv ρ 0 [scalarObject f x])
        (.fn .mul [.fn .power [.const 2, .const (-1)], .value 1 0])
        = num2 (fun x y => some (x * y)) (eval (contextTypes τ 0 [scalarObject f x])
          (contextEnv ρ 0 [scalarObject f x]) (.fn .power [.const 2, .const (-1)]))
          (eval (contextTypes τ 0 [scalarObject f x]) (contextEnv ρ 0 [scalarObject f x])
          (.value 1 0)) := by rfl
    rw [h3, h1, h2]
    simp only [num2, Option.map]
    congr 2
    ring
  unfold divConst
  rw [hp]
  unfold call1
  rw [Option.bind_eq_bind, Option.bind_some, ha]
  simp only [Option.bind_eq_bind, Option.bind_some, he]
  rw [contextObject_some (vs := [x / 2]) (ws := []) (by rw [hs]; simp) (by rw [hb, hs]; exact hc)
    (by rw [hb, hs]; simp [exec, hx, asNumber]), hb, hs]
  rfl

theorem context_const {Ms : List Object} (hs : storedInputs Ms = []) (v : Int) :
    contextObject k τ ρ Ms [⟨.const v, .const 0⟩] = some (constObject v) := by
  simp only [contextObject, contextEval, hs]
  rfl

theorem addC_cc {u v : Int} {e : CSum}
    (he : addC (k + 20) [⟨.const u, .const 0⟩] [⟨.const v, .const 0⟩] = some e) :
    e = [⟨.const (u + v), .const 0⟩] := by
  unfold addC at he
  simp only [Expr.const.injEq, and_true] at he
  split_ifs at he with h1 h2 h2
  · cases he; simp [h1, h2]
  · cases he; simp [h1]
  · cases he; simp [h2]
  · simp only [Option.bind_eq_bind, Option.bind_eq_some_iff, Option.some.injEq, mkComp_scalar] at he
    obtain ⟨c, hc, rfl⟩ := he
    obtain ⟨w, rfl⟩ := (const_closed _).1 u v c hc
    have := V.const_eq ((simp_sound ⟨fun _ _ => 0, fun _ _ => 0⟩ _).add _ _ _ _ _ (V.const u)
      (V.const v) hc)
    have : u + v = w := by exact_mod_cast this
    rw [this]

theorem add_cc {u v : Int} {o : Object}
    (h : call2 (k + 20) τ ρ (addC (k + 20)) (constObject u) (constObject v) = some o) :
    o = constObject (u + v) := by
  have ha : arguments (baseId [constObject u, constObject v]) [constObject u, constObject v] =
      some [[⟨.const u, .const 0⟩], [⟨.const v, .const 0⟩]] := by rfl
  unfold call2 at h
  rw [ha] at h
  simp only [Option.bind_eq_bind, Option.bind_some, Option.bind_eq_some_iff] at h
  obtain ⟨e, he, h⟩ := h
  rw [addC_cc he, context_const (by rfl)] at h
  exact (Option.some.inj h).symm

theorem sub_cc {u : Int} {o : Object}
    (h : call2 (k + 20) τ ρ (subC (k + 20)) (constObject u) (constObject 1) = some o) :
    o = constObject (u + -1) := by
  have ha : arguments (baseId [constObject u, constObject 1]) [constObject u, constObject 1] =
      some [[⟨.const u, .const 0⟩], [⟨.const 1, .const 0⟩]] := by rfl
  have hn : mulC (orthMapping 63 mkRealFactor .gp) (k + 20) (constSum (-1)) [⟨.const 1, .const 0⟩] =
      some [⟨.const (-1), .const 0⟩] := by
    rw [constSum, scalar_mul (k + 18) _ _ (by simp) (by simp)]; rfl
  unfold call2 at h
  rw [ha] at h
  simp only [Option.bind_eq_bind, Option.bind_some, Option.bind_eq_some_iff, subC, negC, hn] at h
  obtain ⟨e, he, h⟩ := h
  rw [addC_cc he, context_const (by rfl)] at h
  exact (Option.some.inj h).symm

theorem mul_cc {u : Int} {o : Object}
    (h : call2 (k + 20) τ ρ (mulC (orthMapping 63 mkRealFactor .gp) (k + 20)) (constObject u) (constObject u)
      = some o) : o = constObject (u * u) := by
  have ha : arguments (baseId [constObject u, constObject u]) [constObject u, constObject u] =
      some [[⟨.const u, .const 0⟩], [⟨.const u, .const 0⟩]] := by rfl
  unfold call2 at h
  rw [ha] at h
  simp only [Option.bind_eq_bind, Option.bind_some, Option.bind_eq_some_iff] at h
  obtain ⟨e, he, h⟩ := h
  have he' : e = [⟨.const (u * u), .const 0⟩] := by
    by_cases h0 : u = 0
    · subst h0
      simp only [mulC, and_self, if_true, Option.some.injEq] at he
      exact he.symm
    · rw [scalar_mul (k + 18) _ _ (by simpa using h0) (by simpa using h0)] at he
      simp only [Option.map_eq_some_iff] at he
      obtain ⟨c, hc, rfl⟩ := he
      obtain ⟨w, rfl⟩ := (const_closed _).2.1 u u c hc
      have := V.const_eq ((simp_sound ρ _).mul _ _ _ _ _ (V.const u) (V.const u) hc)
      have : u * u = w := by exact_mod_cast this
      rw [this]
  rw [he', context_const (by rfl)] at h
  exact (Option.some.inj h).symm

/-- The quotient of a constant by two. -/
theorem half_c {v : Int} {o : Object} (h : divConst (k + 20) τ ρ 2 (constObject v) = some o) :
    ∃ f c, o = ⟨f, [⟨c, .const 0⟩], [], []⟩ ∧ CoefReads ρ c [] (v / 2) := by
  have hp : simp (k + 20) .pow (.const 2) (.const (-1)) = some (.fn .power [.const 2, .const (-1)]) := by
    rfl
  have ha : arguments (baseId [constObject v]) [constObject v] =
      some [[⟨.const v, .const 0⟩]] := by rfl
  have hs : storedInputs [constObject v] = [] := by rfl
  unfold divConst call1 at h
  rw [hp, Option.bind_eq_bind, Option.bind_some, ha] at h
  simp only [Option.bind_eq_bind, Option.bind_some, mkComp_scalar, Option.bind_eq_some_iff] at h
  obtain ⟨e, he, h⟩ := h
  simp only [contextObject, contextEval, hs] at h
  have key : ∃ c, e = [⟨c, .const 0⟩] ∧ CoefReads ρ c [] (v / 2) := by
    by_cases h0 : v = 0
    · subst h0
      simp only [mulC, and_self, if_true, Option.some.injEq] at he
      refine ⟨_, he.symm, ?_⟩
      have : ((0 : Int) : ℝ) / 2 = ((0 : Int) : ℝ) := by simp
      rw [this]
      exact .symbolic _ _ (by rw [hasStored] <;> simp) (V.const (ρ := ρ) 0).1 (V.const 0).2
    · rw [scalar_mul (k + 18) _ _ (by simpa using h0) (by simp)] at he
      simp only [Option.map_eq_some_iff] at he
      obtain ⟨c, hc, rfl⟩ := he
      have h2 : V ρ (.fn .power [.const 2, .const (-1)]) (2⁻¹) := by
        have := (simp_sound ρ (k + 20)).pow _ _ _ _ _ (V.const 2) (V.const (-1))
          (by left; norm_num) (.inl ⟨-1, by norm_num⟩) hp
        refine this.of_eq ?_
        norm_num
      have h3 := (simp_sound ρ _).mul _ _ _ _ _ (V.const v) h2 hc
      have h4 : Foreign (fun _ => False) c := by
        refine (simp_over (foreign_voc _) expClosed_true _).mul _ _ ?_ ?_ _ hc
        · exact over_const (foreign_voc _) v
        · exact over_power (foreign_voc _) (over_const (foreign_voc _) 2)
            (over_const (foreign_voc _) (-1)) trivial
      exact ⟨c, rfl, by rw [div_eq_mul_inv]; exact .symbolic _ _ (foreign_stored _ h4) h3.1 h3.2⟩
  obtain ⟨c, rfl, hc⟩ := key
  exact ⟨_, c, (Option.some.inj h).symm, hc⟩

/-- The sum of the squares of the coordinates. -/
theorem sumOfSquares_point : ∀ (cs : List Coord) (xs : List ℝ) (o : Object),
    List.Forall₂ PointCoord cs xs → sumOfSquares (k + 20) τ ρ cs = some o →
    o = scalarObject true (xs.map (· ^ 2)).sum ∨
      ∃ v : Int, o = constObject v ∧ (v : ℝ) = (xs.map (· ^ 2)).sum ∧ ∀ c ∈ cs, ∃ v, c = constCoord v
  | [], _, o, .nil, h => by
    refine .inr ⟨0, (Option.some.inj h).symm, by simp, by simp⟩
  | c :: cs, x :: xs, o, .cons hc hs, h => by
    simp only [sumOfSquares, Option.bind_eq_bind, Option.bind_eq_some_iff] at h
    obtain ⟨a, ha, b, hb, h⟩ := h
    have ih := sumOfSquares_point cs xs b hs hb
    simp only [List.map_cons, List.sum_cons]
    cases hc with
    | native =>
      have ha' : a = scalarObject true (x * x) := (Option.some.inj ha).symm
      subst ha'
      left
      rcases ih with rfl | ⟨v, rfl, hv, -⟩
      · rw [add_ss] at h
        rw [← Option.some.inj h, sq]; rfl
      · rw [add_sc] at h
        rw [← Option.some.inj h, sq, hv, add_comm]
    | const v =>
      have ha' : a = constObject (v * v) := by
        refine mul_cc (τ := τ) (ρ := ρ) (k := k) ?_
        rw [← ha, constCoord, Coord.squared, Coord.object, mkComp_scalar]
        · rfl
        · simp
      subst ha'
      rcases ih with rfl | ⟨w, rfl, hw, hall⟩
      · left
        rw [add_cs] at h
        rw [← Option.some.inj h, sq]; push_cast; rfl
      · right
        refine ⟨_, add_cc h, ?_, ?_⟩
        · push_cast; rw [hw, sq]
        · simp only [List.mem_cons, forall_eq_or_imp]; exact ⟨⟨v, rfl⟩, hall⟩

/-- For native numbers it exists. -/
theorem sumOfSquares_native : ∀ xs : List ℝ, xs ≠ [] →
    sumOfSquares (k + 20) τ ρ (xs.map (.native true)) = some (scalarObject true (xs.map (· ^ 2)).sum)
  | [], h => absurd rfl h
  | [x], _ => by
    simp only [List.map_cons, List.map_nil, sumOfSquares, Option.bind_eq_bind, Coord.squared,
      Option.bind_some, add_sc]
    simp [sq]
  | x :: y :: xs, _ => by
    rw [List.map_cons, sumOfSquares, sumOfSquares_native (y :: xs) (by simp)]
    simp only [Option.bind_eq_bind, Coord.squared, Option.bind_some, add_ss]
    simp [sq]

theorem pointCoord_reads {c : Coord} {x : ℝ} (h : PointCoord c x) : CoordReads ρ true c x := by
  cases h with
  | native => exact .native x
  | const v => exact .symbolic _ _ (by rw [hasStored] <;> simp) (V.const (ρ := ρ) v).1 (V.const v).2

theorem const_reads (v : Int) : CoordReads ρ true (constCoord v) v := pointCoord_reads (.const v)

theorem forall₂_append {α β : Type*} {R : α → β → Prop} {as as' : List α} {bs bs' : List β}
    (h : List.Forall₂ R as bs) (h' : List.Forall₂ R as' bs') : List.Forall₂ R (as ++ as') (bs ++ bs') := by
  induction h with
  | nil => exact h'
  | cons h _ ih => exact .cons h ih

/-- The coordinates of a point followed by two more numbers. -/
theorem makeVector_tail {D : Nat} (hD : D ≤ 61) {cs : List Coord} {xs : List ℝ} (hl : xs.length = D)
    (h : List.Forall₂ PointCoord cs xs) {a b : Coord} {y z : ℝ} (ha : CoordReads ρ true a y)
    (hb : CoordReads ρ true b z) :
    ∃ M, makeVector (D + 2) (k + 1) (cs ++ [a, b]) = some M ∧ Canonical M.expr ∧
      Reads ρ (D + 2) M.expr M.values M.bitsets (coordSum 0 (xs ++ [y, z])) :=
  makeVector_list (f := true) (by omega) (by omega) (by simp [hl])
    (forall₂_append (h.imp fun _ _ => pointCoord_reads) (.cons ha (.cons hb .nil)))

theorem makeVector_constants {D : Nat} (hD : D ≤ 61) {cs : List Coord} {xs : List ℝ} (hl : xs.length = D)
    (h : List.Forall₂ PointCoord cs xs) (hc : ∀ c ∈ cs, ∃ v, c = constCoord v) {a b : Coord} {y z : ℝ}
    (ha : CoefReads ρ a.coef [] y) (hb : CoefReads ρ b.coef [] z) :
    ∃ M, makeVector (D + 2) (k + 1) (cs ++ [a, b]) = some M ∧ Canonical M.expr ∧
      Reads ρ (D + 2) M.expr M.values M.bitsets (coordSum 0 (xs ++ [y, z])) := by
  refine makeVector_symbolic (by omega) (by omega) (by simp [hl])
    (forall₂_append ?_ (.cons ha (.cons hb .nil)))
  clear hl
  induction h with
  | nil => exact .nil
  | @cons c x cs xs h _ ih =>
    refine .cons ?_ (ih fun c' h' => hc c' (by simp [h']))
    cases h with
    | native => obtain ⟨v, hv⟩ := hc (.native true x) (by simp); cases hv
    | const v => exact .symbolic _ _ (by simp only [constCoord, Coord.coef]; rw [hasStored] <;> simp) (V.const (ρ := ρ) v).1 (V.const v).2

/-- Conformal points whose coordinates compile. -/
theorem conformalPoint_reads {D : Nat} (hD : D ≤ 61) {cs : List Coord} {xs : List ℝ} (hl : xs.length = D)
    (h : List.Forall₂ PointCoord cs xs) {M : Object} (hM : conformalPoint D (k + 20) τ ρ cs = some M) :
    Canonical M.expr ∧ Reads ρ (D + 2) M.expr M.values M.bitsets
        (coordSum 0 (xs ++ [1, (xs.map (· ^ 2)).sum / 2])) := by
  simp only [conformalPoint, Option.bind_eq_bind, Option.bind_eq_some_iff] at hM
  obtain ⟨o, hs, p, hp, q, hq, hM⟩ := hM
  rcases sumOfSquares_point cs xs o h hs with rfl | ⟨v, rfl, hv, hall⟩
  · rw [half_s] at hp
    cases hp
    cases hq
    obtain ⟨M', e, h'⟩ := makeVector_tail (k := k + 19) (ρ := ρ) hD hl h (const_reads 1)
      (.stored ((xs.map (· ^ 2)).sum / 2))
    rw [Int.cast_one] at h'
    cases e.symm.trans hM
    exact h'
  · obtain ⟨f, c, rfl, hc⟩ := half_c hp
    cases hq
    obtain ⟨M', e, h'⟩ := makeVector_constants (k := k + 19) (ρ := ρ) hD hl h hall (a := constCoord 1)
      (b := .scalar false f c []) (y := 1) (z := v / 2)
      (by simpa [constCoord, coordValues] using (coordReads_coef (const_reads (ρ := ρ) 1)).1) hc
    rw [hv] at h'
    cases e.symm.trans hM
    exact h'

/-- With native coordinates they compile. -/
theorem conformalPoint_native {D : Nat} (hD : D ≤ 61) {xs : List ℝ} (hl : xs.length = D) (h0 : D ≠ 0) :
    ∃ M, conformalPoint D (k + 20) τ ρ (xs.map (.native true)) = some M := by
  have hx : xs ≠ [] := by rintro rfl; exact h0 hl.symm
  simp only [conformalPoint, sumOfSquares_native xs hx, Option.bind_eq_bind, Option.bind_some, half_s]
  obtain ⟨M, hM, -⟩ := makeVector_tail (k := k + 19) (ρ := ρ) hD hl
    (List.forall₂_map_left_iff.mpr (List.forall₂_same.mpr fun x _ => PointCoord.native x)) (const_reads 1)
    (.stored ((xs.map (· ^ 2)).sum / 2))
  exact ⟨M, hM⟩

/-- Points of the Minkowski model whose coordinates compile. -/
theorem minkowskiPoint_reads {D : Nat} (hD : D ≤ 61) {cs : List Coord} {xs : List ℝ} (hl : xs.length = D)
    (h : List.Forall₂ PointCoord cs xs) {M : Object} (hM : minkowskiPoint D (k + 20) τ ρ cs = some M) :
    Canonical M.expr ∧ Reads ρ (D + 2) M.expr M.values M.bitsets
        (coordSum 0 (xs ++ [((xs.map (· ^ 2)).sum - 1) / 2, ((xs.map (· ^ 2)).sum + 1) / 2])) := by
  simp only [minkowskiPoint, Option.bind_eq_bind, Option.bind_eq_some_iff] at hM
  obtain ⟨o, hs, o1, h1, p, hp, o2, h2, m, hm, q, hq, r, hr, hM⟩ := hM
  rcases sumOfSquares_point cs xs o h hs with rfl | ⟨v, rfl, hv, hall⟩
  · rw [sub_sc] at h1
    cases h1
    rw [half_s] at hp
    rw [add_sc] at h2
    cases h2
    rw [half_s] at hm
    cases hp
    cases hq
    cases hm
    cases hr
    obtain ⟨M', e, h'⟩ := makeVector_tail (k := k + 19) (ρ := ρ) hD hl h
      (.stored ((-1 + (xs.map (· ^ 2)).sum) / 2)) (.stored (((1 : Int) + (xs.map (· ^ 2)).sum) / 2))
    rw [Int.cast_one, neg_add_eq_sub, add_comm 1] at h'
    rw [neg_add_eq_sub, Int.cast_one, add_comm 1] at e
    rw [neg_add_eq_sub, Int.cast_one, add_comm 1] at hM
    cases e.symm.trans hM
    exact h'
  · have := sub_cc h1
    subst this
    have := add_cc h2
    subst this
    obtain ⟨f, c, rfl, hc⟩ := half_c hp
    obtain ⟨f', c', rfl, hc'⟩ := half_c hm
    cases hq
    cases hr
    obtain ⟨M', e, h'⟩ := makeVector_constants (k := k + 19) (ρ := ρ) hD hl h hall
      (a := .scalar false f c []) (b := .scalar false f' c' []) hc hc'
    push_cast at h'
    rw [hv, ← sub_eq_add_neg] at h'
    cases e.symm.trans hM
    exact h'

theorem minkowskiPoint_native {D : Nat} (hD : D ≤ 61) {xs : List ℝ} (hl : xs.length = D) (h0 : D ≠ 0) :
    ∃ M, minkowskiPoint D (k + 20) τ ρ (xs.map (.native true)) = some M := by
  have hx : xs ≠ [] := by rintro rfl; exact h0 hl.symm
  simp only [minkowskiPoint, sumOfSquares_native xs hx, Option.bind_eq_bind, Option.bind_some, half_s,
    sub_sc, add_sc]
  obtain ⟨M, hM, -⟩ := makeVector_tail (k := k + 19) (ρ := ρ) hD hl
    (List.forall₂_map_left_iff.mpr (List.forall₂_same.mpr fun x _ => PointCoord.native x))
    (.stored ((-1 + (xs.map (· ^ 2)).sum) / 2)) (.stored (((1 : Int) + (xs.map (· ^ 2)).sum) / 2))
  exact ⟨M, hM⟩

/-! ### The coordinates -/

theorem sum_squares {D : Nat} (x : Fin D → ℝ) : ((List.ofFn x).map (· ^ 2)).sum = ∑ i, x i ^ 2 := by
  rw [List.map_ofFn, List.sum_ofFn]; rfl

theorem ofFn_snoc2 {D : Nat} (x : Fin D → ℝ) (y z : ℝ) :
    List.ofFn (Fin.snoc (Fin.snoc x y : Fin (D + 1) → ℝ) z : Fin (D + 2) → ℝ) = List.ofFn x ++ [y, z] := by
  rw [List.ofFn_succ', List.ofFn_succ']
  simp

theorem coordSum_conformal {D : Nat} (x : Fin D → ℝ) :
    coordSum 0 (List.ofFn x ++ [1, ((List.ofFn x).map (· ^ 2)).sum / 2]) = vectorOf (conformalCoords x) := by
  rw [sum_squares, ← ofFn_snoc2, coordSum_eq]; rfl

theorem coordSum_minkowski {D : Nat} (x : Fin D → ℝ) :
    coordSum 0 (List.ofFn x ++ [(((List.ofFn x).map (· ^ 2)).sum - 1) / 2,
      (((List.ofFn x).map (· ^ 2)).sum + 1) / 2]) = vectorOf (minkowskiCoords x) := by
  rw [sum_squares, ← ofFn_snoc2, coordSum_eq]; rfl

theorem bit_inj {i j : Fin 64} (h : bit i = bit j) : i = j := by
  have h1 : (bit i).getLsbD i = (bit j).getLsbD i := by rw [h]
  rw [getLsbD_bit i i i.2, getLsbD_bit j i j.2, decide_eq_true rfl] at h1
  exact Fin.ext (of_decide_eq_true h1.symm)

theorem sp_basis {K : Type*} [CommRing K] (q : Fin 64 → K) (i j : Fin 64) :
    orthProd (diagFactor q) .sp (e K i) (e K j) = if i = j then scalar (q i) else 0 := by
  have : orthProd (diagFactor q) .sp (e K i) (e K j)
      = Finsupp.single 0 (1 * 1 * if bit i = bit j then sg K (par (bit i) (bit i)) * diagFactor q (bit i)
        else 0) := sp_single _ _ _ _ _
  rw [this]
  by_cases h : i = j
  · subst h
    have hp : par (bit i) (bit i) = 0 :=
      par_bit_low fun j hj => by
        rw [getLsbD_bit i j (by omega)]
        exact decide_eq_false (by omega)
    rw [if_pos rfl, if_pos rfl, hp, sg_zero, diagFactor_bit, one_mul, one_mul, one_mul]; rfl
  · rw [if_neg h, if_neg (fun h' => h (bit_inj h')), mul_zero, Finsupp.single_zero]

/-- The scalar product of vectors of an orthogonal space. -/
theorem sp_vectors {K : Type*} [CommRing K] (q : Fin 64 → K) {n : Nat} (hn : n ≤ 64) (v w : Fin n → K) :
    orthProd (diagFactor q) .sp (vectorOf v) (vectorOf w)
      = scalar (∑ i : Fin n, q ⟨i, by omega⟩ * (v i * w i)) := by
  have h1 : ∀ i j : Fin n, orthProd (diagFactor q) .sp (v i • e K i) (w j • e K j)
      = if i = j then scalar (q ⟨i, by omega⟩ * (v i * w i)) else 0 := by
    intro i j
    have := sp_basis q ⟨i, by omega⟩ ⟨j, by omega⟩
    rw [prod_smul_left, prod_smul_right, this]
    by_cases h : i = j
    · subst h
      rw [if_pos rfl, if_pos rfl, scalar, scalar, Finsupp.smul_single, Finsupp.smul_single]
      congr 1; simp only [smul_eq_mul]; ring
    · rw [if_neg h, if_neg (fun h' => h (Fin.ext (by simpa using h'))), smul_zero, smul_zero]
  have h2 : ∀ (i : Fin n) (s : Finset (Fin n)), orthProd (diagFactor q) .sp (v i • e K i) (∑ j ∈ s, w j • e K j)
      = ∑ j ∈ s, if i = j then scalar (q ⟨i, by omega⟩ * (v i * w i)) else 0 := by
    intro i s
    induction s using Finset.induction_on with
    | empty => simp [prod_zero_right]
    | insert j s hj ih => rw [Finset.sum_insert hj, Finset.sum_insert hj, prod_add_right, ih, h1]
  have h3 : ∀ s : Finset (Fin n), orthProd (diagFactor q) .sp (∑ i ∈ s, v i • e K i) (vectorOf w)
      = ∑ i ∈ s, scalar (q ⟨i, by omega⟩ * (v i * w i)) := by
    intro s
    induction s using Finset.induction_on with
    | empty => simp [prod_zero_left]
    | insert j s hj ih =>
      rw [Finset.sum_insert hj, Finset.sum_insert hj, prod_add_left, ih]
      congr 1
      refine (h2 j Finset.univ).trans ?_
      simp
  refine (h3 Finset.univ).trans ?_
  unfold scalar
  rw [Finsupp.single_finsetSum]

end GATL
