import Verif.Proofs.Metric
import Verif.Proofs.RationalType

/-!
# The types that lazy programs compile to in any metric space, as a computable function
-/

namespace GATL

open Expr Spec

variable {τ : Types} {outer : Env} {k : Nat} {S : SpaceType}

/-- `sp(a, reverse(a))`. -/
def normExprIn (S : SpaceType) (k : Nat) (a : CSum) : Option CSum := do
  lazyOnly (← mulC (S.mapping .sp) k a (← reverseExpr k a))
/-- `inv`. -/
def inverseExprIn (S : SpaceType) (k : Nat) (a : CSum) : Option CSum := do
  let i ← powExpr k (← normExprIn S k a) (constSum (-1))
  lazyOnly (← mulC (orthMapping 63 mkRealFactor .gp) k (← reverseExpr k a) i)

/-- The type of a program of arguments without storage. -/
def Program.typeOfIn (S : SpaceType) (k : Nat) (as : List CSum) : Program → Option CSum
  | input i => do lazyOnly (← as[i]?)
  | lit v => some (constSum v)
  | add s t => do lazyOnly (← addC k (← s.typeOfIn S k as) (← t.typeOfIn S k as))
  | sub s t => do lazyOnly (← subC k (← s.typeOfIn S k as) (← t.typeOfIn S k as))
  | neg t => do lazyOnly (← negC k (← t.typeOfIn S k as))
  | scale v t => do lazyOnly (← mulC (orthMapping 63 mkRealFactor .gp) k (constSum v) (← t.typeOfIn S k as))
  | op s t => do lazyOnly (← mulC (extMapping S.dims) k (← s.typeOfIn S k as) (← t.typeOfIn S k as))
  | rp s t => do lazyOnly (← mulC (regMapping S.dims) k (← s.typeOfIn S k as) (← t.typeOfIn S k as))
  | graded g s t => do
    lazyOnly (← mulC (S.mapping g) k (← s.typeOfIn S k as) (← t.typeOfIn S k as))
  | reverse t => do lazyOnly (← gradedMinusC k 0xcccccccccccccccc (← t.typeOfIn S k as))
  | involute t => do lazyOnly (← gradedMinusC k 0xaaaaaaaaaaaaaaaa (← t.typeOfIn S k as))
  | conjugate t => do lazyOnly (← gradedMinusC k 0x6666666666666666 (← t.typeOfIn S k as))

/-- The same for programs with inverses. -/
def Rational.typeOfIn (S : SpaceType) (k : Nat) : Rational → List CSum → Option CSum
  | ret t, as => t.typeOfIn S k as
  | bind t rest, as => do rest.typeOfIn S k (as ++ [← t.typeOfIn S k as])
  | inv t rest, as => do rest.typeOfIn S k (as ++ [← inverseExprIn S k (← t.typeOfIn S k as)])

section
variable {X : Object} (hX : hasStoredC X.expr = false)
include hX

theorem normIn_pure {e : CSum} (h : normExprIn S k X.expr = some e) :
    (∃ r fl, reverseObject k τ outer X = some r ∧
      call2 k τ outer (mulC (S.mapping .sp) k) X r = some ⟨fl, e, [], []⟩) ∧ hasStoredC e = false := by
  simp only [normExprIn, Option.bind_eq_bind, Option.bind_eq_some_iff, lazyOnly_some] at h
  obtain ⟨r, hr, u, hu, rfl, he⟩ := h
  obtain ⟨⟨fl, hf⟩, hs⟩ := reverse_pure (τ := τ) (outer := outer) hX hr
  obtain ⟨fl', hf'⟩ := call2_lazy (k := k) (τ := τ) (outer := outer) hX (Y := ⟨fl, r, [], []⟩) hs hu
  exact ⟨⟨_, fl', hf, hf'⟩, he⟩

theorem inverseIn_pure {e : CSum} (h : inverseExprIn S k X.expr = some e) :
    (∃ fl, inverseIn S k τ outer X = some ⟨fl, e, [], []⟩) ∧ hasStoredC e = false := by
  simp only [inverseExprIn, Option.bind_eq_bind, Option.bind_eq_some_iff, lazyOnly_some] at h
  obtain ⟨s, hs, i, hi, r, hr, u, hu, rfl, he⟩ := h
  refine ⟨?_, he⟩
  have hl : ∀ Y ∈ [X], hasStoredC Y.expr = false := by simpa using hX
  have hX' : hasStoredC (lazyObject X.floats X.expr).expr = false := hX
  obtain ⟨⟨rv, fl1, e1, e2⟩, hs'⟩ := normIn_pure (S := S) (τ := τ) (outer := outer)
    (X := lazyObject X.floats X.expr) hX' hs
  obtain ⟨⟨fl2, e3⟩, hi'⟩ := pow_pure (τ := τ) (outer := outer) (X := ⟨fl1, s, [], []⟩) hs' (Y := constObject (-1))
    rfl hi
  obtain ⟨⟨fl3, e4⟩, hr'⟩ := reverse_pure (τ := τ) (outer := outer) (X := lazyObject X.floats X.expr) hX' hr
  obtain ⟨fl4, e5⟩ := call2_lazy (k := k) (τ := τ) (outer := outer) (X := ⟨fl3, r, [], []⟩) (Y := ⟨fl2, i, [], []⟩)
    hr' hi' hu
  have en : ∃ fl, normSqrIn S k τ outer (lazyObject X.floats X.expr) = some ⟨fl, s, [], []⟩ := by
    have hl' : ∀ Y ∈ [lazyObject X.floats X.expr], hasStoredC Y.expr = false := by simpa using hX'
    unfold normSqrIn Program.runLazyIn
    rw [arguments_lazy _ hl']
    simp only [List.map_cons, List.map_nil, Option.bind_eq_bind, Option.bind_some, List.zipWith_cons_cons,
      List.zipWith_nil_right, Program.runIn, List.getElem?_cons_zero]
    have e1' : call1 k τ outer (gradedMinusC k 0xcccccccccccccccc)
      (lazyObject (lazyObject X.floats X.expr).floats (lazyObject X.floats X.expr).expr) = some rv := e1
    have e2' : call2 k τ outer (mulC (S.mapping .sp) k)
      (lazyObject (lazyObject X.floats X.expr).floats (lazyObject X.floats X.expr).expr) rv
        = some ⟨fl1, s, [], []⟩ := e2
    rw [e1', Option.bind_some, e2', Option.bind_some]
    simp only [contextObject, contextEval_lazy hl', Option.bind_eq_bind, Option.bind_some]
    exact ⟨_, rfl⟩
  obtain ⟨fl5, en⟩ := en
  obtain ⟨⟨fl6, e6⟩, -⟩ := pow_pure (τ := τ) (outer := outer) (X := ⟨fl5, s, [], []⟩) hs' (Y := constObject (-1))
    rfl hi
  obtain ⟨fl7, e7⟩ := call2_lazy (k := k) (τ := τ) (outer := outer) (X := ⟨fl3, r, [], []⟩) (Y := ⟨fl6, i, [], []⟩)
    hr' hi' hu
  unfold inverseIn
  rw [arguments_lazy _ hl]
  simp only [List.map_cons, List.map_nil, Option.bind_eq_bind, Option.bind_some, en, e6, e4, e7, contextObject,
    contextEval_lazy hl]
  exact ⟨_, rfl⟩

end

theorem programIn_pure (Ms : List Object) (t : Program) : ∀ e, t.typeOfIn S k (Ms.map Object.expr) = some e →
    ∃ M, t.runIn S k τ outer Ms = some M ∧ M.expr = e ∧ hasStoredC e = false := by
  induction t with
  | input i =>
    intro e h
    simp only [Program.typeOfIn, Option.bind_eq_bind, Option.bind_eq_some_iff, lazyOnly_some, List.getElem?_map,
      Option.map_eq_some_iff] at h
    obtain ⟨a, ⟨M, hM, rfl⟩, rfl, he⟩ := h
    exact ⟨M, hM, rfl, he⟩
  | lit v =>
    intro e h
    simp only [Program.typeOfIn, Option.some.injEq] at h
    subst h
    exact ⟨constObject v, rfl, rfl, rfl⟩
  | add s t ihs iht =>
    intro e h
    simp only [Program.typeOfIn, Option.bind_eq_bind, Option.bind_eq_some_iff] at h
    obtain ⟨x, hx, y, hy, a, ha, h⟩ := h
    exact call2_pure (ihs x hx) (iht y hy) (by rw [ha]; exact h)
  | sub s t ihs iht =>
    intro e h
    simp only [Program.typeOfIn, Option.bind_eq_bind, Option.bind_eq_some_iff] at h
    obtain ⟨x, hx, y, hy, a, ha, h⟩ := h
    exact call2_pure (ihs x hx) (iht y hy) (by rw [ha]; exact h)
  | op s t ihs iht =>
    intro e h
    simp only [Program.typeOfIn, Option.bind_eq_bind, Option.bind_eq_some_iff] at h
    obtain ⟨x, hx, y, hy, a, ha, h⟩ := h
    exact call2_pure (ihs x hx) (iht y hy) (by rw [ha]; exact h)
  | rp s t ihs iht =>
    intro e h
    simp only [Program.typeOfIn, Option.bind_eq_bind, Option.bind_eq_some_iff] at h
    obtain ⟨x, hx, y, hy, a, ha, h⟩ := h
    exact call2_pure (ihs x hx) (iht y hy) (by rw [ha]; exact h)
  | graded g s t ihs iht =>
    intro e h
    simp only [Program.typeOfIn, Option.bind_eq_bind, Option.bind_eq_some_iff] at h
    obtain ⟨x, hx, y, hy, a, ha, h⟩ := h
    exact call2_pure (ihs x hx) (iht y hy) (by rw [ha]; exact h)
  | neg t iht =>
    intro e h
    simp only [Program.typeOfIn, Option.bind_eq_bind, Option.bind_eq_some_iff] at h
    obtain ⟨y, hy, a, ha, h⟩ := h
    exact call1_pure (iht y hy) (by rw [ha]; exact h)
  | scale v t iht =>
    intro e h
    simp only [Program.typeOfIn, Option.bind_eq_bind, Option.bind_eq_some_iff] at h
    obtain ⟨y, hy, a, ha, h⟩ := h
    exact call1_pure (iht y hy) (by rw [ha]; exact h)
  | reverse t iht =>
    intro e h
    simp only [Program.typeOfIn, Option.bind_eq_bind, Option.bind_eq_some_iff] at h
    obtain ⟨y, hy, a, ha, h⟩ := h
    exact call1_pure (iht y hy) (by rw [ha]; exact h)
  | involute t iht =>
    intro e h
    simp only [Program.typeOfIn, Option.bind_eq_bind, Option.bind_eq_some_iff] at h
    obtain ⟨y, hy, a, ha, h⟩ := h
    exact call1_pure (iht y hy) (by rw [ha]; exact h)
  | conjugate t iht =>
    intro e h
    simp only [Program.typeOfIn, Option.bind_eq_bind, Option.bind_eq_some_iff] at h
    obtain ⟨y, hy, a, ha, h⟩ := h
    exact call1_pure (iht y hy) (by rw [ha]; exact h)

theorem rationalIn_pure (t : Rational) : ∀ (Ms : List Object) (e : CSum),
    t.typeOfIn S k (Ms.map Object.expr) = some e →
    ∃ M, t.runIn S k τ outer Ms = some M ∧ M.expr = e ∧ hasStoredC e = false := by
  induction t with
  | ret t => exact fun Ms e h => programIn_pure Ms t e h
  | bind t rest ih =>
    intro Ms e h
    simp only [Rational.typeOfIn, Option.bind_eq_bind, Option.bind_eq_some_iff] at h
    obtain ⟨x, hx, h⟩ := h
    obtain ⟨M, h1, rfl, h2⟩ := programIn_pure (τ := τ) (outer := outer) Ms t x hx
    obtain ⟨M', h3⟩ := ih (Ms ++ [M]) e (by simpa using h)
    exact ⟨M', by simpa [Rational.runIn, h1] using h3.1, h3.2⟩
  | inv t rest ih =>
    intro Ms e h
    simp only [Rational.typeOfIn, Option.bind_eq_bind, Option.bind_eq_some_iff] at h
    obtain ⟨x, hx, y, hy, h⟩ := h
    obtain ⟨M, h1, rfl, h2⟩ := programIn_pure (τ := τ) (outer := outer) Ms t x hx
    obtain ⟨⟨fl, h3⟩, h4⟩ := inverseIn_pure (τ := τ) (outer := outer) h2 hy
    obtain ⟨M', h5⟩ := ih (Ms ++ [⟨fl, y, [], []⟩]) e (by simpa using h)
    exact ⟨M', by simpa [Rational.runIn, h1, h3] using h5.1, h5.2⟩

theorem lazyTypeIn_pure {Ms : List Object} {as : List CSum} {t : Rational} {e : CSum}
    (ha : arguments (baseId Ms) Ms = some as) (h : t.typeOfIn S k as = some e) :
    t.lazyTypeIn S k τ outer Ms = some e := by
  have hlen := arguments_length _ _ _ ha
  have em : ∀ (Ms : List Object) (as : List CSum), Ms.length = as.length →
      (List.zipWith (fun M a => lazyObject M.floats a) Ms as).map Object.expr = as := by
    intro Ms
    induction Ms with
    | nil => intro as h; cases as with
      | nil => rfl
      | cons _ _ => simp at h
    | cons M Ms ih => intro as h; cases as with
      | nil => simp at h
      | cons a as =>
        rw [List.zipWith_cons_cons, List.map_cons, ih as (by simpa using h)]
        rfl
  obtain ⟨M, h1, h2, -⟩ := rationalIn_pure (τ := τ) (outer := outer) t
    (List.zipWith (fun M a => lazyObject M.floats a) Ms as) e (by rw [em Ms as hlen]; exact h)
  simp [Rational.lazyTypeIn, ha, h1, h2]

end GATL
