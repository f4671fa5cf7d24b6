import Verif.Proofs.UnitType
import Verif.Proofs.Rational

/-!
# The types that lazy programs compile to, as a computable function
-/

namespace GATL

open Expr Spec

variable {τ : Types} {outer : Env} {k P Q R : Nat}

/-- The type of a program of arguments without storage. -/
def Program.typeOf (P Q R k : Nat) (as : List CSum) : Program → Option CSum
  | input i => do lazyOnly (← as[i]?)
  | lit v => some (constSum v)
  | add s t => do lazyOnly (← addC k (← s.typeOf P Q R k as) (← t.typeOf P Q R k as))
  | sub s t => do lazyOnly (← subC k (← s.typeOf P Q R k as) (← t.typeOf P Q R k as))
  | neg t => do lazyOnly (← negC k (← t.typeOf P Q R k as))
  | scale v t => do lazyOnly (← mulC (orthMapping 63 mkRealFactor .gp) k (constSum v) (← t.typeOf P Q R k as))
  | op s t => do lazyOnly (← mulC (extMapping (P + Q + R)) k (← s.typeOf P Q R k as) (← t.typeOf P Q R k as))
  | rp s t => do lazyOnly (← mulC (regMapping (P + Q + R)) k (← s.typeOf P Q R k as) (← t.typeOf P Q R k as))
  | graded g s t => do
    lazyOnly (← mulC (orthMapping (P + Q + R) (mkSignedFactor P Q R) g) k (← s.typeOf P Q R k as) (← t.typeOf P Q R k as))
  | reverse t => do lazyOnly (← gradedMinusC k 0xcccccccccccccccc (← t.typeOf P Q R k as))
  | involute t => do lazyOnly (← gradedMinusC k 0xaaaaaaaaaaaaaaaa (← t.typeOf P Q R k as))
  | conjugate t => do lazyOnly (← gradedMinusC k 0x6666666666666666 (← t.typeOf P Q R k as))

/-- The same for programs with inverses. -/
def Rational.typeOf (P Q R k : Nat) : Rational → List CSum → Option CSum
  | ret t, as => t.typeOf P Q R k as
  | bind t rest, as => do rest.typeOf P Q R k (as ++ [← t.typeOf P Q R k as])
  | inv t rest, as => do rest.typeOf P Q R k (as ++ [← inverseExpr P Q R k (← t.typeOf P Q R k as)])

theorem call1_pure {f : CSum → Option CSum} {o : Option Object} {a e : CSum}
    (h : ∃ M, o = some M ∧ M.expr = a ∧ hasStoredC a = false) (he : (f a).bind lazyOnly = some e) :
    ∃ M, (o.bind fun M => call1 k τ outer f M) = some M ∧ M.expr = e ∧ hasStoredC e = false := by
  obtain ⟨M, rfl, rfl, h1⟩ := h
  simp only [Option.bind_eq_some_iff, lazyOnly_some] at he
  obtain ⟨u, hu, rfl, he⟩ := he
  obtain ⟨fl, h2⟩ := call1_lazy (k := k) (τ := τ) (outer := outer) h1 hu
  exact ⟨_, h2, rfl, he⟩

theorem call2_pure {f : CSum → CSum → Option CSum} {o o' : Option Object} {a b e : CSum}
    (h : ∃ M, o = some M ∧ M.expr = a ∧ hasStoredC a = false)
    (h' : ∃ M, o' = some M ∧ M.expr = b ∧ hasStoredC b = false) (he : (f a b).bind lazyOnly = some e) :
    ∃ M, (o.bind fun M => o'.bind fun M' => call2 k τ outer f M M') = some M ∧ M.expr = e ∧ hasStoredC e = false := by
  obtain ⟨M, rfl, rfl, h1⟩ := h
  obtain ⟨M', rfl, rfl, h1'⟩ := h'
  simp only [Option.bind_eq_some_iff, lazyOnly_some] at he
  obtain ⟨u, hu, rfl, he⟩ := he
  obtain ⟨fl, h2⟩ := call2_lazy (k := k) (τ := τ) (outer := outer) h1 h1' hu
  exact ⟨_, h2, rfl, he⟩

theorem program_pure (Ms : List Object) (t : Program) : ∀ e, t.typeOf P Q R k (Ms.map Object.expr) = some e →
    ∃ M, t.run P Q R k τ outer Ms = some M ∧ M.expr = e ∧ hasStoredC e = false := by
  induction t with
  | input i =>
    intro e h
    simp only [Program.typeOf, Option.bind_eq_bind, Option.bind_eq_some_iff, lazyOnly_some, List.getElem?_map,
      Option.map_eq_some_iff] at h
    obtain ⟨a, ⟨M, hM, rfl⟩, rfl, he⟩ := h
    exact ⟨M, hM, rfl, he⟩
  | lit v =>
    intro e h
    simp only [Program.typeOf, Option.some.injEq] at h
    subst h
    exact ⟨constObject v, rfl, rfl, rfl⟩
  | add s t ihs iht =>
    intro e h
    simp only [Program.typeOf, Option.bind_eq_bind, Option.bind_eq_some_iff] at h
    obtain ⟨x, hx, y, hy, a, ha, h⟩ := h
    exact call2_pure (ihs x hx) (iht y hy) (by rw [ha]; exact h)
  | sub s t ihs iht =>
    intro e h
    simp only [Program.typeOf, Option.bind_eq_bind, Option.bind_eq_some_iff] at h
    obtain ⟨x, hx, y, hy, a, ha, h⟩ := h
    exact call2_pure (ihs x hx) (iht y hy) (by rw [ha]; exact h)
  | op s t ihs iht =>
    intro e h
    simp only [Program.typeOf, Option.bind_eq_bind, Option.bind_eq_some_iff] at h
    obtain ⟨x, hx, y, hy, a, ha, h⟩ := h
    exact call2_pure (ihs x hx) (iht y hy) (by rw [ha]; exact h)
  | rp s t ihs iht =>
    intro e h
    simp only [Program.typeOf, Option.bind_eq_bind, Option.bind_eq_some_iff] at h
    obtain ⟨x, hx, y, hy, a, ha, h⟩ := h
    exact call2_pure (ihs x hx) (iht y hy) (by rw [ha]; exact h)
  | graded g s t ihs iht =>
    intro e h
    simp only [Program.typeOf, Option.bind_eq_bind, Option.bind_eq_some_iff] at h
    obtain ⟨x, hx, y, hy, a, ha, h⟩ := h
    exact call2_pure (ihs x hx) (iht y hy) (by rw [ha]; exact h)
  | neg t iht =>
    intro e h
    simp only [Program.typeOf, Option.bind_eq_bind, Option.bind_eq_some_iff] at h
    obtain ⟨y, hy, a, ha, h⟩ := h
    exact call1_pure (iht y hy) (by rw [ha]; exact h)
  | scale v t iht =>
    intro e h
    simp only [Program.typeOf, Option.bind_eq_bind, Option.bind_eq_some_iff] at h
    obtain ⟨y, hy, a, ha, h⟩ := h
    exact call1_pure (iht y hy) (by rw [ha]; exact h)
  | reverse t iht =>
    intro e h
    simp only [Program.typeOf, Option.bind_eq_bind, Option.bind_eq_some_iff] at h
    obtain ⟨y, hy, a, ha, h⟩ := h
    exact call1_pure (iht y hy) (by rw [ha]; exact h)
  | involute t iht =>
    intro e h
    simp only [Program.typeOf, Option.bind_eq_bind, Option.bind_eq_some_iff] at h
    obtain ⟨y, hy, a, ha, h⟩ := h
    exact call1_pure (iht y hy) (by rw [ha]; exact h)
  | conjugate t iht =>
    intro e h
    simp only [Program.typeOf, Option.bind_eq_bind, Option.bind_eq_some_iff] at h
    obtain ⟨y, hy, a, ha, h⟩ := h
    exact call1_pure (iht y hy) (by rw [ha]; exact h)

theorem rational_pure (t : Rational) : ∀ (Ms : List Object) (e : CSum),
    t.typeOf P Q R k (Ms.map Object.expr) = some e →
    ∃ M, t.run P Q R k τ outer Ms = some M ∧ M.expr = e ∧ hasStoredC e = false := by
  induction t with
  | ret t => exact fun Ms e h => program_pure Ms t e h
  | bind t rest ih =>
    intro Ms e h
    simp only [Rational.typeOf, Option.bind_eq_bind, Option.bind_eq_some_iff] at h
    obtain ⟨x, hx, h⟩ := h
    obtain ⟨M, h1, rfl, h2⟩ := program_pure (τ := τ) (outer := outer) Ms t x hx
    obtain ⟨M', h3⟩ := ih (Ms ++ [M]) e (by simpa using h)
    exact ⟨M', by simpa [Rational.run, h1] using h3.1, h3.2⟩
  | inv t rest ih =>
    intro Ms e h
    simp only [Rational.typeOf, Option.bind_eq_bind, Option.bind_eq_some_iff] at h
    obtain ⟨x, hx, y, hy, h⟩ := h
    obtain ⟨M, h1, rfl, h2⟩ := program_pure (τ := τ) (outer := outer) Ms t x hx
    obtain ⟨⟨fl, h3⟩, h4⟩ := inverse_pure (τ := τ) (outer := outer) h2 hy
    obtain ⟨M', h5⟩ := ih (Ms ++ [⟨fl, y, [], []⟩]) e (by simpa using h)
    exact ⟨M', by simpa [Rational.run, h1, h3] using h5.1, h5.2⟩

theorem lazyType_pure {Ms : List Object} {as : List CSum} {t : Rational} {e : CSum}
    (ha : arguments (baseId Ms) Ms = some as) (h : t.typeOf P Q R k as = some e) :
    t.lazyType P Q R k τ outer Ms = some e := by
  have hlen := arguments_length _ _ _ ha
  have em : ∀ (Ms : List Object) (as : List CSum), Ms.length = as.length →
      (List.zipWith (fun M a => lazyObject M.floats a) Ms as).map Object.expr = as := by
    intro Ms
    induction Ms with
    | nil => intro as h; cases as with
      | nil => rfl
      | cons _ _ => simp at h
    | cons M Ms ih => intro as h; cases as with
      | nil => simp at h
      | cons a as =>
        rw [List.zipWith_cons_cons, List.map_cons, ih as (by simpa using h)]
        rfl
  obtain ⟨M, h1, h2, -⟩ := rational_pure (τ := τ) (outer := outer) t
    (List.zipWith (fun M a => lazyObject M.floats a) Ms as) e (by rw [em Ms as hlen]; exact h)
  simp [Rational.lazyType, ha, h1, h2]

end GATL
