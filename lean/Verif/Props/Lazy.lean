import Verif.Proofs.LazyProgram
import Verif.Proofs.LazyRuntime

/-!
Properties C25 to C28 and C48: lazy evaluation.

An `Object` is a multivector of the library: its type and its storages.  `Reads ρ n s vs ws A` says that
the type `s` with the stored values `vs` and the stored bitsets `ws` stands for the multivector `A`
(every stored entry is taken in turn, and nothing is left over).  `contextEval k τ ρ Ms e` is
`lazy.eval(e)` in the lazy context of the objects `Ms`; the environment `ρ` gives the variables of the
enclosing contexts.  `arguments (baseId Ms) Ms` are the lazy arguments of that context, and
`contextEnv ρ (baseId Ms) (storedInputs Ms)` the values of all variables within it.
-/

namespace GATL.Props

open Expr Spec

variable {τ : Types} {ρ : Env}

/-- The vector `x e1 + y e2`. -/
abbrev vecObj (x y : ℝ) : Object :=
  ⟨true, [⟨.stored, .const 1⟩, ⟨.stored, .const 2⟩], [x, y], []⟩

theorem vec_canonical (a b : Expr) (ha : a ≠ .const 0) (hb : b ≠ .const 0) :
    Canonical [⟨a, .const 1⟩, ⟨b, .const 2⟩] := by
  refine ⟨by simp, ?_, ?_, .inr (by simp [ha, hb])⟩
  · simp only [List.mem_cons, List.not_mem_nil, or_false, forall_eq_or_imp, forall_eq]
    exact ⟨⟨1, rfl, by decide⟩, 2, rfl, by decide⟩
  · simp only [List.pairwise_cons, List.mem_singleton, forall_eq, Blade.const.injEq]
    refine ⟨?_, by simp⟩
    rintro a b rfl rfl
    exact .inr (by decide)

theorem vec_represents (x y : ℝ) : Represents ρ 3 (vecObj x y)
    (Finsupp.single 1 x + Finsupp.single 2 y) := by
  refine ⟨⟨vec_canonical _ _ (by simp) (by simp), by simp⟩, ?_⟩
  have h1 : WellTyped 3 (x, TBlade.const 1) := by simp only [WellTyped]; decide
  have h2 : WellTyped 3 (y, TBlade.const 2) := by simp only [WellTyped]; decide
  have := Reads.cons (.stored x) (.const 1) h1
    (Reads.cons (ρ := ρ) (.stored y) (.const 2) h2 .nil)
  simpa [TBlade.bits] using this

theorem contextObject_some {k : Nat} {Ms : List Object} {e s' : CSum} {code : List Instr}
    {vs : List ℝ} {ws : List Word} (hs : storedInputs Ms ≠ [])
    (hc : compileC k (baseId Ms + 1) (baseId Ms + (storedInputs Ms).length) e = some (s', code))
    (hx : exec (contextTypes τ (baseId Ms) (storedInputs Ms))
      (contextEnv ρ (baseId Ms) (storedInputs Ms)) code = some (vs, ws)) :
    contextObject k τ ρ Ms e =
      some ⟨writtenFloats (contextTypes τ (baseId Ms) (storedInputs Ms)) code, s', vs, ws⟩ := by
  simp [contextObject, contextEval, hs, hc, hx]

/-- **C25** The lazy arguments of a context stand for the multivectors of its inputs. -/
theorem C25_arguments (n : Nat) (hn : n ≤ 63) (Ms : List Object) (as : List CSum)
    (As : List (MV ℝ)) (h : arguments (baseId Ms) Ms = some as)
    (hA : List.Forall₂ (fun M A => Reads ρ n M.expr M.values M.bitsets A) Ms As) :
    List.Forall₂ (SumDenotes (contextEnv ρ (baseId Ms) (storedInputs Ms)) n) as As := by
  have := arguments_reads hn (base := baseId Ms) Ms [] as As h (le_baseId (Ms := Ms)) hA
  rwa [List.nil_append] at this

-- the arguments for two vectors have tags 1 and 2
example (x y z w : ℝ) : arguments (baseId [vecObj x y, vecObj z w]) [vecObj x y, vecObj z w] =
    some [[⟨.value 1 0, .const 1⟩, ⟨.value 1 1, .const 2⟩],
      [⟨.value 2 0, .const 1⟩, ⟨.value 2 1, .const 2⟩]] := by rfl

/-- Evaluation in a context whose coefficients are over its own variables or over variables of
enclosing contexts. -/
theorem eval_reads {n k : Nat} {Ms : List Object} {e e' : CSum} {code : List Instr}
    (hc : Canonical e)
    (he : ∀ c ∈ e, Evaluable (baseId Ms + 1) (baseId Ms + (storedInputs Ms).length) .num c.coef ∨
      Arithmetic (· ≤ baseId Ms) c.coef)
    (hs : storedInputs Ms ≠ [])
    (h : compileC k (baseId Ms + 1) (baseId Ms + (storedInputs Ms).length) e = some (e', code)) :
    (∀ vs ws, contextEval k τ ρ Ms e = some (e', vs, ws) →
      vs.length = countValuesC e' ∧ ws.length = countBitsC e') ∧
    ∀ A, (∀ c ∈ e, NoIntQuotient (contextTypes τ (baseId Ms) (storedInputs Ms)) c.coef) →
      SumDenotes (contextEnv ρ (baseId Ms) (storedInputs Ms)) n e A →
      ∃ vs ws, contextEval k τ ρ Ms e = some (e', vs, ws) ∧ Reads ρ n e' vs ws A := by
  obtain ⟨ho, hr⟩ := compileC_out e e' code hc.1
    (fun c h' => ⟨canonical_known hc c h', fun d hd => (he c h').elim
      (fun he => (compile_out he d hd).coef) fun he => (compile_foreign he d hd).coef⟩)
    (canonical_iff.1 hc).2.2.1 h
  refine ⟨fun vs ws hv => ?_, fun A hq hA => ?_⟩
  · simp only [contextEval, List.isEmpty_iff, hs, if_false, h, Option.bind_eq_bind, Option.bind_some,
      Option.bind_eq_some_iff, Prod.exists, Option.some.injEq, Prod.mk.injEq, true_and] at hv
    obtain ⟨vs', ws', hx, rfl, rfl⟩ := hv
    have := writes_exec hx
    rw [ho.values, Prod.mk.injEq] at this
    exact ⟨this.1.symm, this.2.symm⟩
  · obtain ⟨vs, h1, h2⟩ := hr _ _ ρ n A
      (fun t ht i => ((context_agree ρ _ (storedInputs Ms)) t ht i).imp Eq.symm Eq.symm) hA hq
    exact ⟨vs, [], by simp [contextEval, hs, h, h1], h2⟩

/-- **C25** (part) `lazy.eval(e)`, if it compiles, returns an object that stands for the value of `e`,
for every expression `e` over statically known basis blades whose coefficients contain only variables
of the context.  Missing: quotients of two integers (`NoIntQuotient`, see C44) and the shapes excluded
by `Evaluable`. -/
theorem C25_eval_partial (n k : Nat) (Ms : List Object) (e e' : CSum) (code : List Instr) (A : MV ℝ)
    (hs : storedInputs Ms ≠ []) (hc : Canonical e)
    (he : ∀ c ∈ e, Evaluable (baseId Ms + 1) (baseId Ms + (storedInputs Ms).length) .num c.coef)
    (hq : ∀ c ∈ e, NoIntQuotient (contextTypes τ (baseId Ms) (storedInputs Ms)) c.coef)
    (hA : SumDenotes (contextEnv ρ (baseId Ms) (storedInputs Ms)) n e A)
    (h : compileC k (baseId Ms + 1) (baseId Ms + (storedInputs Ms).length) e = some (e', code)) :
    ∃ vs ws, contextEval k τ ρ Ms e = some (e', vs, ws) ∧ Reads ρ n e' vs ws A :=
  (eval_reads hc (fun c h => .inl (he c h)) hs h).2 A hq hA

-- `2 exp(x) e1 + |y| e2` for the vector `x e1 + y e2`
example (x y : ℝ) :
    let e : CSum := [⟨.fn .mul [.const 2, .fn .exponential [.value 1 0]], .const 1⟩,
      ⟨.fn .absolute [.value 1 1], .const 2⟩]
    Canonical e ∧ (∀ c ∈ e, Evaluable (baseId [vecObj x y] + 1)
      (baseId [vecObj x y] + (storedInputs [vecObj x y]).length) .num c.coef) ∧
    storedInputs [vecObj x y] ≠ [] ∧
    compileC 20 (baseId [vecObj x y] + 1) (baseId [vecObj x y] + (storedInputs [vecObj x y]).length) e =
      some ([⟨.stored, .const 1⟩, ⟨.stored, .const 2⟩], e.map fun c => .value c.coef) := by
  refine ⟨vec_canonical _ _ (by simp) (by simp), ?_, by simp [storedInputs, hasStoredC, hasStored], by rfl⟩
  have h1 : Evaluable 1 1 .num (.value 1 0) := .value _ _ le_rfl le_rfl
  have h2 : Evaluable 1 1 .num (.value 1 1) := .value _ _ le_rfl le_rfl
  simp only [List.mem_cons, List.not_mem_nil, or_false, forall_eq_or_imp, forall_eq]
  exact ⟨.mul _ (by simp) (by simpa using ⟨.const 2, .elementary .exponential _ (by decide) h1⟩),
    .absolute _ h2 rfl⟩

/-- **C25** A program of sums, differences, products and involutions, run on evaluated multivectors in
any space with signature `(P, Q, R)`, one operation after the other: its result stands for the value of
the program. -/
theorem C25_eager (P Q R : Nat) (hn : P + Q + R ≤ 62) (k : Nat) (Ms : List Object)
    (As : List (MV ℝ)) (hA : List.Forall₂ (Represents ρ (P + Q + R)) Ms As) (t : Program)
    (o : Object) (h : t.run P Q R k τ ρ Ms = some o) :
    Represents ρ (P + Q + R) o (t.value P Q R As) :=
  run_holds hn hA t o h

/-- **C25** The same program run on the lazy arguments of a context of the inputs, and evaluated only at
the end: its result stands for the same multivector. -/
theorem C25_lazy (P Q R : Nat) (hn : P + Q + R ≤ 62) (k : Nat) (Ms : List Object)
    (As : List (MV ℝ)) (hA : List.Forall₂ (Represents ρ (P + Q + R)) Ms As) (t : Program)
    (o : Object) (h : t.runLazy P Q R k τ ρ Ms = some o) :
    Represents ρ (P + Q + R) o (t.value P Q R As) :=
  runLazy_holds hn hA t o h

theorem gp_type : mulC (orthMapping 3 (mkSignedFactor 3 0 0) .gp) 40
    [⟨.value 1 0, .const 1⟩, ⟨.value 1 1, .const 2⟩] [⟨.value 2 0, .const 1⟩, ⟨.value 2 1, .const 2⟩] =
    some [⟨.fn .add [.fn .mul [.value 1 0, .value 2 0], .fn .mul [.value 1 1, .value 2 1]], .const 0⟩,
      ⟨.fn .add [.fn .mul [.value 1 0, .value 2 1], .fn .mul [.const (-1), .value 1 1, .value 2 0]],
        .const 3⟩] := by decide +kernel

theorem gp_lazy_type : mulC (orthMapping 3 (mkSignedFactor 3 0 0) .gp) 40
    [⟨.value 1 0, .const 1⟩, ⟨.value 1 1, .const 2⟩] [⟨.value 1 0, .const 1⟩, ⟨.value 1 1, .const 2⟩] =
    some [⟨.fn .add [.fn .power [.value 1 0, .const 2], .fn .power [.value 1 1, .const 2]], .const 0⟩] := by
  decide +kernel

-- `gp(a, a)` for `a = x e1 + y e2`: both ways compile, and the results have different types.  Eagerly:
example (x y : ℝ) : (Program.graded .gp (.input 0) (.input 0)).run 3 0 0 40 τ ρ [vecObj x y] =
    some ⟨true, [⟨.stored, .const 0⟩, ⟨.stored, .const 3⟩], [x * x + y * y, x * y - y * x], []⟩ := by
  have h1 : arguments (baseId [vecObj x y, vecObj x y]) [vecObj x y, vecObj x y] =
    some [[⟨.value 1 0, .const 1⟩, ⟨.value 1 1, .const 2⟩],
      [⟨.value 2 0, .const 1⟩, ⟨.value 2 1, .const 2⟩]] := by rfl
  have h2 := contextObject_some (τ := τ) (ρ := ρ) (k := 40) (Ms := [vecObj x y, vecObj x y])
    (e := (mulC (orthMapping 3 (mkSignedFactor 3 0 0) .gp) 40
      [⟨.value 1 0, .const 1⟩, ⟨.value 1 1, .const 2⟩]
      [⟨.value 2 0, .const 1⟩, ⟨.value 2 1, .const 2⟩]).get (by rw [gp_type]; rfl))
    (s' := [⟨.stored, .const 0⟩, ⟨.stored, .const 3⟩])
    (vs := [x * x + y * y, x * y - y * x]) (ws := [])
    (by simp [storedInputs, hasStoredC, hasStored]) (by simp only [gp_type]; rfl)
    (by simp [exec, eval, evalAdd, evalMul, contextEnv, num2, asNumber, baseId, storedInputs,
      hasStoredC, hasStored, greaterIdC, greaterId, Blade.greaterId])
  simp only [gp_type, Option.get_some] at h2
  have h3 := gp_type
  simp only [Program.run, List.getElem?_cons_zero, Option.bind_eq_bind, Option.bind_some, call2, h1]
  rw [show 3 + 0 + 0 = 3 from rfl, h3, Option.bind_some, h2]
  rfl

-- Lazily:
example (x y : ℝ) : (Program.graded .gp (.input 0) (.input 0)).runLazy 3 0 0 40 τ ρ [vecObj x y] =
    some ⟨true, [⟨.stored, .const 0⟩], [x * x + y * y], []⟩ := by
  let a : CSum := [⟨.value 1 0, .const 1⟩, ⟨.value 1 1, .const 2⟩]
  have h1 : arguments (baseId [vecObj x y]) [vecObj x y] = some [a] := by rfl
  have h2 := contextObject_some (τ := τ) (ρ := ρ) (k := 40) (Ms := [vecObj x y])
    (e := [⟨.fn .add [.fn .power [.value 1 0, .const 2], .fn .power [.value 1 1, .const 2]], .const 0⟩])
    (s' := [⟨.stored, .const 0⟩]) (vs := [x * x + y * y]) (ws := [])
    (by simp [storedInputs, hasStoredC, hasStored]) (by rfl)
    (by simp [exec, eval, evalAdd, evalPower, contextEnv, num2, asNumber, baseId, storedInputs,
      hasStoredC, hasStored, greaterIdC, greaterId, Blade.greaterId])
  have h3 := gp_lazy_type
  have h4 : arguments (baseId [lazyObject true a, lazyObject true a]) [lazyObject true a, lazyObject true a] =
    some [a, a] := by rfl
  simp only [Program.runLazy, h1, Option.bind_eq_bind, Option.bind_some, Program.run, List.zipWith,
    List.getElem?_cons_zero, call2, h4]
  rw [show 3 + 0 + 0 = 3 from rfl, h3, Option.bind_some]
  simp only [contextObject, contextEval]
  rw [show storedInputs [lazyObject true a, lazyObject true a] = [] from rfl]
  exact h2

/-- **C26** (part) The numbers of values and of bitsets written by `lazy.eval(e)` are the sizes of the
storages of its result, for every expression over statically known basis blades, each of whose
coefficients contains only variables of the context or only variables of enclosing contexts.  Missing:
coefficients that mix variables of both, where it is false (`C26_nested_is_false`), and run-time basis
blades, where it is false (`C27_sum_is_false`). -/
theorem C26_storage_partial (k : Nat) (Ms : List Object) (e e' : CSum) (vs : List ℝ)
    (ws : List Word) (hs : storedInputs Ms ≠ []) (hc : Canonical e)
    (he : ∀ c ∈ e, Evaluable (baseId Ms + 1) (baseId Ms + (storedInputs Ms).length) .num c.coef ∨
      Arithmetic (· ≤ baseId Ms) c.coef)
    (h : contextEval k τ ρ Ms e = some (e', vs, ws)) :
    vs.length = countValuesC e' ∧ ws.length = countBitsC e' := by
  have h' := h
  simp only [contextEval, List.isEmpty_iff, hs, if_false, Option.bind_eq_bind, Option.bind_eq_some_iff,
    Prod.exists, Option.some.injEq, Prod.mk.injEq] at h'
  obtain ⟨s', code, hco, vs', ws', hx, rfl, rfl, rfl⟩ := h'
  exact (eval_reads (n := 0) hc he hs hco).1 _ _ h

/-- Storage read completely has the size counted in the type. -/
theorem reads_counts {n : Nat} {s : CSum} {vs : List ℝ} {ws : List Word} {A : MV ℝ}
    (h : Reads ρ n s vs ws A) : vs.length = countValuesC s ∧ ws.length = countBitsC s := by
  induction h with
  | nil => exact ⟨rfl, rfl⟩
  | @cons c b s vs ws vs' ws' x t m hc hb hw hs ih =>
    have h1 : vs.length = c.countValues ∧ c.countBits = 0 := by
      cases hc with
      | stored => exact ⟨rfl, rfl⟩
      | symbolic _ _ h => rw [(counts_zero _ h).1, (counts_zero _ h).2]; exact ⟨rfl, rfl⟩
    have h2 : ws.length = b.countBits ∧ b.countValues = 0 := by
      cases hb with
      | const => exact ⟨rfl, rfl⟩
      | stored => exact ⟨rfl, rfl⟩
      | symbolic _ e _ h =>
        rw [Blade.countBits, Blade.countValues, (counts_zero _ h).1, (counts_zero _ h).2]
        exact ⟨rfl, rfl⟩
    simp only [countValuesC, countBitsC, List.map_cons, List.sum_cons, Comp.countValues, Comp.countBits,
      List.length_append] at ih ⊢
    omega

/-- **C26** For programs over evaluated multivectors, run eagerly or lazily, storage is written exactly. -/
theorem C26_programs (P Q R : Nat) (hn : P + Q + R ≤ 62) (k : Nat) (Ms : List Object)
    (As : List (MV ℝ)) (hA : List.Forall₂ (Represents ρ (P + Q + R)) Ms As) (t : Program)
    (o : Object) (h : t.run P Q R k τ ρ Ms = some o ∨ t.runLazy P Q R k τ ρ Ms = some o) :
    o.values.length = countValuesC o.expr ∧ o.bitsets.length = countBitsC o.expr :=
  h.elim (fun h => reads_counts (C25_eager P Q R hn k Ms As hA t o h).2)
    fun h => reads_counts (C25_lazy P Q R hn k Ms As hA t o h).2

/-- The scalar product of `w (e1 + e2)`, whose coefficient `w` is a variable of an enclosing context,
and an evaluated vector. -/
theorem nested_sp (x y : ℝ) :
    call2 30 τ ρ (mulC (orthMapping 3 (mkSignedFactor 3 0 0) .sp) 30)
      (lazyObject true [⟨.value 1 0, .const 1⟩, ⟨.value 1 0, .const 2⟩]) (vecObj x y) =
    some ⟨true, [⟨.fn .mul [.const 2, .value 1 0, .stored], .const 0⟩], [x, y], []⟩ := by
  have h3 : mulC (orthMapping 3 (mkSignedFactor 3 0 0) .sp) 30
      [⟨.value 1 0,.const 1⟩,⟨.value 1 0,.const 2⟩] [⟨.value 2 0,.const 1⟩,⟨.value 2 1,.const 2⟩] =
      some [⟨.fn .add [.fn .mul [.value 1 0,.value 2 0], .fn .mul [.value 1 0,.value 2 1]], .const 0⟩] := by
    decide +kernel
  let M : Object := lazyObject true [⟨.value 1 0, .const 1⟩, ⟨.value 1 0, .const 2⟩]
  have h1 : arguments (baseId [M, vecObj x y]) [M, vecObj x y] =
    some [[⟨.value 1 0, .const 1⟩, ⟨.value 1 0, .const 2⟩],
      [⟨.value 2 0, .const 1⟩, ⟨.value 2 1, .const 2⟩]] := by rfl
  have h2 := contextObject_some (τ := τ) (ρ := ρ) (k := 30) (Ms := [M, vecObj x y])
    (e := [⟨.fn .add [.fn .mul [.value 1 0,.value 2 0], .fn .mul [.value 1 0,.value 2 1]], .const 0⟩])
    (s' := [⟨.fn .mul [.const 2, .value 1 0, .stored], .const 0⟩]) (vs := [x, y]) (ws := [])
    (by simp [storedInputs, hasStoredC, hasStored]) (by rfl)
    (by simp [exec, eval, contextEnv, asNumber, baseId, storedInputs, M, lazyObject, Blade.hasStored,
      hasStoredC, hasStored, greaterIdC, greaterId, Blade.greaterId])
  rw [call2, h1]
  simp only [Option.bind_eq_bind, Option.bind_some]
  rw [h3, Option.bind_some, h2]
  rfl

/-- **C26** In nested contexts it is false: `sp(w * (e1 + e2), x e1 + y e2)`, where `w` is a variable of
an enclosing context, writes two values into the storage for one. -/
theorem C26_nested_is_false (x y : ℝ) : ∃ o,
    call2 30 τ ρ (mulC (orthMapping 3 (mkSignedFactor 3 0 0) .sp) 30)
      (lazyObject true [⟨.value 1 0, .const 1⟩, ⟨.value 1 0, .const 2⟩]) (vecObj x y) = some o ∧
    o.values.length = 2 ∧ countValuesC o.expr = 1 :=
  ⟨_, nested_sp x y, rfl, rfl⟩

/-- The object `e(i)` with run-time index, `util/basis_vector.hpp:47-51`: `w` has the bit `i - 1`. -/
abbrev basisObj (w : Word) : Object := ⟨false, [⟨.const 1, .dyn 2 .storedBits⟩], [], [w]⟩

-- it stands for the basis vector
theorem basis_reads (n : Nat) (hn : 1 ≤ n) (w : Word) (hw : ∀ i ∈ vecs w, i.val < n) (h1 : gradeOf w = 1) :
    Reads ρ n (basisObj w).expr (basisObj w).values (basisObj w).bitsets (Finsupp.single w 1) := by
  have ht : WellTyped n ((1 : ℝ), TBlade.dyn 2 w) := by
    refine ⟨fun g hg => ?_, hw, fun _ => ⟨1, by decide, h1.symm⟩⟩
    have : g = 1 := by revert g; decide
    subst this; exact hn
  have := Reads.cons (.symbolic (ρ := ρ) (.const 1) 1 rfl (.const 1) (by simp [Denotes, den]))
    (.stored 2 w) ht .nil
  simpa [TBlade.bits] using this

/-- **C27** is false: `e(i) + e(j)` has the type of `2 * e(k)` with a single stored bitset, and two
bitsets are written into it; the object does not stand for any multivector. -/
theorem C27_sum_is_false (n : Nat) (w w' : Word) : ∃ o,
    call2 20 τ ρ (addC 20) (basisObj w) (basisObj w') = some o ∧
      o.expr = [⟨.const 2, .dyn 2 .storedBits⟩] ∧ countBitsC o.expr = 1 ∧ o.bitsets = [w, w'] ∧
      ¬ ∃ A, Reads ρ n o.expr o.values o.bitsets A := by
  have h1 : arguments (baseId [basisObj w, basisObj w']) [basisObj w, basisObj w'] =
    some [[⟨.const 1, .dyn 2 (.bitset 1 0)⟩], [⟨.const 1, .dyn 2 (.bitset 2 0)⟩]] := by rfl
  have h3 : addC 20 [⟨.const 1, .dyn 2 (.bitset 1 0)⟩] [⟨.const 1, .dyn 2 (.bitset 2 0)⟩] =
    some [⟨.const 1, .dyn 2 (.bitset 1 0)⟩, ⟨.const 1, .dyn 2 (.bitset 2 0)⟩] := by decide +kernel
  have h2 := contextObject_some (τ := τ) (ρ := ρ) (k := 20) (Ms := [basisObj w, basisObj w'])
    (e := [⟨.const 1, .dyn 2 (.bitset 1 0)⟩, ⟨.const 1, .dyn 2 (.bitset 2 0)⟩])
    (s' := [⟨.const 2, .dyn 2 .storedBits⟩]) (vs := []) (ws := [w, w'])
    (by simp [storedInputs, hasStoredC, hasStored, Blade.hasStored]) (by rfl)
    (by simp [exec, eval, contextEnv, asBits, baseId, storedInputs, Blade.hasStored,
      hasStoredC, hasStored, greaterIdC, greaterId, Blade.greaterId])
  have h4 : call2 20 τ ρ (addC 20) (basisObj w) (basisObj w') =
      some ⟨false, [⟨.const 2, .dyn 2 .storedBits⟩], [], [w, w']⟩ := by
    rw [call2, h1]
    simp only [Option.bind_eq_bind, Option.bind_some]
    rw [h3, Option.bind_some, h2]
    rfl
  refine ⟨_, h4, rfl, rfl, rfl, ?_⟩
  · rintro ⟨A, h⟩
    have := (reads_counts h).2
    simp [countBitsC, Comp.countBits, countBits, Blade.countBits] at this

/-- **C27** (part) Sums with run-time basis blades are evaluated correctly if neighbours with run-time
basis blades declare different possible grades: coefficients and bitsets over the variables of the context,
e.g. `op(e(i), e(j))` or `x * e1 + e(i)`.  Missing: neighbours with the same possible grades, where it is false
(`C27_sum_is_false`). -/
theorem C27_apart_partial (n k : Nat) (hn : n ≤ 63) (Ms : List Object) (e e' : CSum)
    (code : List Instr) (A : MV ℝ) (hs : storedInputs Ms ≠ [])
    (ho : ∀ c ∈ e, OverContext (baseId Ms + 1) (baseId Ms + (storedInputs Ms).length) c)
    (hc : e.IsChain fun c d => Apart c.blade d.blade)
    (hq : ∀ c ∈ e, NoIntQuotient (contextTypes τ (baseId Ms) (storedInputs Ms)) c.coef ∧
      NoIntQuotient (contextTypes τ (baseId Ms) (storedInputs Ms)) c.blade.bits)
    (hA : SumDenotes (contextEnv ρ (baseId Ms) (storedInputs Ms)) n e A)
    (h : compileC k (baseId Ms + 1) (baseId Ms + (storedInputs Ms).length) e = some (e', code)) :
    ∃ vs ws, contextEval k τ ρ Ms e = some (e', vs, ws) ∧ Reads ρ n e' vs ws A :=
  context_runtime hn hs ho hq hc hA h

/-- The type of `op(e(i), e(j))`: coefficient and bitset. -/
abbrev opCoef : Expr := .fn .ifElse [.fn .equal [.fn .add [.fn .countOneBits [.bitset 1 0],
    .fn .countOneBits [.bitset 2 0]], .fn .countOneBits [.fn .bor [.bitset 1 0, .bitset 2 0]]],
  .fn .reorderingSign [.bitset 1 0, .bitset 2 0], .const 0]
@[inherit_doc opCoef]
abbrev opBits : Expr := .fn .bor [.bitset 1 0, .bitset 2 0]

-- `op(e(i), e(j))` in three dimensions meets the hypotheses
example (w w' : Word) :
    mulC (extMapping 3) 40 [⟨.const 1, .dyn 2 (.bitset 1 0)⟩] [⟨.const 1, .dyn 2 (.bitset 2 0)⟩] =
      some [⟨opCoef, .dyn 4 opBits⟩] ∧
    baseId [basisObj w, basisObj w'] = 0 ∧ (storedInputs [basisObj w, basisObj w']).length = 2 ∧
    OverContext 1 2 ⟨opCoef, .dyn 4 opBits⟩ ∧
    compileC 40 1 2 [⟨opCoef, .dyn 4 opBits⟩] =
      some ([⟨.stored, .dyn 4 .storedBits⟩], [.value opCoef, .bits opBits]) := by
  have b1 : Evaluable 1 2 .bits (.bitset 1 0) := .bitset _ _ (by decide) (by decide)
  have b2 : Evaluable 1 2 .bits (.bitset 2 0) := .bitset _ _ (by decide) (by decide)
  have b3 : Evaluable 1 2 .bits opBits := .bitwise _ _ _ _ (.inr (.inl rfl)) (by decide) b1 b2
  refine ⟨by decide +kernel, by rfl, by rfl, ⟨.ifElse _ _ _ ?_ (.sign _ _ b1 b2) (.const 0), .inl (by rfl),
    .inr ⟨4, opBits, by decide, by decide, rfl, b3⟩⟩, by rfl⟩
  refine .compare .equal .num _ _ (.inl rfl) (by decide) (.add _ (by simp) ?_) (.count _ b3) (.inl rfl)
  simpa using ⟨.count _ b1, .count _ b2⟩

-- so does `x * e1 + e(i)`
example (x : ℝ) (w : Word) :
    let M : Object := ⟨true, [⟨.stored, .const 1⟩], [x], []⟩
    let e : CSum := [⟨.value 1 0, .const 1⟩, ⟨.const 1, .dyn 2 (.bitset 2 0)⟩]
    addC 40 [⟨.value 1 0, .const 1⟩] [⟨.const 1, .dyn 2 (.bitset 2 0)⟩] = some e ∧
    baseId [M, basisObj w] = 0 ∧ (storedInputs [M, basisObj w]).length = 2 ∧ (∀ c ∈ e, OverContext 1 2 c) ∧
    e.IsChain (fun c d => Apart c.blade d.blade) ∧
    compileC 40 1 2 e = some ([⟨.stored, .const 1⟩, ⟨.const 1, .dyn 2 .storedBits⟩],
      [.value (.value 1 0), .bits (.bitset 2 0)]) := by
  refine ⟨by decide +kernel, by rfl, by rfl, ?_, ?_, by rfl⟩
  · intro c hc
    simp only [List.mem_cons, List.not_mem_nil, or_false] at hc
    rcases hc with rfl | rfl
    · exact ⟨.value _ _ (by decide) (by decide), .inl rfl, .inl ⟨_, rfl⟩⟩
    · exact ⟨.const 1, .inr ⟨1, by decide, rfl⟩, .inr ⟨2, _, by decide, by decide, rfl,
        .bitset _ _ (by decide) (by decide)⟩⟩
  · exact List.isChain_cons_cons.2 ⟨⟨by decide +kernel, fun _ _ _ _ h => by cases h⟩, List.isChain_singleton _⟩

/-- **C28** (part) In a nested context: if each coefficient contains only variables of the inner context
(evaluated) or only variables of enclosing contexts (sums, products and integer powers, left symbolic),
then the result stands, in the enclosing context, for the value of the expression.  Missing: coefficients
that mix both, where it is false (`C26_nested_is_false`), and expressions with stored entries of their own,
where it is false (`C28_mixed_is_false`). -/
theorem C28_nested_partial (n k : Nat) (Ms : List Object) (e e' : CSum) (code : List Instr) (A : MV ℝ)
    (hs : storedInputs Ms ≠ []) (hc : Canonical e)
    (he : ∀ c ∈ e, Evaluable (baseId Ms + 1) (baseId Ms + (storedInputs Ms).length) .num c.coef ∨
      Arithmetic (· ≤ baseId Ms) c.coef)
    (hq : ∀ c ∈ e, NoIntQuotient (contextTypes τ (baseId Ms) (storedInputs Ms)) c.coef)
    (hA : SumDenotes (contextEnv ρ (baseId Ms) (storedInputs Ms)) n e A)
    (h : compileC k (baseId Ms + 1) (baseId Ms + (storedInputs Ms).length) e = some (e', code)) :
    ∃ vs ws, contextEval k τ ρ Ms e = some (e', vs, ws) ∧ Reads ρ n e' vs ws A :=
  (eval_reads hc he hs h).2 A hq hA

-- `exp(x) e1 + (w + w z) e2`, where `x` is a variable of the context, `w` and `z` are variables of the
-- enclosing one
example (x y : ℝ) :
    let M : Object := lazyObject true [⟨.value 1 0, .const 1⟩, ⟨.value 1 1, .const 2⟩]
    let o : Expr := .fn .add [.value 1 0, .fn .mul [.value 1 0, .value 1 1]]
    let e : CSum := [⟨.fn .exponential [.value 2 0], .const 1⟩, ⟨o, .const 2⟩]
    baseId [M, vecObj x y] = 1 ∧ (storedInputs [M, vecObj x y]).length = 1 ∧ Canonical e ∧
    (∀ c ∈ e, Evaluable 2 2 .num c.coef ∨ Arithmetic (· ≤ 1) c.coef) ∧
    compileC 20 2 2 e =
      some ([⟨.stored, .const 1⟩, ⟨o, .const 2⟩], [.value (.fn .exponential [.value 2 0])]) := by
  refine ⟨by rfl, by rfl, vec_canonical _ _ (by simp) (by simp), ?_, by rfl⟩
  simp only [List.mem_cons, List.not_mem_nil, or_false, forall_eq_or_imp, forall_eq]
  refine ⟨.inl (.elementary .exponential _ (by decide) (.value _ _ le_rfl le_rfl)), .inr (.add _ ?_)⟩
  simp only [List.mem_cons, List.not_mem_nil, or_false, forall_eq_or_imp, forall_eq]
  refine ⟨.value _ _ le_rfl, .mul _ ?_⟩
  simp only [List.mem_cons, List.not_mem_nil, or_false, forall_eq_or_imp, forall_eq]
  exact ⟨.value _ _ le_rfl, .value _ _ le_rfl⟩

/-- The sum of an evaluated vector `x e1` and the lazy vector `y_ e2` of an enclosing context. -/
theorem mixed_add (x : ℝ) :
    call2 20 τ ρ (addC 20) ⟨true, [⟨.stored, .const 1⟩], [x], []⟩
      (lazyObject true [⟨.value 1 0, .const 2⟩]) =
    some ⟨true, [⟨.stored, .const 1⟩, ⟨.value 1 0, .const 2⟩], [x], []⟩ := by
  let M : Object := ⟨true, [⟨.stored, .const 1⟩], [x], []⟩
  let M' := lazyObject true [⟨.value 1 0, .const 2⟩]
  have h1 : arguments (baseId [M, M']) [M, M'] =
    some [[⟨.value 2 0, .const 1⟩], [⟨.value 1 0, .const 2⟩]] := by rfl
  have h3 : addC 20 [⟨.value 2 0, .const 1⟩] [⟨.value 1 0, .const 2⟩] =
    some [⟨.value 2 0, .const 1⟩, ⟨.value 1 0, .const 2⟩] := by decide +kernel
  have h2 := contextObject_some (τ := τ) (ρ := ρ) (k := 20) (Ms := [M, M'])
    (e := [⟨.value 2 0, .const 1⟩, ⟨.value 1 0, .const 2⟩])
    (s' := [⟨.stored, .const 1⟩, ⟨.value 1 0, .const 2⟩]) (vs := [x]) (ws := [])
    (by simp [storedInputs, hasStoredC, hasStored, M]) (by rfl)
    (by simp [exec, eval, contextEnv, asNumber, baseId, storedInputs, M, M', lazyObject, Blade.hasStored,
      hasStoredC, hasStored, greaterIdC, greaterId, Blade.greaterId])
  rw [call2, h1]
  simp only [Option.bind_eq_bind, Option.bind_some]
  rw [h3, Option.bind_some, h2]
  rfl

/-- **C28** is false: `lazy.eval(x e1 + y_ e2)` with `x` already evaluated and `y_` an argument of the
context.  The result has room for two values, but only `y` is written, in the place of `x`: it stands for
no multivector. -/
theorem C28_mixed_is_false (n : Nat) (x y : ℝ) : ∃ s o,
    call2 20 τ ρ (addC 20) ⟨true, [⟨.stored, .const 1⟩], [x], []⟩
      (lazyObject true [⟨.value 1 0, .const 2⟩]) = some s ∧
    contextObject 20 τ ρ [⟨true, [⟨.stored, .const 2⟩], [y], []⟩] s.expr = some o ∧
    o.expr = [⟨.stored, .const 1⟩, ⟨.stored, .const 2⟩] ∧ o.values = [y] ∧
    ¬ ∃ A, Reads ρ n o.expr o.values o.bitsets A := by
  have h2 := contextObject_some (τ := τ) (ρ := ρ) (k := 20) (Ms := [⟨true, [⟨.stored, .const 2⟩], [y], []⟩])
    (e := [⟨.stored, .const 1⟩, ⟨.value 1 0, .const 2⟩])
    (s' := [⟨.stored, .const 1⟩, ⟨.stored, .const 2⟩]) (vs := [y]) (ws := [])
    (by simp [storedInputs, hasStoredC, hasStored]) (by rfl)
    (by simp [exec, eval, contextEnv, asNumber, baseId, storedInputs, Blade.hasStored,
      hasStoredC, hasStored, greaterIdC, greaterId, Blade.greaterId])
  refine ⟨_, _, mixed_add x, h2, rfl, rfl, ?_⟩
  rintro ⟨A, h⟩
  have := (reads_counts h).1
  simp [countValuesC, Comp.countValues, countValues, Blade.countValues] at this

/-- **C48** is false: in a nested context, a conditional over variables of the enclosing context becomes
its first branch. -/
theorem C48_branch_is_false : ∃ t a b c : Expr,
    compile 30 2 2 (.fn .ifElse [t, a, b]) = some (c, []) ∧
    ∃ ρ : Env, den ρ (.fn .ifElse [t, a, b]) = some (.num 7) ∧ den ρ c = some (.num 5) := by
  refine ⟨.fn .equal [.value 1 0, .const 0], .value 1 1, .value 1 2, .value 1 1, by rfl,
    ⟨fun _ i => if i = 0 then 1 else if i = 1 then 5 else 7, fun _ _ => 0⟩, ?_, ?_⟩
  · simp [den, denList, interp]
  · simp [den]

theorem test_variable {L U : Nat} {k : Kind} {e : Expr} (h : Evaluable L U k e) (hk : k = .test) :
    isConstant e = false := by
  induction h with
  | bitwise _ _ _ _ _ hk' => exact absurd hk hk'
  | compare name k l r hn hk' hl hr hc =>
    rw [isConstant2]; rcases hc with hc | hc <;> simp [hc]
  | logical name l r hn hl hr ihl ihr => rw [isConstant2, ihl rfl]; rfl
  | _ => cases hk

/-- **C48** is false for a reason users can see: let `E` be the basis vector `e(i)` with run-time index as
argument of a context, `s` a number.  `op(E, E)` is zero; but `op(s, op(E, E))`, evaluated in the
course of building the expression, is not: it has the coefficient `s`. -/
theorem C48_product_is_false (w : Word) (hw : gradeOf w = 1) (hr : ρ.bits 1 0 = w) (s : ℝ) : ∃ o,
    call2 40 τ ρ (mulC (extMapping 3) 40) ⟨true, [⟨.stored, .const 0⟩], [s], []⟩
      (lazyObject false ((mulC (extMapping 3) 40 [⟨.const 1, .dyn 2 (.bitset 1 0)⟩]
        [⟨.const 1, .dyn 2 (.bitset 1 0)⟩]).getD [])) = some o ∧
    o.values = [s] ∧
    ∃ f, o.expr.map Comp.coef = [.fn .mul [.stored, f]] ∧ den ρ f = some (.num 1) := by
  let E : Expr := .bitset 1 0
  let t : Expr := .fn .equal [.fn .mul [.const 2, .fn .countOneBits [E]],
    .fn .countOneBits [.fn .bor [E, E]]]
  let a : Expr := .fn .ifElse [t, .fn .reorderingSign [E, E], .const 0]
  let b : Blade := .dyn 4 (.fn .bor [E, E])
  have h1 : mulC (extMapping 3) 40 [⟨.const 1, .dyn 2 (.bitset 1 0)⟩] [⟨.const 1, .dyn 2 (.bitset 1 0)⟩] =
    some [⟨a, b⟩] := by decide +kernel
  rw [h1, Option.getD_some]
  let M : Object := ⟨true, [⟨.stored, .const 0⟩], [s], []⟩
  let M' := lazyObject false [⟨a, b⟩]
  have h2 : arguments (baseId [M, M']) [M, M'] = some [[⟨.value 2 0, .const 0⟩], [⟨a, b⟩]] := by rfl
  have h3 : mulC (extMapping 3) 40 [⟨.value 2 0, .const 0⟩] [⟨a, b⟩] =
    some [⟨.fn .mul [a, .value 2 0], b⟩] := by decide +kernel
  have h5 : compileC 40 2 2 [⟨.fn .mul [a, .value 2 0], b⟩] =
    some ([⟨.fn .mul [.stored, .fn .reorderingSign [E, E]], b⟩], [.value (.value 2 0)]) := by rfl
  have hb : baseId [M, M'] = 1 := by rfl
  have hst : storedInputs [M, M'] = [M] := by rfl
  have h4 := contextObject_some (τ := τ) (ρ := ρ) (k := 40) (Ms := [M, M'])
    (e := [⟨.fn .mul [a, .value 2 0], b⟩])
    (s' := [⟨.fn .mul [.stored, .fn .reorderingSign [E, E]], b⟩]) (vs := [s]) (ws := [])
    (by rw [hst]; simp) (by rw [hb, hst]; exact h5)
    (by rw [hb, hst]; simp [exec, eval, contextEnv, asNumber, M])
  have h6 : call2 40 τ ρ (mulC (extMapping 3) 40) M M' =
      some ⟨true, [⟨.fn .mul [.stored, .fn .reorderingSign [E, E]], b⟩], [s], []⟩ := by
    rw [call2, h2]
    simp only [Option.bind_eq_bind, Option.bind_some]
    rw [h3, Option.bind_some, h4, hb, hst]
    rfl
  refine ⟨_, h6, rfl, .fn .reorderingSign [E, E], rfl, ?_⟩
  rw [den_fn]
  simp only [denList, den, interp, E, hr]
  have : inversions (vecs w) (vecs w) = ∅ := by
    obtain ⟨i, hi⟩ := Finset.card_eq_one.1 hw
    simp [inversions, hi]
  simp [Spec.orderSign, this]

/-- **C48** (part) A conditional over variables of the context is evaluated as a whole: one value is
stored, the value of the conditional.  Missing: variables of enclosing contexts, see `C48_branch_is_false`. -/
theorem C48_evaluated_partial (n L U : Nat) (t a b : Expr) (c : Code) (x : ℝ)
    (he : Evaluable L U .num (.fn .ifElse [t, a, b])) (hb : Built (.fn .ifElse [t, a, b]))
    (hq : NoIntQuotient τ (.fn .ifElse [t, a, b])) (hx : Denotes ρ (.fn .ifElse [t, a, b]) x)
    (h : compile n L U (.fn .ifElse [t, a, b]) = some c) :
    c.1 = .stored ∧ exec τ ρ c.2 = some ([x], []) := by
  have hk : isConstant (.fn .ifElse [t, a, b]) = false := by
    cases he with
    | ifElse _ _ _ ht ha hb =>
      have := test_variable ht rfl
      rw [isConstant, isConstantAll, this]; rfl
  obtain rfl := NumOut.var (compile_out he c h) hk
  exact ⟨rfl, by simp [exec, eval_ok hb hq hx, asNumber]⟩

-- `x ≤ 0 ? x : y`
example : Evaluable 1 1 .num (.fn .ifElse [.fn .lessOrEqual [.value 1 0, .const 0], .value 1 0, .value 1 1]) ∧
    compile 20 1 1 (.fn .ifElse [.fn .lessOrEqual [.value 1 0, .const 0], .value 1 0, .value 1 1]) =
      some (.stored, [.value (.fn .ifElse [.fn .lessOrEqual [.value 1 0, .const 0], .value 1 0,
        .value 1 1])]) := by
  have h1 : Evaluable 1 1 .num (.value 1 0) := .value _ _ le_rfl le_rfl
  have h2 : Evaluable 1 1 .num (.value 1 1) := .value _ _ le_rfl le_rfl
  exact ⟨.ifElse _ _ _ (.compare _ .num _ _ (.inr rfl) (by decide) h1 (.const 0) (.inl rfl)) h1 h2, by rfl⟩

end GATL.Props
