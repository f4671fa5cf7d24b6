import Verif.Proofs.Depth
import Verif.Model.Metric

/-!
# Programs keep their results at greater depths
-/

namespace GATL

open Expr Spec

variable {j k : Nat}

theorem OLe.pair {α β γ : Type} {o o' : Option (α × β)} {f f' : α → β → Option γ} (h : OLe o o')
    (hf : ∀ a b, OLe (f a b) (f' a b)) :
    OLe (o.bind fun x => match x with | (a, b) => f a b) (o'.bind fun x => match x with | (a, b) => f' a b) :=
  OLe.bind h fun x => hf x.1 x.2

/-! ## Evaluation -/

theorem mkAbsolute_ole {S S' : Simp} (h : SimpExt S S') (v : Expr) : OLe (mkAbsolute S v) (mkAbsolute S' v) := by
  unfold mkAbsolute
  ole h

theorem mkFn_ole {S S' : Simp} (h : SimpExt S S') (f : Name) (args : List Expr) : OLe (mkFn S f args) (mkFn S' f args) := by
  unfold mkFn
  split <;> first | exact OLe.refl _ | exact mkAbsolute_ole h _

theorem compileExpr_mono (h : j ≤ k) (L U N : Nat) :
    (∀ e, sizeOf e < N → OLe (compile j L U e) (compile k L U e)) ∧
    (∀ es, sizeOf es < N → OLe (compileAdd j L U es) (compileAdd k L U es)) ∧
    (∀ es, sizeOf es < N → OLe (compileMul j L U es) (compileMul k L U es)) := by
  induction N with
  | zero => exact ⟨fun _ h => by omega, fun _ h => by omega, fun _ h => by omega⟩
  | succ N ih =>
    obtain ⟨h1, h2, h3⟩ := ih
    have hs := simp_mono h
    refine ⟨fun e he => ?_, fun es he => ?_, fun es he => ?_⟩
    · unfold compile
      split <;> (try simp only [Expr.fn.sizeOf_spec, List.cons.sizeOf_spec, List.nil.sizeOf_spec] at he) <;>
      repeat first
        | exact OLe.refl _
        | exact hs _ _ _
        | exact mkFn_ole hs _ _
        | exact h1 _ (by omega)
        | exact h2 _ (by omega)
        | exact h3 _ (by omega)
        | (refine OLe.bind ?_ fun _ => ?_)
        | split
    all_goals
      rcases es with _ | ⟨a, _ | ⟨b, bs⟩⟩ <;>
        simp only [List.cons.sizeOf_spec, List.nil.sizeOf_spec] at he <;>
        simp only [compileAdd, compileMul] <;>
      repeat first
        | exact OLe.refl _
        | exact hs _ _ _
        | exact h1 _ (by omega)
        | exact h2 _ (by simp only [List.cons.sizeOf_spec]; omega)
        | exact h3 _ (by simp only [List.cons.sizeOf_spec]; omega)
        | (refine OLe.bind ?_ fun _ => ?_)
        | split

theorem compileC_mono (h : j ≤ k) (L U : Nat) (s : CSum) : OLe (compileC j L U s) (compileC k L U s) := by
  have hc : ∀ c, OLe (compileComp j L U c) (compileComp k L U c) := by
    intro c
    unfold compileComp compileBlade
    repeat first
      | exact OLe.refl _
      | exact (compileExpr_mono h L U _).1 _ (Nat.lt_succ_self _)
      | (refine OLe.bind ?_ fun _ => ?_)
      | split
  induction s with
  | nil => exact OLe.refl _
  | cons c cs ih =>
    rcases cs with _ | ⟨d, cs⟩ <;> unfold compileC
    · exact OLe.bind (hc c) fun _ => OLe.refl _
    · refine OLe.bind (hc c) fun _ => OLe.bind ih fun _ => OLe.bind (addC_mono h _ _) fun _ => OLe.refl _

/-! ## Products -/

/-- A mapping that keeps its results at greater depths. -/
def MapMono (M : CMapping) : Prop := ∀ {j k}, j ≤ k → ∀ L R, OLe (M j L R) (M k L R)

theorem distribute_mono (h : j ≤ k) (x : Expr) (s : CSum) : OLe (distribute j x s) (distribute k x s) := by
  induction s with
  | nil => exact OLe.refl _
  | cons c cs ih =>
    rcases cs with _ | ⟨d, cs⟩ <;> unfold distribute
    · exact OLe.bind (simp_mono h _ _ _) fun _ => OLe.refl _
    · exact OLe.bind (simp_mono h _ _ _) fun _ => OLe.bind ih fun _ => addC_mono h _ _

theorem mulC_mono {M : CMapping} (hM : MapMono M) (h : j ≤ k) (s t : CSum) : OLe (mulC M j s t) (mulC M k s t) := by
  induction k generalizing j s t with
  | zero => obtain rfl : j = 0 := by omega
            exact OLe.refl _
  | succ k ih =>
    cases j with
    | zero => intro x hx; simp [mulC] at hx
    | succ j =>
      have hjk : j ≤ k := by omega
      rcases s with _ | ⟨a, as⟩
      · intro x hx; simp [mulC] at hx
      rcases t with _ | ⟨b, bs⟩
      · intro x hx; simp [mulC] at hx
      unfold mulC
      repeat first
        | exact OLe.refl _
        | exact simp_mono hjk _ _ _
        | exact hM hjk _ _
        | exact ih hjk _ _
        | exact addC_mono hjk _ _
        | exact distribute_mono hjk _ _
        | (refine OLe.bind ?_ fun _ => ?_)
        | split

theorem ext_mono (n : Nat) : MapMono (extMapping n) := by
  intro j k h L R
  have hs := simp_mono h
  unfold extMapping
  ole hs

theorem reg_mono (n : Nat) : MapMono (regMapping n) := by
  intro j k h L R
  have hs := simp_mono h
  unfold regMapping
  ole hs

theorem valid_mono (h : j ≤ k) (g : GradedProduct) (l r res : Expr) :
    OLe (mkValidGrades j g l r res) (mkValidGrades k g l r res) := by
  have hs := simp_mono h
  cases g <;> simp only [mkValidGrades, gradeDiff] <;> ole hs

theorem orth_mono (n : Nat) (f : Expr → Expr) (g : GradedProduct) : MapMono (orthMapping n f g) := by
  intro j k h L R
  have hs := simp_mono h
  unfold orthMapping
  repeat first
    | exact OLe.refl _
    | exact hs _ _ _
    | exact valid_mono h _ _ _ _
    | (refine OLe.bind ?_ fun _ => ?_)
    | split

/-- The same for the entries of a metric matrix. -/
def EntryMono (e : MetricEntry) : Prop := ∀ {j k}, j ≤ k → ∀ r c, OLe (e j r c) (e k r c)

section
variable {entry : MetricEntry} (he : EntryMono entry) (h : j ≤ k)
include he h

theorem mkDeterminant_mono (n : Nat) (rows cols : Expr) :
    OLe (mkDeterminant j entry n rows cols) (mkDeterminant k entry n rows cols) := by
  have hs := simp_mono h
  induction n using Nat.strong_induction_on generalizing rows cols with
  | _ n ih =>
    have hi : ∀ b, OLe (mkIndex j b) (mkIndex k b) := fun b => hs _ _ _
    unfold mkDeterminant
    split
    · exact OLe.refl _
    · exact OLe.bind (hi _) fun _ => OLe.bind (hi _) fun _ => he h _ _
    · repeat first
        | exact OLe.refl _
        | exact hs _ _ _
        | exact hi _
        | exact he h _ _
        | (refine OLe.bind ?_ fun _ => ?_)
    · rename_i n
      refine OLe.bind (OLe.refl _) fun row1 => ?_
      have ht : ∀ i, OLe
          (do
            let coli ← mkElement cols (i - 1)
            let a ← entry j (← mkIndex j row1) (← mkIndex j coli)
            let a' ← if i = 1 then some a else simp j .mul (.const (if i % 2 = 0 then -1 else 1)) a
            simp j .mul a' (← mkDeterminant j entry (n + 2) (mkXor rows row1) (mkXor cols coli)))
          (do
            let coli ← mkElement cols (i - 1)
            let a ← entry k (← mkIndex k row1) (← mkIndex k coli)
            let a' ← if i = 1 then some a else simp k .mul (.const (if i % 2 = 0 then -1 else 1)) a
            simp k .mul a' (← mkDeterminant k entry (n + 2) (mkXor rows row1) (mkXor cols coli))) := by
        intro i
        repeat first
          | exact OLe.refl _
          | exact hs _ _ _
          | exact hi _
          | exact he h _ _
          | exact ih _ (by omega) _ _
          | (refine OLe.bind ?_ fun _ => ?_)
          | split
      suffices H : ∀ m, OLe (mkColSum j _ m) (mkColSum k _ m) from H _
      intro m
      induction m using Nat.strong_induction_on with
      | _ m im =>
        rcases m with _ | _ | m
        · exact OLe.refl _
        · exact ht 1
        · exact OLe.bind (im _ (by omega)) fun _ => OLe.bind (ht _) fun _ => hs _ _ _

omit he in
theorem mkResult_mono (n : Nat) (g : GradedProduct) (cand : Word) (L R : Blade) (s : CSum) :
    OLe (mkResult j n g cand L R s) (mkResult k n g cand L R s) := by
  unfold mkResult
  split
  · exact OLe.bind (valid_mono h _ _ _ _) fun _ => OLe.refl _
  · exact OLe.refl _

theorem mkRowsSum_mono (n : Nat) (g : GradedProduct) (cand : Word) (L R : Blade) (cols : Word) {f f' : Nat} (hf : f ≤ f')
    (ind : Word) : OLe (mkRowsSum j entry n g cand L R cols f ind) (mkRowsSum k entry n g cand L R cols f' ind) := by
  induction f' generalizing f ind with
  | zero => obtain rfl : f = 0 := by omega
            exact OLe.refl _
  | succ f' ih =>
    cases f with
    | zero => intro x hx; simp [mkRowsSum] at hx
    | succ f =>
      have hf : f ≤ f' := by omega
      unfold mkRowsSum mkRowsTerm
      repeat first
        | exact OLe.refl _
        | exact ih hf _
        | exact mkDeterminant_mono he h _ _ _
        | exact mulC_mono (reg_mono n) h _ _
        | exact mulC_mono (ext_mono n) h _ _
        | exact mkResult_mono h _ _ _ _ _ _
        | exact addC_mono h _ _
        | (refine OLe.bind ?_ fun _ => ?_)
        | split

theorem mkColumnsSum_mono (n : Nat) (g : GradedProduct) (cand : Word) (L R : Blade) {f f' : Nat} (hf : f ≤ f')
    (cols : Word) : OLe (mkColumnsSum j entry n g cand L R f cols) (mkColumnsSum k entry n g cand L R f' cols) := by
  induction f' generalizing f cols with
  | zero => obtain rfl : f = 0 := by omega
            exact OLe.refl _
  | succ f' ih =>
    cases f with
    | zero => intro x hx; simp [mkColumnsSum] at hx
    | succ f =>
      have hf : f ≤ f' := by omega
      unfold mkColumnsSum
      repeat first
        | exact OLe.refl _
        | exact ih hf _
        | exact mkRowsSum_mono he h _ _ _ _ _ _ h _
        | exact mulC_mono (ext_mono n) h _ _
        | exact addC_mono h _ _
        | (refine OLe.bind ?_ fun _ => ?_)
        | split

theorem mkOrderSum_mono (n : Nat) (g : GradedProduct) (cand : Word) (L R : Blade) (m : Nat) :
    OLe (mkOrderSum j entry n g cand L R m) (mkOrderSum k entry n g cand L R m) := by
  have hs := simp_mono h
  induction m with
  | zero =>
    unfold mkOrderSum
    exact OLe.bind (mulC_mono (reg_mono n) h _ _) fun _ => OLe.bind (mulC_mono (ext_mono n) h _ _) fun _ =>
      mkResult_mono h _ _ _ _ _ _
  | succ m ih =>
    unfold mkOrderSum mkOrderSign
    repeat first
      | exact OLe.refl _
      | exact hs _ _ _
      | exact ih
      | exact mkColumnsSum_mono he h _ _ _ _ _ h _
      | exact mulC_mono (ext_mono n) h _ _
      | exact addC_mono h _ _
      | (refine OLe.bind ?_ fun _ => ?_)
      | split

end

theorem gen_mono (n : Nat) {entry : MetricEntry} (he : EntryMono entry) (g : GradedProduct) :
    MapMono (genMapping n entry g) := by
  intro j k h L R
  unfold genMapping
  split
  · exact OLe.bind (OLe.refl _) fun _ => mkOrderSum_mono he h _ _ _ _ _ _
  · exact OLe.refl _

theorem conformalEntry_mono (D : Nat) : EntryMono (mkConformalEntry D) := fun _ _ _ => OLe.refl _

theorem matrixEntry_mono (n : Nat) (es : List Expr) : EntryMono (mkMatrixEntry n es) := by
  intro j k h r c
  have hs := simp_mono h
  unfold mkMatrixEntry
  ole hs

theorem gradedMinus_mono (h : j ≤ k) (p : Word) (s : CSum) : OLe (gradedMinusC j p s) (gradedMinusC k p s) := by
  have hs := simp_mono h
  have hc : ∀ c, OLe (gradedMinusComp j p c) (gradedMinusComp k p c) := by
    intro c
    unfold gradedMinusComp
    ole hs
  induction s with
  | nil => exact OLe.refl _
  | cons c cs ih =>
    rcases cs with _ | ⟨d, cs⟩ <;> unfold gradedMinusC
    · exact OLe.bind (hc c) fun _ => OLe.refl _
    · exact OLe.bind (hc c) fun _ => OLe.bind ih fun _ => addC_mono h _ _

theorem neg_mono (h : j ≤ k) (s : CSum) : OLe (negC j s) (negC k s) := mulC_mono (orth_mono _ _ _) h _ _

theorem sub_mono (h : j ≤ k) (s t : CSum) : OLe (subC j s t) (subC k s t) :=
  OLe.bind (neg_mono h _) fun _ => addC_mono h _ _

/-! ## Calls -/

variable {τ : Types} {ρ : Env}

theorem contextObject_mono (h : j ≤ k) (Ms : List Object) (e : CSum) :
    OLe (contextObject j τ ρ Ms e) (contextObject k τ ρ Ms e) := by
  have hc := compileC_mono h (baseId Ms + 1) (baseId Ms + (storedInputs Ms).length) e
  intro o ho
  by_cases hs : storedInputs Ms = []
  · simp only [contextObject, contextEval, hs, List.isEmpty_nil, if_true] at ho ⊢
    exact ho
  · simp only [contextObject, contextEval, List.isEmpty_iff, hs, if_false, Option.bind_eq_bind] at ho ⊢
    obtain ⟨x, hx, ho⟩ := Option.bind_eq_some_iff.1 ho
    obtain ⟨y, hy, hx⟩ := Option.bind_eq_some_iff.1 hx
    rw [hy] at ho
    rw [hc _ hy, Option.bind_some, hx, Option.bind_some]
    exact ho

theorem call1_mono (h : j ≤ k) {f f' : CSum → Option CSum} (hf : ∀ a, OLe (f a) (f' a)) (M : Object) :
    OLe (call1 j τ ρ f M) (call1 k τ ρ f' M) := by
  unfold call1
  refine OLe.bind (OLe.refl _) fun as => ?_
  split
  · exact OLe.bind (hf _) fun _ => contextObject_mono h _ _
  · exact OLe.refl _

theorem call2_mono (h : j ≤ k) {f f' : CSum → CSum → Option CSum} (hf : ∀ a b, OLe (f a b) (f' a b)) (M M' : Object) :
    OLe (call2 j τ ρ f M M') (call2 k τ ρ f' M M') := by
  unfold call2
  refine OLe.bind (OLe.refl _) fun as => ?_
  split
  · exact OLe.bind (hf _ _) fun _ => contextObject_mono h _ _
  · exact OLe.refl _

theorem powScalar_mono (h : j ≤ k) (M E : Object) : OLe (powScalar j τ ρ M E) (powScalar k τ ρ M E) :=
  call2_mono h (fun _ _ => OLe.bind (OLe.refl _) fun _ => OLe.bind (OLe.refl _) fun _ =>
    OLe.bind (simp_mono h _ _ _) fun _ => OLe.refl _) M E

/-! ## Programs -/

/-- A space whose mappings keep their results at greater depths. -/
def SpaceMono (S : SpaceType) : Prop := ∀ g, MapMono (S.mapping g)

theorem signedSpace_mono (P Q R : Nat) : SpaceMono (signedSpace P Q R) := fun _ => orth_mono _ _ _

theorem conformalSpace_mono (D : Nat) : SpaceMono (conformalSpace D) := fun _ => gen_mono _ (conformalEntry_mono D) _

theorem matrixSpace_mono (n : Nat) (es : List Expr) : SpaceMono (matrixSpace n es) :=
  fun _ => gen_mono _ (matrixEntry_mono n es) _

section
variable {S : SpaceType} (hS : SpaceMono S) (h : j ≤ k)
include hS h

theorem runIn_mono (Ms : List Object) (t : Program) : OLe (t.runIn S j τ ρ Ms) (t.runIn S k τ ρ Ms) := by
  induction t with
  | input | lit => exact OLe.refl _
  | add s t hs ht => exact OLe.bind hs fun _ => OLe.bind ht fun _ => call2_mono h (addC_mono h) _ _
  | sub s t hs ht => exact OLe.bind hs fun _ => OLe.bind ht fun _ => call2_mono h (sub_mono h) _ _
  | neg t ht => exact OLe.bind ht fun _ => call1_mono h (neg_mono h) _
  | scale v t ht => exact OLe.bind ht fun _ => call1_mono h (mulC_mono (orth_mono _ _ _) h _) _
  | op s t hs ht => exact OLe.bind hs fun _ => OLe.bind ht fun _ => call2_mono h (mulC_mono (ext_mono _) h) _ _
  | rp s t hs ht => exact OLe.bind hs fun _ => OLe.bind ht fun _ => call2_mono h (mulC_mono (reg_mono _) h) _ _
  | graded g s t hs ht => exact OLe.bind hs fun _ => OLe.bind ht fun _ => call2_mono h (mulC_mono (hS g) h) _ _
  | reverse t ht | involute t ht | conjugate t ht =>
    exact OLe.bind ht fun _ => call1_mono h (gradedMinus_mono h _) _

theorem runLazyIn_mono (Ms : List Object) (t : Program) : OLe (t.runLazyIn S j τ ρ Ms) (t.runLazyIn S k τ ρ Ms) :=
  OLe.bind (OLe.refl _) fun _ => OLe.bind (runIn_mono hS h _ t) fun _ => contextObject_mono h _ _

theorem inverseIn_mono (M : Object) : OLe (inverseIn S j τ ρ M) (inverseIn S k τ ρ M) := by
  unfold inverseIn
  refine OLe.bind (OLe.refl _) fun as => ?_
  split
  · refine OLe.bind (runLazyIn_mono hS h _ _) fun _ => OLe.bind (powScalar_mono h _ _) fun _ =>
      OLe.bind (call1_mono h (gradedMinus_mono h _) _) fun _ => OLe.bind (call2_mono h (mulC_mono (orth_mono _ _ _) h) _ _)
        fun _ => contextObject_mono h _ _
  · exact OLe.refl _

theorem rationalIn_mono (Ms : List Object) (t : Rational) : OLe (t.runIn S j τ ρ Ms) (t.runIn S k τ ρ Ms) := by
  induction t generalizing Ms with
  | ret t => exact runIn_mono hS h Ms t
  | bind t rest ih => exact OLe.bind (runIn_mono hS h _ t) fun _ => ih _
  | inv t rest ih => exact OLe.bind (runIn_mono hS h _ t) fun _ => OLe.bind (inverseIn_mono hS h _) fun _ => ih _

theorem rationalLazyIn_mono (Ms : List Object) (t : Rational) :
    OLe (t.runLazyIn S j τ ρ Ms) (t.runLazyIn S k τ ρ Ms) :=
  OLe.bind (OLe.bind (OLe.refl _) fun _ => OLe.bind (rationalIn_mono hS h _ t) fun _ => OLe.refl _)
    fun _ => contextObject_mono h _ _

end

end GATL
