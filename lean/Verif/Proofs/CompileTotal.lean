import Verif.Proofs.SignMappings

/-!
# Evaluation of sums of components whose coefficients are polynomials
-/

namespace GATL.Total

open Expr Spec

variable {L U : Nat}

mutual
theorem inRange_poly : ∀ e : Expr, Poly L U e → inRange L U e = true
  | .fn name args, h => by
    rw [inRange]
    exact inRangeAll_poly args (over_fn.1 h).2.1
  | .value t i, h => by
    rcases poly_leaf h (by simp) with ⟨_, h⟩ | ⟨_, _, h1, h2, h⟩
    · simp at h
    · cases h
      simp [inRange, h1, h2]
  | .const _, _ => rfl
  | .cbits _, _ => rfl
  | .cbool _, _ => rfl
  | .stored, _ => rfl
  | .storedMap, _ => rfl
  | .storedBits, _ => rfl
  | .storedMapBits, _ => rfl
  | .mapValues _ _, h => by rcases poly_leaf h (by simp) with ⟨_, h⟩ | ⟨_, _, _, _, h⟩ <;> simp at h
  | .bitset _ _, h => by rcases poly_leaf h (by simp) with ⟨_, h⟩ | ⟨_, _, _, _, h⟩ <;> simp at h
  | .mapBitsets _ _, h => by rcases poly_leaf h (by simp) with ⟨_, h⟩ | ⟨_, _, _, _, h⟩ <;> simp at h
theorem inRangeAll_poly : ∀ args : List Expr, (∀ a ∈ args, Poly L U a) → inRangeAll L U args = true
  | [], _ => rfl
  | a :: as, h => by
    rw [inRangeAll, inRange_poly a (h a (by simp)), inRangeAll_poly as fun b hb => h b (by simp [hb])]
    rfl
end

theorem store_poly {e : Expr} (h : Poly L U e) : storeValue L U e = some (.stored, [.value e]) := by
  rw [storeValue, if_pos (inRange_poly e h)]

/-- A stored number, or an integer of absolute value at most `w`. -/
def PlainW (e : Expr) (w : Nat) : Prop := (e = .stored ∧ 1 ≤ w) ∨ ∃ c : Int, e = .const c ∧ c.natAbs ≤ w

theorem PlainW.pw {e : Expr} {w : Nat} (h : PlainW e w) : PW 1 e w := by
  rcases h with ⟨rfl, h⟩ | ⟨c, rfl, h⟩
  · exact (PW.atom .stored).mono le_rfl h
  · exact (PW.const 1 c).mono le_rfl h

theorem PlainW.mono {e : Expr} {w w' : Nat} (h : PlainW e w) (hw : w ≤ w') : PlainW e w' := by
  rcases h with ⟨rfl, h⟩ | ⟨c, rfl, h⟩
  · exact .inl ⟨rfl, h.trans hw⟩
  · exact .inr ⟨c, rfl, h.trans hw⟩

/-- A step of `compileAdd`. -/
theorem compileAdd_step {a : Expr} {rest : List Expr} (hne : rest ≠ []) {c d : Code} {u v : Nat}
    (hp : Poly L U (.fn .add (a :: rest)))
    (h1 : Ev (fun n => compile n L U a) c) (h2 : Ev (fun n => compileAdd n L U rest) d)
    (hc : PlainW c.1 u) (hd : PlainW d.1 v) (hB : u + v < B) :
    ∃ e, Ev (fun n => compileAdd n L U (a :: rest)) e ∧ PlainW e.1 (u + v) := by
  obtain ⟨a', p⟩ := c
  obtain ⟨r', q⟩ := d
  obtain ⟨b, bs, rfl⟩ := List.exists_cons_of_ne_nil hne
  obtain ⟨e, he, -⟩ := PW.add (by norm_num) hc.pw hd.pw hB
  simp only at hc hd he
  refine ⟨if anyIs .stored a' r' then (.stored, [.value (.fn .add (a :: b :: bs))]) else (e, p ++ q), ?_, ?_⟩
  · refine Ev.congr (f := fun n => compile n L U a >>= fun c => compileAdd n L U (b :: bs) >>= fun d =>
      simp n .add c.1 d.1 >>= fun e => if anyIs .stored c.1 d.1 then storeValue L U (.fn .add (a :: b :: bs)) else some (e, c.2 ++ d.2))
      (h1.bind (h2.bind (he.bind ⟨0, fun j _ => ?_⟩))) fun n => ?_
    · simp only
      rw [store_poly hp]
      split <;> rfl
    · conv_lhs => rw [compileAdd.eq_def]
  · split
    · refine .inl ⟨rfl, ?_⟩
      rcases hc with ⟨rfl, h⟩ | ⟨x, rfl, h⟩
      · omega
      · rcases hd with ⟨rfl, h⟩ | ⟨y, rfl, h⟩
        · omega
        · next h => simp [anyIs] at h
    · next h =>
      rcases hc with ⟨rfl, -⟩ | ⟨x, rfl, hx⟩
      · rcases hd with ⟨rfl, -⟩ | ⟨y, rfl, -⟩ <;> exact absurd rfl h
      rcases hd with ⟨rfl, -⟩ | ⟨y, rfl, hy⟩
      · exact absurd rfl h
      obtain ⟨k, hk⟩ := he
      have h1 := (limit_iff.1 (limit_add_const (c := x) (d := y) (by omega)))
      have := simp_eq h1 (hk k le_rfl)
      exact .inr ⟨x + y, this, by omega⟩

/-- A step of `compileMul` with a stored rest. -/
theorem compileMul_step {a : Expr} {rest : List Expr} (hne : rest ≠ []) {c d : Code} {u : Nat}
    (hp : Poly L U (.fn .mul (a :: rest)))
    (h1 : Ev (fun n => compile n L U a) c) (h2 : Ev (fun n => compileMul n L U rest) d)
    (hc : PlainW c.1 u) (hd : d.1 = .stored) (hB : u < B) :
    ∃ e, Ev (fun n => compileMul n L U (a :: rest)) e ∧ e.1 = .stored := by
  obtain ⟨a', p⟩ := c
  obtain ⟨r', q⟩ := d
  obtain ⟨b, bs, rfl⟩ := List.exists_cons_of_ne_nil hne
  simp only at hc hd
  subst hd
  obtain ⟨e, he, -⟩ := PW.mul (by norm_num) hc.pw (PW.atom .stored) (by omega)
  have hany : anyIs .stored a' .stored = true := by
    rcases hc with ⟨rfl, -⟩ | ⟨x, rfl, -⟩ <;> rfl
  refine ⟨(.stored, [.value (.fn .mul (a :: b :: bs))]), ?_, rfl⟩
  refine Ev.congr (f := fun n => compile n L U a >>= fun c => compileMul n L U (b :: bs) >>= fun d =>
    simp n .mul c.1 d.1 >>= fun e => if anyIs .stored c.1 d.1 then storeValue L U (.fn .mul (a :: b :: bs)) else some (e, c.2 ++ d.2))
    (h1.bind (h2.bind (he.bind ⟨0, fun j _ => ?_⟩))) fun n => ?_
  · simp only
    rw [if_pos hany, store_poly hp]
  · conv_lhs => rw [compileMul.eq_def]

theorem compile_fac {x : Atom} {k : Nat} (hk : 1 ≤ k) (hp : Poly L U (Item.fac x k).expr) :
    ∃ c, Ev (fun n => compile n L U (Item.fac x k).expr) c ∧ c.1 = .stored := by
  have base : ∀ {x : Atom}, Poly L U x.expr → Ev (fun n => compile n L U x.expr) (.stored, [.value x.expr]) := by
    intro x hp
    have hs := store_poly hp
    cases x with
    | stored => rcases poly_leaf hp (by simp [Atom.expr]) with ⟨_, h⟩ | ⟨_, _, _, _, h⟩ <;> simp [Atom.expr] at h
    | val t i =>
      rcases poly_leaf hp (by simp [Atom.expr]) with ⟨_, h⟩ | ⟨_, _, h1, h2, h⟩
      · simp [Atom.expr] at h
      · cases h
        refine ⟨0, fun n _ => ?_⟩
        show (if L ≤ t ∧ t ≤ U then storeValue L U (.value t i) else some (.value t i, [])) = _
        rw [if_pos ⟨h1, h2⟩]
        exact hs
  by_cases h1 : k = 1
  · subst h1
    exact ⟨_, base hp, rfl⟩
  · have hs := store_poly hp
    rw [Item.expr_pow x (by omega)] at hp hs ⊢
    have hx : Poly L U x.expr := (over_fn.1 hp).2.1 _ (by simp)
    refine ⟨(.stored, [.value (powerOf x.expr (.const k))]), ?_, rfl⟩
    have hpow : Ev (fun n => simp n .pow .stored (.const k)) (powerOf .stored (.const k)) :=
      limit_iff.1 (limit_pow_atom .stored (k := k) (by omega))
    have hconst : Ev (fun n => compile n L U (.const k)) (.const k, []) := ⟨0, fun n _ => rfl⟩
    refine Ev.congr (f := fun n => compile n L U x.expr >>= fun c => compile n L U (.const k) >>= fun d =>
      simp n .pow c.1 d.1 >>= fun e => if anyIs .stored c.1 d.1 then storeValue L U (powerOf x.expr (.const k)) else some (e, c.2 ++ d.2))
      ((base hx).bind (hconst.bind (hpow.bind ⟨0, fun j _ => ?_⟩))) fun n => ?_
    · exact hs
    · rfl

theorem compileMul_facs (fs : List (Atom × Nat)) : fs ≠ [] → (∀ f ∈ fs, 1 ≤ f.2) →
    (∀ e ∈ (facs fs).map Item.expr, Poly L U e) →
    ∃ c, Ev (fun n => compileMul n L U ((facs fs).map Item.expr)) c ∧ c.1 = .stored := by
  induction fs with
  | nil => intro h; exact absurd rfl h
  | cons f fs ih =>
    intro _ hk hp
    obtain ⟨c, h1, h2⟩ := compile_fac (hk f (by simp)) (hp _ (List.mem_cons_self ..))
    rcases fs with _ | ⟨g, gs⟩
    · exact ⟨c, h1, h2⟩
    · obtain ⟨d, g1, g2⟩ := ih (by simp) (fun f hf => hk f (by simp [hf])) (fun e he => hp e (List.mem_cons_of_mem _ he))
      exact compileMul_step (by simp) (over_fn.2 ⟨.inr (.inl rfl), hp, by simp⟩) h1 g1 (.inl ⟨h2, le_rfl⟩) g2
        (by norm_num)

theorem compile_mon {m : Mon} (hm : m.Ok) (hB : m.c.natAbs < B) (hp : Poly L U m.expr) :
    ∃ c, Ev (fun n => compile n L U m.expr) c ∧ PlainW c.1 m.c.natAbs := by
  obtain ⟨c, fs⟩ := m
  have h0 : 1 ≤ c.natAbs := by have := hm.1; simp only at this; omega
  have hk := hm.2
  simp only at hB hk ⊢
  unfold Mon.expr Mon.items at hp ⊢
  simp only at hp ⊢
  split at hp
  · next h1 =>
    rw [if_pos h1]
    rcases fs with _ | ⟨f, _ | ⟨g, gs⟩⟩
    · exact ⟨(.const 1, []), Ev.pure _, .inr ⟨1, rfl, by omega⟩⟩
    · obtain ⟨d, g1, g2⟩ := compile_fac (hk f (by simp)) hp
      exact ⟨d, g1, .inl ⟨g2, h0⟩⟩
    · obtain ⟨d, g1, g2⟩ := compileMul_facs (f :: g :: gs) (by simp) hk (over_fn.1 hp).2.1
      exact ⟨d, g1, .inl ⟨g2, h0⟩⟩
  · next h1 =>
    rw [if_neg h1]
    rcases fs with _ | ⟨f, fs⟩
    · exact ⟨(.const c, []), Ev.pure _, .inr ⟨c, rfl, le_rfl⟩⟩
    · obtain ⟨d, g1, g2⟩ := compileMul_facs (f :: fs) (by simp) hk fun e he => (over_fn.1 hp).2.1 e (List.mem_cons_of_mem _ he)
      obtain ⟨e, k1, k2⟩ := compileMul_step (a := .const c) (c := (.const c, [])) (u := c.natAbs) (by simp [facs]) hp (Ev.pure _) g1
        (.inr ⟨c, rfl, le_rfl⟩) g2 hB
      exact ⟨e, k1, .inl ⟨k2, h0⟩⟩

theorem compileAdd_total (X : List Mon) : X ≠ [] → (∀ m ∈ X, m.Ok) → wt X < B → (∀ e ∈ X.map Mon.expr, Poly L U e) →
    ∃ c, Ev (fun n => compileAdd n L U (X.map Mon.expr)) c ∧ PlainW c.1 (wt X) := by
  induction X with
  | nil => intro h; exact absurd rfl h
  | cons m X ih =>
    intro _ hm hw hp
    rw [wt_cons] at hw ⊢
    obtain ⟨c, h1, h2⟩ := compile_mon (hm m (by simp)) (by omega) (hp _ (List.mem_cons_self ..))
    rcases X with _ | ⟨m', X⟩
    · exact ⟨c, h1, h2.mono (by omega)⟩
    · obtain ⟨d, g1, g2⟩ := ih (by simp) (fun m h => hm m (by simp [h])) (by omega) (fun e he => hp e (List.mem_cons_of_mem _ he))
      exact compileAdd_step (by simp) (over_fn.2 ⟨.inl rfl, hp, by simp⟩) h1 g1 h2 g2 hw

/-- Polynomials can be evaluated. -/
theorem compile_total {D w : Nat} {e : Expr} (h : PW D e w) (hw : w < B) (hp : Poly L U e) :
    ∃ c, Ev (fun n => compile n L U e) c ∧ PlainW c.1 w := by
  obtain ⟨X, rfl, hX, hwt⟩ := h
  rcases X with _ | ⟨m, _ | ⟨m', X⟩⟩
  · exact ⟨(.const 0, []), Ev.pure _, .inr ⟨0, rfl, by simp⟩⟩
  · rw [wt_cons] at hwt
    obtain ⟨c, h1, h2⟩ := compile_mon (hX m (by simp)).1 (by omega) hp
    exact ⟨c, h1, h2.mono (by omega)⟩
  · obtain ⟨c, h1, h2⟩ := compileAdd_total (m :: m' :: X) (by simp) hX.ok (by omega) (over_fn.1 hp).2.1
    exact ⟨c, h1, h2.mono hwt⟩

/-- The coefficients are stored numbers and integers; each stored number counts for one. -/
def PlainWs : CSum → Nat → Prop
  | [], _ => True
  | c :: cs, w => ∃ u v, PlainW c.coef u ∧ PlainWs cs v ∧ u + v ≤ w

theorem PlainWs.mono : ∀ {s : CSum} {w w' : Nat}, PlainWs s w → w ≤ w' → PlainWs s w'
  | [], _, _, _, _ => trivial
  | _ :: _, _, _, h, hw => by
    obtain ⟨u, v, h1, h2, h3⟩ := h
    exact ⟨u, v, h1, h2, h3.trans hw⟩

theorem PlainWs.weighs : ∀ {s : CSum} {w : Nat}, PlainWs s w → Weighs 1 s w
  | [], _, _ => trivial
  | _ :: _, _, h => by
    obtain ⟨u, v, h1, h2, h3⟩ := h
    exact ⟨u, v, h1.pw, h2.weighs, h3⟩

/-- Sums of components can be evaluated. -/
theorem compileC_total {D B' : Nat} (s : CSum) : ∀ w : Nat, PolyC (B' + 1) U s → (∀ c ∈ s, Built c.coef) → Weighs D s w → w < B →
    ∃ s' p, Ev (fun n => compileC n (B' + 1) U s) (s', p) ∧ PlainWs s' w := by
  induction s with
  | nil => intro w h; exact absurd rfl h.1.1
  | cons c cs ih =>
    intro w hs hb hW hB
    obtain ⟨u, v, hc, hcs, huv⟩ := hW
    obtain ⟨b, eb, hbx⟩ := canonical_known hs.1 c (by simp)
    obtain ⟨⟨x, p⟩, h1, h2⟩ := compile_total hc (by omega) (hs.2 c (by simp))
    obtain ⟨k1, k2, k3⟩ := mkComp_known (c := x) (d := c) ⟨b, eb, hbx⟩
    have hcomp : Ev (fun n => compileComp n (B' + 1) U c) (mkComp x c.blade, p ++ []) := by
      refine h1.bind ?_
      rw [eb]
      exact Ev.pure _
    have hpl : PlainW (mkComp x c.blade).coef u := by rw [k2]; exact h2
    rcases cs with _ | ⟨d, ds⟩
    · exact ⟨_, _, hcomp.bind (Ev.pure _), u, 0, hpl, trivial, by omega⟩
    · obtain ⟨s', q, g1, g2⟩ := ih v (within_rest hs (by simp)) (fun x hx => hb x (by simp at hx ⊢; tauto)) hcs (by omega)
      obtain ⟨j, hj⟩ := g1
      obtain ⟨i, hi⟩ := hcomp
      have hst : ∀ c' ∈ c :: d :: ds, Staged (max i j) B' U c' := fun c' h' =>
        ⟨canonical_known hs.1 c' h', fun d hd =>
          (compile_out (poly_evaluable (hb c' h') (hs.2 c' h')) d hd).coef⟩
      obtain ⟨m1, -, m2, -⟩ := compileComp_known (hst c (by simp)) (hi _ (le_max_left i j))
      obtain ⟨hp1, hp2⟩ := List.pairwise_cons.1 (canonical_iff.1 hs.1).2.2.1
      obtain ⟨⟨hcu, hbu, hwu⟩, -⟩ := compileC_out (d :: ds) s' q (by simp)
        (fun x hx => hst x (by simp at hx ⊢; tauto)) hp2 (hj _ (le_max_right i j))
      have hcond : IsZero s' ∨ (mkComp x c.blade).coef = .const 0 ∨ ∀ y ∈ s', BeforeC (mkComp x c.blade) y := by
        by_cases h0 : (mkComp x c.blade).coef = .const 0
        · exact .inr (.inl h0)
        · rcases hbu with hz | hbu
          · exact .inl hz
          · refine .inr (.inr fun x hx => ?_)
            obtain ⟨y, hy, e⟩ := hbu x hx
            exact beforeC_congr_left (beforeC_congr_right (hp1 y hy) e) (m2 h0)
      obtain ⟨e, he, hce, -⟩ := addC_front (k := 0) m1 hcu hcond
      refine ⟨e, (p ++ []) ++ q, Ev.bind ⟨i, hi⟩ (Ev.bind ⟨j, hj⟩ (Ev.bind (x := e) ⟨1, fun n hn => addC_mono hn _ _ _ he⟩ (Ev.pure _))), ?_⟩
      obtain ⟨-, -, hcase⟩ := addC_front_eq m1 hcu hcond he
      rcases hcase with ⟨-, -, rfl⟩ | ⟨-, -, rfl⟩ | ⟨-, -, rfl⟩ | ⟨-, -, rfl⟩
      · exact ⟨u, 0, hpl, trivial, by omega⟩
      · exact g2.mono (by omega)
      · exact ⟨u, 0, hpl, trivial, by omega⟩
      · exact ⟨u, v, hpl, g2, huv⟩

end GATL.Total
