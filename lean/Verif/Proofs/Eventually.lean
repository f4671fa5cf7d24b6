import Verif.Proofs.Sums
import Verif.Proofs.LazyProgram

/-!
# Sums and products of components whose coefficients are polynomials compile
-/

namespace GATL.Total

open Expr Spec

/-- A computation with a depth gives the result for all great enough depths. -/
def Ev {α : Type} (f : Nat → Option α) (x : α) : Prop := ∃ k, ∀ j, k ≤ j → f j = some x

theorem Ev.pure {α : Type} (x : α) : Ev (fun _ => some x) x := ⟨0, fun _ _ => rfl⟩

theorem Ev.bind {α β : Type} {f : Nat → Option α} {g : Nat → α → Option β} {x : α} {y : β} (hf : Ev f x)
    (hg : Ev (fun j => g j x) y) : Ev (fun j => f j >>= g j) y := by
  obtain ⟨k1, h1⟩ := hf
  obtain ⟨k2, h2⟩ := hg
  refine ⟨max k1 k2, fun j hj => ?_⟩
  simp only [h1 j (le_of_max_le_left hj), Option.bind_eq_bind, Option.bind_some]
  exact h2 j (le_of_max_le_right hj)

theorem Ev.succ {α : Type} {f : Nat → Option α} {x : α} (h : Ev (fun j => f (j + 1)) x) : Ev f x := by
  obtain ⟨k, hk⟩ := h
  refine ⟨k + 1, fun j hj => ?_⟩
  obtain ⟨i, rfl⟩ : ∃ i, j = i + 1 := ⟨j - 1, by omega⟩
  exact hk i (by omega)

theorem Ev.congr {α : Type} {f g : Nat → Option α} {x : α} (h : Ev f x) (e : ∀ j, g j = f j) : Ev g x := by
  obtain ⟨k, hk⟩ := h
  exact ⟨k, fun j hj => (e j).trans (hk j hj)⟩

/-- A fact about all results holds of the eventual result. -/
theorem Ev.fact {α : Type} {f : Nat → Option α} {x : α} {p : α → Prop} (h : Ev f x)
    (hp : ∀ k y, f k = some y → p y) : p x := by
  obtain ⟨k, hk⟩ := h
  exact hp k x (hk k le_rfl)

/-! ## Coefficients -/

/-- A polynomial of degree at most `D`, the absolute values of whose coefficients add up to at most `w`. -/
def PW (D : Nat) (e : Expr) (w : Nat) : Prop := ∃ X, e = polyL X ∧ Fine D X ∧ wt X ≤ w

theorem PW.mono {D D' w w' : Nat} {e : Expr} (h : PW D e w) (hD : D ≤ D') (hw : w ≤ w') : PW D' e w' := by
  obtain ⟨X, rfl, h1, h2⟩ := h
  exact ⟨X, rfl, h1.mono hD, h2.trans hw⟩

theorem PW.const (D : Nat) (c : Int) : PW D (.const c) c.natAbs := by
  by_cases h : c = 0
  · subst h
    exact ⟨[], rfl, by simp [Fine], by simp [wt]⟩
  · refine ⟨[⟨c, []⟩], ?_, ?_, by simp [wt]⟩
    · show Expr.const c = prodL (Mon.items ⟨c, []⟩)
      unfold Mon.items
      split
      · next h1 => rw [show c = 1 from h1]; rfl
      · rfl
    · exact Fine.one ⟨⟨h, by simp⟩, by simp [Mon.deg]⟩

theorem PW.atom (x : Atom) : PW 1 x.expr 1 := by
  refine ⟨[⟨1, [(x, 1)]⟩], rfl, ?_, by simp [wt]⟩
  exact Fine.one ⟨⟨by simp, by simp⟩, by simp [Mon.deg]⟩

theorem PW.add {D u v : Nat} {a b : Expr} (hD : D < B) (ha : PW D a u) (hb : PW D b v) (h : u + v < B) :
    ∃ e, Ev (fun k => simp k .add a b) e ∧ PW D e (u + v) := by
  obtain ⟨X, rfl, hX, hu⟩ := ha
  obtain ⟨Y, rfl, hY, hv⟩ := hb
  obtain ⟨Z, h1, h2, h3⟩ := poly_add hD hX hY (by omega)
  exact ⟨_, limit_iff.1 h1, Z, rfl, h2, by omega⟩

theorem PW.mul {D D' u v : Nat} {a b : Expr} (hD : D + D' < B) (ha : PW D a u) (hb : PW D' b v) (h : u * v < B) :
    ∃ e, Ev (fun k => simp k .mul a b) e ∧ PW (D + D') e (u * v) := by
  obtain ⟨X, rfl, hX, hu⟩ := ha
  obtain ⟨Y, rfl, hY, hv⟩ := hb
  have hle := Nat.mul_le_mul hu hv
  obtain ⟨Z, h1, h2, h3⟩ := poly_mul hD _ X Y rfl hX hY (by omega)
  exact ⟨_, limit_iff.1 h1, Z, rfl, h2, by omega⟩

/-- Results at any depth are the eventual ones. -/
theorem simp_eq {op : Op} {a b e e' : Expr} {k : Nat} (h : Ev (fun k => simp k op a b) e) (h' : simp k op a b = some e') :
    e' = e := by
  obtain ⟨j, hj⟩ := h
  have h1 := simp_mono (le_max_left k j) op a b e' h'
  have h2 : simp (max k j) op a b = some e := hj (max k j) (le_max_right k j)
  rw [h2] at h1
  exact (Option.some_inj.1 h1).symm

/-! ## Sums of components -/

/-- The coefficients are polynomials of degree at most `D`, and the absolute values of all their coefficients add
up to at most `w`. -/
def Weighs (D : Nat) : CSum → Nat → Prop
  | [], _ => True
  | c :: cs, w => ∃ u v, PW D c.coef u ∧ Weighs D cs v ∧ u + v ≤ w

theorem Weighs.mono {D D' : Nat} (hD : D ≤ D') : ∀ {s : CSum} {w w' : Nat}, Weighs D s w → w ≤ w' → Weighs D' s w'
  | [], _, _, _, _ => trivial
  | _ :: _, _, _, h, hw => by
    obtain ⟨u, v, h1, h2, h3⟩ := h
    exact ⟨u, v, h1.mono hD le_rfl, h2.mono hD le_rfl, h3.trans hw⟩

theorem Weighs.le {D : Nat} {s : CSum} {w w' : Nat} (h : Weighs D s w) (hw : w ≤ w') : Weighs D s w' := h.mono le_rfl hw

theorem Weighs.one {D : Nat} {c : Comp} {w : Nat} (h : PW D c.coef w) : Weighs D [c] w := ⟨w, 0, h, trivial, le_rfl⟩

theorem Weighs.cons {D : Nat} {c : Comp} {s : CSum} {u v : Nat} (h : PW D c.coef u) (h' : Weighs D s v) :
    Weighs D (c :: s) (u + v) := ⟨u, v, h, h', le_rfl⟩

theorem PW.mkComp {D w : Nat} {x : Expr} (b : Blade) (h : PW D x w) : PW D (mkComp x b).coef w := by
  simp only [GATL.mkComp]
  split
  · exact (PW.const D 0).mono le_rfl (by simp)
  · exact h

theorem addC_weighs {D : Nat} (hD : D < B) (k : Nat) : ∀ (s t e : CSum) (v w : Nat), Weighs D s v → Weighs D t w →
    v + w < B → addC k s t = some e → Weighs D e (v + w) := by
  induction k with
  | zero => intro s t e v w _ _ _ h; simp [addC] at h
  | succ k ih =>
    intro s t e v w hs ht hB h
    rcases s with _ | ⟨a, as⟩
    · simp [addC] at h
    rcases t with _ | ⟨b, bs⟩
    · simp [addC] at h
    have hs' := hs
    have ht' := ht
    obtain ⟨va, vs, ha, has, hv⟩ := hs
    obtain ⟨wb, ws, hb, hbs, hw⟩ := ht
    unfold addC at h
    split_ifs at h with h1 h2 h3 h4 h5 h6 h7 h8
    · cases h; exact (Weighs.one ha).le (by omega)
    · cases h; exact ht'.le (by omega)
    · cases h; exact hs'.le (by omega)
    · simp only [Option.bind_eq_bind, Option.bind_eq_some_iff] at h
      obtain ⟨x, hx, h⟩ := h
      obtain ⟨y, hy, hp⟩ := PW.add hD ha hb (by omega)
      obtain rfl := simp_eq hy hx
      have hc : Weighs D [GATL.mkComp x a.blade] (va + wb) := Weighs.one (hp.mkComp _)
      split at h
      · cases h; exact hc.le (by omega)
      · exact (ih _ _ _ _ _ hc hbs (by omega) h).le (by omega)
      · exact (ih _ _ _ _ _ hc has (by omega) h).le (by omega)
      · simp only [Option.bind_eq_some_iff] at h
        obtain ⟨u, hu, h⟩ := h
        exact (ih _ _ _ _ _ hc (ih _ _ _ _ _ has hbs (by omega) hu) (by omega) h).le (by omega)
    · cases h
      exact (Weighs.cons ha ht').le (by omega)
    · simp only [Option.bind_eq_bind, Option.bind_eq_some_iff] at h
      obtain ⟨u, hu, h⟩ := h
      exact (ih _ _ _ _ _ (Weighs.one ha) (ih _ _ _ _ _ has ht' (by omega) hu) (by omega) h).le (by omega)
    · cases h
      exact (Weighs.cons hb hs').le (by omega)
    · simp only [Option.bind_eq_bind, Option.bind_eq_some_iff] at h
      obtain ⟨u, hu, h⟩ := h
      exact (ih _ _ _ _ _ (Weighs.one hb) (ih _ _ _ _ _ hs' hbs (by omega) hu) (by omega) h).le (by omega)

theorem Weighs.mem {D : Nat} : ∀ {s : CSum} {w : Nat}, Weighs D s w → ∀ c ∈ s, PW D c.coef w
  | [], _, _, _, hc => by simp at hc
  | d :: ds, w, h, c, hc => by
    obtain ⟨u, v, h1, h2, h3⟩ := h
    rcases List.mem_cons.1 hc with rfl | hc
    · exact h1.mono le_rfl (by omega)
    · exact (h2.mem c hc).mono le_rfl (by omega)

/-- Sums compile. -/
theorem addC_total {D : Nat} (hD : D < B) {s t : CSum} {v w : Nat} (hs : Canonical s) (ht : Canonical t)
    (hv : Weighs D s v) (hw : Weighs D t w) (h : v + w < B) :
    ∃ e, Ev (fun k => addC k s t) e ∧ Canonical e ∧ From s t e ∧ Weighs D e (v + w) := by
  obtain ⟨k, e, he⟩ := addC_exists _ s t le_rfl hs ht fun a ha b hb _ => by
    obtain ⟨x, ⟨k, hk⟩, -⟩ := PW.add hD (hv.mem a ha) (hw.mem b hb) h
    exact ⟨k, x, hk k le_rfl⟩
  obtain ⟨h1, h2⟩ := addC_canonical k s t e hs ht he
  exact ⟨e, ⟨k, fun j hj => addC_mono hj s t e he⟩, h1, h2, addC_weighs hD k s t e v w hv hw h he⟩

/-! ## Products -/

/-- Products of the blades of a space with `N` dimensions: one component with coefficient -1, 0 or 1. -/
def SignMapping (N : Nat) (M : CMapping) : Prop := ∀ a b : Word, InSpace N a → InSpace N b →
  ∃ c : Comp, Ev (fun k => M k (.const a) (.const b)) [c] ∧ (∃ x : Int, c.coef = .const x ∧ x.natAbs ≤ 1) ∧ Known c

/-- All blades are blades of a space with `N` dimensions. -/
def In (N : Nat) (s : CSum) : Prop := ∀ c ∈ s, ∃ b, c.blade = .const b ∧ InSpace N b

theorem mulC_total {D D' N : Nat} (hD : D + D' < B) {M : CMapping} (hM : SignMapping N M) (n : Nat) :
    ∀ (s t : CSum) (v w : Nat), s.length + t.length ≤ n → Canonical s → Canonical t → In N s → In N t →
      Weighs D s v → Weighs D' t w → v * w < B →
      ∃ e, Ev (fun k => mulC M k s t) e ∧ Canonical e ∧ Weighs (D + D') e (v * w) := by
  induction n with
  | zero =>
    intro s t v w hl hs
    rcases s with _ | ⟨a, as⟩
    · exact absurd rfl hs.1
    · simp at hl
  | succ n ih =>
    intro s t v w hl hs ht hsN htN hv hw hB
    rcases s with _ | ⟨a, as⟩
    · exact absurd rfl hs.1
    rcases t with _ | ⟨b, bs⟩
    · exact absurd rfl ht.1
    obtain ⟨va, vs, ha, has, hv'⟩ := id hv
    obtain ⟨wb, ws, hb, hbs, hw'⟩ := id hw
    have hz : ∀ w, PW (D + D') (.const 0) w := fun w => (PW.const _ 0).mono le_rfl (by simp)
    have ka := canonical_known hs a (by simp)
    have kb := canonical_known ht b (by simp)
    by_cases h1 : a.coef = .const 0 ∧ as = []
    · refine ⟨[a], Ev.succ ⟨0, fun j _ => ?_⟩, canonical_single ka, Weighs.one (by rw [h1.1]; exact hz _)⟩
      show mulC M (j + 1) (a :: as) (b :: bs) = _
      unfold mulC; rw [if_pos h1]
    by_cases h2 : b.coef = .const 0 ∧ bs = []
    · refine ⟨[b], Ev.succ ⟨0, fun j _ => ?_⟩, canonical_single kb, Weighs.one (by rw [h2.1]; exact hz _)⟩
      show mulC M (j + 1) (a :: as) (b :: bs) = _
      unfold mulC; rw [if_neg h1, if_pos h2]
    have hab : va * wb ≤ v * w := Nat.mul_le_mul (by omega) (by omega)
    have e4 : va * wb + vs * wb + (va * ws + vs * ws) ≤ v * w := by
      calc va * wb + vs * wb + (va * ws + vs * ws) = (va + vs) * (wb + ws) := by ring
        _ ≤ v * w := Nat.mul_le_mul hv' hw'
    -- the product of the first components
    have one : ∃ e, Ev (fun k => mulC M k [a] [b]) e ∧ Canonical e ∧ Weighs (D + D') e (va * wb) := by
      by_cases h1 : a.coef = .const 0
      · refine ⟨[a], Ev.succ ⟨0, fun j _ => ?_⟩, canonical_single ka, Weighs.one (by rw [h1]; exact hz _)⟩
        show mulC M (j + 1) [a] [b] = _
        unfold mulC; rw [if_pos ⟨h1, rfl⟩]
      by_cases h2 : b.coef = .const 0
      · refine ⟨[b], Ev.succ ⟨0, fun j _ => ?_⟩, canonical_single kb, Weighs.one (by rw [h2]; exact hz _)⟩
        show mulC M (j + 1) [a] [b] = _
        unfold mulC; rw [if_neg (by simp [h1]), if_pos ⟨h2, rfl⟩]
      obtain ⟨p, ep, hp⟩ := hsN a (by simp)
      obtain ⟨q, eq, hq⟩ := htN b (by simp)
      obtain ⟨c, hc, ⟨x, ex, hx⟩, hk⟩ := hM p q hp hq
      obtain ⟨y, hy, py⟩ := PW.mul hD ha hb (by omega)
      obtain ⟨z, hz, pz⟩ := PW.mul (D' := 0) (v := 1) (by omega) py ((PW.const 0 x).mono le_rfl hx) (by omega)
      rw [mul_one, Nat.add_zero] at pz
      refine ⟨[mkComp z c.blade], Ev.succ ?_, canonical_single (mkComp_known hk).1, Weighs.one (pz.mkComp _)⟩
      refine Ev.congr (f := fun j => simp j .mul a.coef b.coef >>= fun y => M j a.blade b.blade >>= fun r => distribute j y r)
        ?_ fun j => ?_
      · refine hy.bind ?_
        rw [ep, eq]
        refine hc.bind ?_
        refine Ev.congr (f := fun j => simp j .mul y c.coef >>= fun z => some [mkComp z c.blade]) ?_ fun j => rfl
        rw [ex]
        exact hz.bind (Ev.pure _)
      · show mulC M (j + 1) [a] [b] = _
        unfold mulC
        rw [if_neg (by simp [h1]), if_neg (by simp [h2])]
    obtain ⟨e1, he1, hc1, hw1⟩ := one
    have hsa : Canonical [a] := canonical_single ka
    have hsb : Canonical [b] := canonical_single kb
    have hNa : In N [a] := fun c hc => hsN c (by simp at hc; simp [hc])
    have hNb : In N [b] := fun c hc => htN c (by simp at hc; simp [hc])
    rcases as with _ | ⟨a2, as⟩
    · rcases bs with _ | ⟨b2, bs⟩
      · exact ⟨e1, he1, hc1, hw1.le hab⟩
      · have hbc := canonical_rest ht (by simp)
        have hNbs : In N (b2 :: bs) := fun c hc => htN c (List.mem_cons_of_mem _ hc)
        obtain ⟨e2, he2, hc2, hw2⟩ := ih [a] (b2 :: bs) va ws (by simp at hl ⊢; omega) hsa hbc hNa hNbs (Weighs.one ha) hbs (by omega)
        obtain ⟨e, he, hce, -, hwe⟩ := addC_total (by omega) hc1 hc2 hw1 hw2 (by omega)
        refine ⟨e, Ev.succ ?_, hce, hwe.le (by omega)⟩
        refine Ev.congr (f := fun j => mulC M j [a] [b] >>= fun x => mulC M j [a] (b2 :: bs) >>= fun y => addC j x y)
          (he1.bind (he2.bind he)) fun j => ?_
        show mulC M (j + 1) [a] (b :: b2 :: bs) = _
        conv_lhs => unfold mulC
        rw [if_neg h1, if_neg h2]
    · have hac := canonical_rest hs (by simp)
      have hNas : In N (a2 :: as) := fun c hc => hsN c (List.mem_cons_of_mem _ hc)
      obtain ⟨e2, he2, hc2, hw2⟩ := ih (a2 :: as) [b] vs wb (by simp at hl ⊢; omega) hac hsb hNas hNb has (Weighs.one hb) (by omega)
      obtain ⟨e, he, hce, -, hwe⟩ := addC_total (by omega) hc1 hc2 hw1 hw2 (by omega)
      rcases bs with _ | ⟨b2, bs⟩
      · refine ⟨e, Ev.succ ?_, hce, hwe.le (by omega)⟩
        refine Ev.congr (f := fun j => mulC M j [a] [b] >>= fun x => mulC M j (a2 :: as) [b] >>= fun y => addC j x y)
          (he1.bind (he2.bind he)) fun j => ?_
        show mulC M (j + 1) (a :: a2 :: as) [b] = _
        conv_lhs => unfold mulC
        rw [if_neg h1, if_neg h2]
      · have hbc := canonical_rest ht (by simp)
        have hNbs : In N (b2 :: bs) := fun c hc => htN c (List.mem_cons_of_mem _ hc)
        obtain ⟨e3, he3, hc3, hw3⟩ := ih [a] (b2 :: bs) va ws (by simp at hl ⊢; omega) hsa hbc hNa hNbs (Weighs.one ha) hbs (by omega)
        obtain ⟨e4', he4, hc4, hw4⟩ := ih (a2 :: as) (b2 :: bs) vs ws (by simp at hl ⊢; omega) hac hbc hNas hNbs has hbs (by omega)
        obtain ⟨f, hf, hcf, -, hwf⟩ := addC_total (by omega) hc3 hc4 hw3 hw4 (by omega)
        obtain ⟨g, hg, hcg, -, hwg⟩ := addC_total (by omega) hce hcf hwe hwf (by omega)
        refine ⟨g, Ev.succ ?_, hcg, hwg.le (by omega)⟩
        refine Ev.congr (f := fun j => mulC M j [a] [b] >>= fun x => mulC M j (a2 :: as) [b] >>= fun y => addC j x y >>= fun u =>
          mulC M j [a] (b2 :: bs) >>= fun x => mulC M j (a2 :: as) (b2 :: bs) >>= fun y => addC j x y >>= fun v => addC j u v)
          (he1.bind (he2.bind (he.bind (he3.bind (he4.bind (hf.bind hg)))))) fun j => ?_
        show mulC M (j + 1) (a :: a2 :: as) (b :: b2 :: bs) = _
        conv_lhs => unfold mulC
        rw [if_neg h1, if_neg h2]

end GATL.Total
