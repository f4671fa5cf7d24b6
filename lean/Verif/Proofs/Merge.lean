import Mathlib.Data.List.Chain

/-!
# Merging

The way in which sums and products are merged, with any order of the items: it ends although the order need not
be transitive.
-/

namespace GATL

variable {α : Type} {lt : α → α → Bool} {comb : α → α → Option (List α)}

/-- The items `X` and the items `Y` are merged into `Z`; `comb` tells what becomes of two like items. -/
inductive Merge (lt : α → α → Bool) (comb : α → α → Option (List α)) : List α → List α → List α → Prop
  | nilL (Y) : Merge lt comb [] Y Y
  | nilR (X) : Merge lt comb X [] X
  | comb {a as b bs E Z W} (h : comb a b = some E) (h1 : Merge lt comb as bs Z) (h2 : Merge lt comb E Z W) :
      Merge lt comb (a :: as) (b :: bs) W
  | lt1 {a b bs} (h : comb a b = none) (hl : lt a b = true) : Merge lt comb [a] (b :: bs) (a :: b :: bs)
  | lt2 {a as b bs Z W} (h : comb a b = none) (hl : lt a b = true) (hn : as ≠ [])
      (h1 : Merge lt comb as (b :: bs) Z) (h2 : Merge lt comb [a] Z W) : Merge lt comb (a :: as) (b :: bs) W
  | gt1 {a as b} (h : comb a b = none) (hl : lt a b = false) (hg : lt b a = true) :
      Merge lt comb (a :: as) [b] (b :: a :: as)
  | gt2 {a as b bs Z W} (h : comb a b = none) (hl : lt a b = false) (hg : lt b a = true) (hn : bs ≠ [])
      (h1 : Merge lt comb (a :: as) bs Z) (h2 : Merge lt comb [b] Z W) : Merge lt comb (a :: as) (b :: bs) W

/-- Two items that stay in this order. -/
def Adj (lt : α → α → Bool) (comb : α → α → Option (List α)) (a b : α) : Prop := comb a b = none ∧ lt a b = true

/-- What is needed of the order and of `comb`. -/
structure MergeLaws (lt : α → α → Bool) (comb : α → α → Option (List α)) : Prop where
  small : ∀ {a b E}, comb a b = some E → E.length ≤ 1
  symm : ∀ {a b}, comb a b = none → comb b a = none
  total : ∀ {a b}, comb a b = none → lt a b = false → lt b a = true

section
variable (h : MergeLaws lt comb) {N : Nat}
  (ih : ∀ X Y : List α, X.length + Y.length < N → ∃ Z, Merge lt comb X Y Z ∧ Z.length ≤ X.length + Y.length)
include h ih

theorem insert_chain (S : List α) (T : List α) (a x : α) (hS : (S ++ [a]).IsChain (Adj lt comb)) (hx : Adj lt comb x a)
    (hN : S.length + T.length + 2 ≤ N) :
    (∃ W, Merge lt comb [x] (S ++ a :: T) W ∧ W.length ≤ S.length + T.length + 1) ∨
    ∃ S1 S2, S ++ [a] = S1 ++ S2 ∧ S2 ≠ [] ∧ Merge lt comb [x] (S ++ a :: T) (S1 ++ x :: S2 ++ T) ∧
      (S1 ++ x :: S2).IsChain (Adj lt comb) := by
  induction S with
  | nil =>
    exact .inr ⟨[], [a], rfl, by simp, .lt1 hx.1 hx.2, by simpa using hx⟩
  | cons z S IH =>
    simp only [List.cons_append, List.length_cons] at hS hN ⊢
    cases hc : comb x z with
    | some E =>
      obtain ⟨W, h1, h2⟩ := ih E (S ++ a :: T) (by have := h.small hc; simp; omega)
      exact .inl ⟨W, .comb hc (.nilL _) h1, by have := h.small hc; simp at h2; omega⟩
    | none =>
      cases hl : lt x z with
      | true => exact .inr ⟨[], z :: (S ++ [a]), rfl, by simp, by simpa using .lt1 hc hl, hS.cons_cons ⟨hc, hl⟩⟩
      | false =>
        have hg := h.total hc hl
        have hS' := hS.tail
        simp only [List.tail_cons] at hS'
        rcases IH hS' (by omega) with ⟨W, h1, h2⟩ | ⟨S1, S2, e, hn, h1, h2⟩
        · obtain ⟨W', h3, h4⟩ := ih [z] W (by simp; omega)
          exact .inl ⟨W', .gt2 hc hl hg (by simp) h1 h3, by simp at h4; omega⟩
        · refine .inr ⟨z :: S1, S2, by simp [e], hn, ?_, ?_⟩
          · refine .gt2 hc hl hg (by simp) h1 ?_
            cases S1 with
            | nil => exact .lt1 (h.symm hc) hg
            | cons s S1 =>
              rw [e] at hS
              have := (List.isChain_cons_cons.1 hS).1
              exact .lt1 this.1 this.2
          · cases S1 with
            | nil => exact h2.cons_cons ⟨h.symm hc, hg⟩
            | cons s S1 =>
              rw [e] at hS
              exact h2.cons_cons (List.isChain_cons_cons.1 hS).1

theorem insert_total (a : α) (X : List α) (hN : X.length + 1 ≤ N) :
    (∃ W, Merge lt comb [a] X W ∧ W.length ≤ X.length) ∨
    ∃ S T, Merge lt comb [a] X (S ++ a :: T) ∧ S.length + T.length = X.length ∧
      (S ++ [a]).IsChain (Adj lt comb) := by
  induction X with
  | nil => exact .inr ⟨[], [], .nilR _, rfl, by simp⟩
  | cons x xs IH =>
    simp only [List.length_cons] at hN ⊢
    cases hc : comb a x with
    | some E =>
      obtain ⟨W, h1, h2⟩ := ih E xs (by have := h.small hc; omega)
      exact .inl ⟨W, .comb hc (.nilL _) h1, by have := h.small hc; omega⟩
    | none =>
      cases hl : lt a x with
      | true => exact .inr ⟨[], x :: xs, .lt1 hc hl, by simp, by simp⟩
      | false =>
        have hg := h.total hc hl
        cases xs with
        | nil => exact .inr ⟨[x], [], .gt1 hc hl hg, rfl, by simpa using ⟨h.symm hc, hg⟩⟩
        | cons y ys =>
          rcases IH (by omega) with ⟨W, h1, h2⟩ | ⟨S, T, h1, h2, h3⟩
          · obtain ⟨W', h4, h5⟩ := ih [x] W (by simp only [List.length_cons, List.length_nil] at *; omega)
            exact .inl ⟨W', .gt2 hc hl hg (by simp) h1 h4, by simp only [List.length_cons, List.length_nil] at *; omega⟩
          · simp only [List.length_cons] at h2 hN ⊢
            rcases insert_chain h ih S T a x h3 ⟨h.symm hc, hg⟩ (by omega) with
              ⟨W, h4, h5⟩ | ⟨S1, S2, e, hn, h4, h5⟩
            · exact .inl ⟨W, .gt2 hc hl hg (by simp) h1 h4, by omega⟩
            · obtain ⟨S3, c, rfl⟩ : ∃ S3 c, S2 = S3 ++ [c] := ⟨S2.dropLast, S2.getLast hn, (List.dropLast_append_getLast hn).symm⟩
              rw [← List.append_assoc] at e
              obtain ⟨e1, e2⟩ := List.append_inj' e rfl
              obtain rfl : a = c := by simpa using e2
              refine .inr ⟨S1 ++ x :: S3, T, ?_, ?_, by simpa using h5⟩
              · refine .gt2 hc hl hg (by simp) h1 ?_
                simpa using h4
              · rw [e1] at h2
                simp at h2 ⊢
                omega

end

/-- Merging ends, and does not make more items. -/
theorem merge_total (h : MergeLaws lt comb) (X Y : List α) :
    ∃ Z, Merge lt comb X Y Z ∧ Z.length ≤ X.length + Y.length := by
  obtain ⟨N, hN⟩ : ∃ N, N = X.length + Y.length := ⟨_, rfl⟩
  induction N using Nat.strong_induction_on generalizing X Y with
  | _ N IH =>
    have ih : ∀ X Y : List α, X.length + Y.length < N → ∃ Z, Merge lt comb X Y Z ∧ Z.length ≤ X.length + Y.length :=
      fun X Y h => IH _ h X Y rfl
    have ins : ∀ a X, X.length + 1 ≤ N → ∃ W, Merge lt comb [a] X W ∧ W.length ≤ X.length + 1 := by
      intro a X hX
      rcases insert_total h ih a X hX with ⟨W, h1, h2⟩ | ⟨S, T, h1, h2, -⟩
      · exact ⟨W, h1, by omega⟩
      · exact ⟨_, h1, by simp; omega⟩
    cases X with
    | nil => exact ⟨Y, .nilL _, by simp⟩
    | cons a as =>
      cases Y with
      | nil => exact ⟨a :: as, .nilR _, by simp⟩
      | cons b bs =>
        simp only [List.length_cons] at hN ⊢
        cases hc : comb a b with
        | some E =>
          obtain ⟨Z, h1, h2⟩ := ih as bs (by omega)
          have := h.small hc
          obtain ⟨W, h3, h4⟩ := ih E Z (by omega)
          exact ⟨W, .comb hc h1 h3, by omega⟩
        | none =>
          cases hl : lt a b with
          | true =>
            cases as with
            | nil => exact ⟨_, .lt1 hc hl, by simp; omega⟩
            | cons a' as =>
              obtain ⟨Z, h1, h2⟩ := ih (a' :: as) (b :: bs) (by simp only [List.length_cons] at hN ⊢; omega)
              simp only [List.length_cons] at h2 hN ⊢
              obtain ⟨W, h3, h4⟩ := ins a Z (by omega)
              exact ⟨W, .lt2 hc hl (by simp) h1 h3, by omega⟩
          | false =>
            have hg := h.total hc hl
            cases bs with
            | nil => exact ⟨_, .gt1 hc hl hg, by simp⟩
            | cons b' bs =>
              obtain ⟨Z, h1, h2⟩ := ih (a :: as) (b' :: bs) (by simp only [List.length_cons] at hN ⊢; omega)
              simp only [List.length_cons] at h2 hN ⊢
              obtain ⟨W, h3, h4⟩ := ins b Z (by omega)
              exact ⟨W, .gt2 hc hl hg (by simp) h1 h3, by omega⟩

end GATL
