import Verif.Proofs.Copy

/-!
# Copies between multivector types

**C29** (`trivial_copy`), **C30** (`checked_trivial_copy`), **C54** (construction from another type).
`Verif/Spec/Copy.lean` says what the components of an object are, when a component has been copied, and which
components are dropped.
-/

namespace GATL.Props

open Expr Spec

variable {τ : Types} {ρ : Env}

/-- The components of the input in the examples: `3 e1 + 2 e2 - e3`, where the 2 is part of the type. -/
def sampleInput : CSum := [⟨.stored, .const 1⟩, ⟨.const 2, .const 2⟩, ⟨.stored, .const 4⟩]

/-- A type with stored components for `e1`, `e2`, `e3` and `e1 ∧ e2`. -/
def sampleResult : CSum :=
  [⟨.stored, .const 1⟩, ⟨.stored, .const 2⟩, ⟨.stored, .const 4⟩, ⟨.stored, .const 3⟩]

/-- A type with components for `e1` and `e2` only. -/
def sampleSmall : CSum := [⟨.stored, .const 1⟩, ⟨.stored, .const 2⟩]

theorem sampleInput_ordered : Ordered sampleInput :=
  .inr ⟨by decide, by simp [sampleInput], by unfold sampleInput; decide +kernel⟩

theorem sampleResult_ordered : Ordered sampleResult :=
  .inr ⟨by decide, by simp [sampleResult], by unfold sampleResult; decide +kernel⟩

theorem sampleSmall_ordered : Ordered sampleSmall :=
  .inr ⟨by decide, by simp [sampleSmall], by unfold sampleSmall; decide +kernel⟩

theorem sampleInput_reads : ReadsEach ρ sampleInput [3, -1] [] [(3, .const 1), (2, .const 2), (-1, .const 4)] :=
  .cons (vs := [3]) (ws := []) (.stored 3) (.const 1)
    (.cons (vs := []) (ws := []) (.symbolic _ _ rfl (by constructor) (by simp [Denotes, den])) (.const 2)
      (.cons (vs := [-1]) (ws := []) (.stored (-1)) (.const 4) .nil))

/-! ## C29 -/

/-- **C29** A copy that compiles finishes, every component of the result is the input's component with the
same basis blade or 0 if the input has none, and the result is the same multivector as the input.

Missing: copies of numbers that are not integers to an integer type (`C29_narrowing_is_false`). -/
theorem C29_trivial_copy_partial {input : Object} {floats : Bool} {type : CSum} {L : List (ℝ × TBlade)}
    {r : CopyResult} (hI : Ordered input.expr) (hR : Ordered type)
    (hL : ReadsEach ρ input.expr input.values input.bitsets L)
    (hq : ∀ c ∈ input.expr, NoIntQuotient τ c.coef) (hf : floats = true ∨ Integral L)
    (h : trivialCopy τ ρ input floats type = some r) :
    ∃ vs ws L', r = .done vs ws ∧ ReadsEach ρ type vs ws L' ∧ List.Forall₂ (Copied input.expr L) type L' ∧
      sumOf L' = sumOf L := by
  unfold trivialCopy at h
  split_ifs at h with he
  · cases h
    obtain ⟨-, rfl⟩ := he
    exact ⟨_, _, L, rfl, hL, copied_self hL, rfl⟩
  · obtain ⟨h1, h2, h3, h4⟩ := copy_ok hI hR hL hq hf le_rfl h
    cases r with
    | undefined => exact absurd rfl h1
    | threw vs ws =>
      obtain ⟨p, hp, h5⟩ := h2.mp ⟨vs, ws, rfl⟩
      rw [h4 rfl p hp, abs_zero] at h5
      exact absurd h5 (lt_irrefl _)
    | done vs ws =>
      obtain ⟨L', h5, h6, h7⟩ := h3 vs ws rfl
      refine ⟨vs, ws, L', rfl, h5, h6, ?_⟩
      have : sumOf ((dropped input.expr L type).map Prod.snd) = 0 := by
        unfold sumOf
        apply List.sum_eq_zero
        intro m hm
        rw [List.map_map, List.mem_map] at hm
        obtain ⟨p, hp, rfl⟩ := hm
        simp [h4 rfl p hp]
      rw [h7, this, add_zero]

/-- **C29** The copy compiles if every basis blade of the input occurs in the result type, with the same
constant coefficient or with a stored one, and the other components of the result type are stored. -/
theorem C29_compiles {input : Object} {floats : Bool} {type : CSum} (hI : Ordered input.expr) (hR : Ordered type)
    (uI : Usable input.expr) (uR : Usable type)
    (hcom : ∀ i ∈ input.expr, ∀ r ∈ type, i.blade = r.blade → Assignable i.coef r.coef)
    (hext : type = [Comp.zero] ∨ ∀ r ∈ type, ¬ HasBlade input.expr r → r.coef = .stored)
    (hall : input.expr = [Comp.zero] ∨ ∀ i ∈ input.expr, HasBlade type i) :
    ∃ r, trivialCopy τ ρ input floats type = some r := by
  unfold trivialCopy
  split_ifs
  · exact ⟨_, rfl⟩
  · exact copy_some hI hR uI uR hcom hext (hall.imp_right fun h i hi hn => absurd (h i hi) hn)

/-- Both theorems apply: `3 e1 + 2 e2 - e3` as a multivector with four stored components. -/
example : ∃ r, trivialCopy τ ρ ⟨true, sampleInput, [3, -1], []⟩ true sampleResult = some r ∧
    ∃ vs ws L', r = .done vs ws ∧ ReadsEach ρ sampleResult vs ws L' ∧
      List.Forall₂ (Copied sampleInput [(3, .const 1), (2, .const 2), (-1, .const 4)]) sampleResult L' ∧
      sumOf L' = sumOf [(3, .const 1), (2, .const 2), (-1, .const 4)] := by
  obtain ⟨r, h⟩ := C29_compiles (τ := τ) (ρ := ρ) (input := ⟨true, sampleInput, [3, -1], []⟩) (floats := true)
    sampleInput_ordered sampleResult_ordered
    (by simp only [Usable, sampleInput, List.forall_mem_cons]; refine ⟨⟨?_, ?_⟩, ⟨?_, ?_⟩, ⟨?_, ?_⟩, by simp⟩ <;>
      first | (rintro _ ⟨⟩; decide +kernel) | rintro _ _ ⟨⟩)
    (by simp only [Usable, sampleResult, List.forall_mem_cons]
        refine ⟨⟨?_, ?_⟩, ⟨?_, ?_⟩, ⟨?_, ?_⟩, ⟨?_, ?_⟩, by simp⟩ <;>
        first | (rintro _ ⟨⟩; decide +kernel) | rintro _ _ ⟨⟩)
    (by simp [sampleInput, sampleResult, Assignable, isConstant])
    (.inr (by simp [sampleInput, sampleResult]))
    (.inr (by simp [sampleInput, sampleResult, HasBlade]))
  exact ⟨r, h, C29_trivial_copy_partial sampleInput_ordered sampleResult_ordered sampleInput_reads
    (by simp [sampleInput, NoIntQuotient]) (.inl rfl) h⟩

/-- **C29** is false as stated: copying `2.5 e1` to a multivector with integer coefficients compiles and
makes it `2 e1`. -/
theorem C29_narrowing_is_false :
    ∃ (input : Object) (type : CSum), Ordered input.expr ∧ Ordered type ∧
      ReadsEach ρ input.expr input.values input.bitsets [(5 / 2, .const 1)] ∧
      trivialCopy τ ρ input false type = some (.done [2] []) ∧ ReadsEach ρ type [2] [] [(2, .const 1)] ∧
      ¬ List.Forall₂ (Copied input.expr [(5 / 2, .const 1)]) type [(2, .const 1)] := by
  have ho : Ordered [⟨.stored, .const 1⟩] := .inr ⟨by decide, by simp, by simp⟩
  have hr : ∀ x : ℝ, ReadsEach ρ [⟨.stored, .const 1⟩] [x] [] [(x, .const 1)] := fun x =>
    .cons (vs := [x]) (ws := []) (.stored x) (.const 1) .nil
  have ht : truncate (5 / 2) = 2 := by
    unfold truncate
    rw [if_pos (by norm_num)]
    norm_num [Int.floor_eq_iff]
  have hlt : Blade.lt (.const 1#64) (.const 1#64) = false := by decide +kernel
  refine ⟨⟨true, [⟨.stored, .const 1⟩], [5 / 2], []⟩, [⟨.stored, .const 1⟩], ho, ho, hr _, ?_, hr _, ?_⟩
  · unfold trivialCopy
    simp [copyDepth, copyFrom, hlt, assign, assignCoef, convertTo, ht]
  · rw [List.forall₂_cons]
    rintro ⟨⟨p, hp, -, h⟩ | ⟨h, -⟩, -⟩
    · simp at hp
      rw [hp] at h
      norm_num at h
    · exact h ⟨_, List.mem_singleton.mpr rfl, rfl⟩

/-! ## C30 -/

theorem tolerance {f : Bool} {tol x : ℝ} (ht : 0 ≤ tol) (h : f = true ∨ ∃ z : ℤ, x = z) :
    convertTo f tol < |x| ↔ tol < |x| := by
  unfold convertTo
  cases f with
  | true => rw [if_pos rfl]
  | false =>
    rcases h with h | ⟨z, rfl⟩
    · cases h
    · unfold truncate
      rw [if_neg (by decide), if_pos ht, ← Int.cast_abs, Int.cast_lt, Int.floor_lt]

/-- **C30** A checked copy that compiles throws exactly if the input has a component whose basis blade the
result type lacks and whose absolute value exceeds the tolerance.

Missing: as for `C29_trivial_copy_partial`, non-integers that are copied to an integer type. -/
theorem C30_throws_partial {input : Object} {floats : Bool} {type : CSum} {L : List (ℝ × TBlade)} {r : CopyResult}
    {tol : ℝ} (hI : Ordered input.expr) (hR : Ordered type)
    (hL : ReadsEach ρ input.expr input.values input.bitsets L)
    (hq : ∀ c ∈ input.expr, NoIntQuotient τ c.coef) (hf : floats = true ∨ Integral L)
    (hi : input.floats = true ∨ Integral L) (ht : 0 ≤ tol)
    (h : checkedTrivialCopy τ ρ input floats type tol = some r) :
    r ≠ .undefined ∧
      ((∃ vs ws, r = .threw vs ws) ↔ ∃ p ∈ dropped input.expr L type, tol < |p.2.1|) := by
  unfold checkedTrivialCopy at h
  split_ifs at h with he
  · cases h
    obtain ⟨-, rfl⟩ := he
    refine ⟨by simp, by simp, ?_⟩
    rintro ⟨p, hp, -⟩
    obtain ⟨h1, h2⟩ := List.mem_filter.mp hp
    have h3 : ¬ HasBlade input.expr p.1 := by simpa using h2
    exact (h3 ⟨p.1, (List.of_mem_zip h1).1, rfl⟩).elim
  · have ht' : 0 ≤ convertTo input.floats tol := by
      unfold convertTo truncate
      split_ifs
      · exact ht
      · exact_mod_cast Int.floor_nonneg.mpr ht
    obtain ⟨h1, h2, -, -⟩ := copy_ok hI hR hL hq hf ht' h
    refine ⟨h1, h2.trans (exists_congr fun p => and_congr_right fun hp => ?_)⟩
    exact tolerance ht (hi.imp_right fun h => h p.2 (List.of_mem_zip (List.mem_filter.mp hp).1).2)

/-- **C30** If it does not throw, every component of the result is the input's component with the same
basis blade or 0 if the input has none, and the result differs from the input by the dropped components. -/
theorem C30_result_partial {input : Object} {floats : Bool} {type : CSum} {L : List (ℝ × TBlade)}
    {tol : ℝ} {vs : List ℝ} {ws : List Word} (hI : Ordered input.expr) (hR : Ordered type)
    (hL : ReadsEach ρ input.expr input.values input.bitsets L)
    (hq : ∀ c ∈ input.expr, NoIntQuotient τ c.coef) (hf : floats = true ∨ Integral L) (ht : 0 ≤ tol)
    (h : checkedTrivialCopy τ ρ input floats type tol = some (.done vs ws)) :
    ∃ L', ReadsEach ρ type vs ws L' ∧ List.Forall₂ (Copied input.expr L) type L' ∧
      sumOf L = sumOf L' + sumOf ((dropped input.expr L type).map Prod.snd) := by
  unfold checkedTrivialCopy at h
  split_ifs at h with he
  · cases h
    obtain ⟨-, he⟩ := he
    subst he
    refine ⟨L, hL, copied_self hL, ?_⟩
    have : dropped input.expr L input.expr = [] := by
      unfold dropped
      rw [List.filter_eq_nil_iff]
      intro p hp hn
      have h3 : ¬ HasBlade input.expr p.1 := by simpa using hn
      exact h3 ⟨p.1, (List.of_mem_zip hp).1, rfl⟩
    rw [this]; simp [sumOf]
  · have ht' : 0 ≤ convertTo input.floats tol := by
      unfold convertTo truncate
      split_ifs
      · exact ht
      · exact_mod_cast Int.floor_nonneg.mpr ht
    exact (copy_ok hI hR hL hq hf ht' h).2.2.1 vs ws rfl

/-- **C30** Where `trivial_copy` compiles, `checked_trivial_copy` does the same. -/
theorem C30_unchecked {input : Object} {floats : Bool} {type : CSum} {r : CopyResult} {tol : ℝ}
    (h : trivialCopy τ ρ input floats type = some r) :
    checkedTrivialCopy τ ρ input floats type tol = some r := by
  unfold trivialCopy at h
  unfold checkedTrivialCopy
  split_ifs at h ⊢ with he
  · exact h
  · exact copy_same _ _ _ _ _ _ h

/-- **C30** The checked copy compiles also if the result type lacks basis blades of the input, as long as
their components are stored. -/
theorem C30_compiles {input : Object} {floats : Bool} {type : CSum} {tol : ℝ} (hI : Ordered input.expr)
    (hR : Ordered type) (uI : Usable input.expr) (uR : Usable type)
    (hcom : ∀ i ∈ input.expr, ∀ r ∈ type, i.blade = r.blade → Assignable i.coef r.coef)
    (hext : type = [Comp.zero] ∨ ∀ r ∈ type, ¬ HasBlade input.expr r → r.coef = .stored)
    (hdrop : input.expr = [Comp.zero] ∨ ∀ i ∈ input.expr, ¬ HasBlade type i → i.coef = .stored) :
    ∃ r, checkedTrivialCopy τ ρ input floats type tol = some r := by
  unfold checkedTrivialCopy
  split_ifs
  · exact ⟨_, rfl⟩
  · exact copy_some hI hR uI uR hcom hext (hdrop.imp_right fun h i hi hn => ⟨rfl, h i hi hn⟩)

/-- The theorems apply: copying `3 e1 + 2 e2 - e3` to a type without `e3` throws with the tolerance 1/2. -/
theorem sample_throws : ∃ vs ws, checkedTrivialCopy τ ρ ⟨true, sampleInput, [3, -1], []⟩ true sampleSmall (1 / 2)
    = some (.threw vs ws) := by
  obtain ⟨r, h⟩ := C30_compiles (τ := τ) (ρ := ρ) (input := ⟨true, sampleInput, [3, -1], []⟩) (floats := true)
    (tol := 1 / 2) sampleInput_ordered sampleSmall_ordered
    (by simp only [Usable, sampleInput, List.forall_mem_cons]; refine ⟨⟨?_, ?_⟩, ⟨?_, ?_⟩, ⟨?_, ?_⟩, by simp⟩ <;>
      first | (rintro _ ⟨⟩; decide +kernel) | rintro _ _ ⟨⟩)
    (by simp only [Usable, sampleSmall, List.forall_mem_cons]
        refine ⟨⟨?_, ?_⟩, ⟨?_, ?_⟩, by simp⟩ <;>
        first | (rintro _ ⟨⟩; decide +kernel) | rintro _ _ ⟨⟩)
    (by simp [sampleInput, sampleSmall, Assignable, isConstant])
    (.inr (by simp [sampleInput, sampleSmall, HasBlade]))
    (.inr (by simp [sampleInput, sampleSmall, HasBlade]))
  obtain ⟨-, h1⟩ := C30_throws_partial sampleInput_ordered sampleSmall_ordered sampleInput_reads
    (by simp [sampleInput, NoIntQuotient]) (.inl rfl) (.inl rfl) (by norm_num) h
  obtain ⟨vs, ws, rfl⟩ := h1.mpr ⟨(⟨.stored, .const 4⟩, (-1, .const 4)), by
    simp [dropped, sampleInput, sampleSmall, HasBlade], by norm_num⟩
  exact ⟨vs, ws, h⟩

/-! ## C54 -/

/-- **C54** Constructing a multivector from a multivector of another type gives an object whose components
are those of the input up to dropped components within the tolerance.

Missing: if a dropped component exceeds the tolerance, the program is terminated and nothing can be caught
(`C54_catch_is_false`). -/
theorem C54_construct_partial {input : Object} {floats : Bool} {type : CSum} {L : List (ℝ × TBlade)}
    {r : ConstructResult} {tol : ℝ} (hI : Ordered input.expr) (hR : Ordered type)
    (hL : ReadsEach ρ input.expr input.values input.bitsets L)
    (hq : ∀ c ∈ input.expr, NoIntQuotient τ c.coef) (hf : floats = true ∨ Integral L)
    (hi : input.floats = true ∨ Integral L) (ht : 0 ≤ tol)
    (h : convertConstruct τ ρ input floats type tol = some r) :
    (r = .terminated ↔ ∃ p ∈ dropped input.expr L type, tol < |p.2.1|) ∧
      (r ≠ .terminated → ∃ vs ws L', r = .constructed vs ws ∧ ReadsEach ρ type vs ws L' ∧
        List.Forall₂ (Copied input.expr L) type L' ∧
        sumOf L = sumOf L' + sumOf ((dropped input.expr L type).map Prod.snd)) := by
  obtain ⟨c, hc, rfl⟩ := Option.map_eq_some_iff.mp h
  obtain ⟨h1, h2⟩ := C30_throws_partial hI hR hL hq hf hi ht hc
  cases c with
  | undefined => exact absurd rfl h1
  | threw vs ws => exact ⟨⟨fun _ => h2.mp ⟨vs, ws, rfl⟩, fun _ => rfl⟩, fun h => absurd rfl h⟩
  | done vs ws =>
    refine ⟨⟨fun h => (by cases h), fun h => ?_⟩, fun _ => ?_⟩
    · obtain ⟨vs', ws', h3⟩ := h2.mpr h
      cases h3
    · obtain ⟨L', h3⟩ := C30_result_partial hI hR hL hq hf ht hc
      exact ⟨vs, ws, L', rfl, h3⟩

/-- **C54** is false as stated: constructing a multivector with components for `e1` and `e2` from
`3 e1 + 2 e2 - e3` terminates the program. -/
theorem C54_catch_is_false :
    convertConstruct τ ρ ⟨true, sampleInput, [3, -1], []⟩ true sampleSmall (1 / 2) = some .terminated := by
  obtain ⟨vs, ws, h⟩ := sample_throws (τ := τ) (ρ := ρ)
  unfold convertConstruct
  rw [h]
  rfl

end GATL.Props
