/-!
# Bit tricks and integer helpers

Model of `core/constexpr.hpp` and of the run-time part of `reordering_sign` in
`core/expression.hpp`.  Citations are relative to `/repo/cpp/include/gatl/ga`.

`bitset_t` is `std::uint64_t` in the default configuration
(`core.hpp:67-69`, `core.hpp:87`), hence `BitVec 64`.
`default_integral_t` is `std::int64_t` (`core.hpp:63-65`): integer helpers work on `Int` and
return `none` where the C++ computation would overflow (undefined behaviour) or recurse forever.
-/

namespace GATL

/-- `bitset_t`, `core.hpp:87` (default `GA_MAX_BASIS_VECTOR_INDEX = 63`, `core.hpp:67-69`). -/
abbrev Word := BitVec 64

/-- `_ones_impl_a`, `core/constexpr.hpp:61-63`. -/
def onesA (b : Word) : Word :=
  (b &&& 0x5555555555555555#64) + ((b >>> 1) &&& 0x5555555555555555#64)

/-- `_ones_impl_b`, `core/constexpr.hpp:65-67`. -/
def onesB (a : Word) : Word :=
  (a &&& 0x3333333333333333#64) + ((a >>> 2) &&& 0x3333333333333333#64)

/-- `_ones_impl_c`, `core/constexpr.hpp:69-71`. -/
def onesC (b : Word) : Word :=
  (b &&& 0x0F0F0F0F0F0F0F0F#64) + ((b >>> 4) &&& 0x0F0F0F0F0F0F0F0F#64)

/-- `ones`, `core/constexpr.hpp:73-75`.  The result is at most 64, so the conversion to
`default_integral_t` is value preserving and we return a natural number. -/
def ones (x : Word) : Nat :=
  ((onesC (onesB (onesA x)) * 0x0101010101010101#64) >>> 56).toNat

theorem ushiftRight_one_lt {x : Word} (h : x ≠ 0) : (x >>> 1).toNat < x.toNat := by
  have hx : x.toNat ≠ 0 := fun h0 => h (BitVec.eq_of_toNat_eq (by simpa using h0))
  rw [BitVec.toNat_ushiftRight, Nat.shiftRight_eq_div_pow]
  omega

/-- `swaps_count`, `core/constexpr.hpp:78-80`. -/
def swapsCount (lhs rhs : Word) : Nat :=
  if _h : lhs = 0 then 0 else ones (lhs &&& rhs) + swapsCount (lhs >>> 1) rhs
termination_by lhs.toNat
decreasing_by exact ushiftRight_one_lt _h

/-- The `while` loop of `function<reordering_sign,...>::eval`, `core/expression.hpp:464-488`:
`changes` accumulates while `lhs` is shifted out. -/
def reorderingLoop (lhs rhs : Word) (changes : Nat) : Nat :=
  if _h : lhs = 0 then changes
  else reorderingLoop (lhs >>> 1) rhs (changes + ones (lhs &&& rhs))
termination_by lhs.toNat
decreasing_by exact ushiftRight_one_lt _h

/-- Run-time `reordering_sign`, `core/expression.hpp:464-488`: `lhs >>= 1`, loop, then
`(changes & 1) == 0 ? 1 : -1`. -/
def reorderingSignRuntime (lhs rhs : Word) : Int :=
  if reorderingLoop (lhs >>> 1) rhs 0 % 2 = 0 then 1 else -1

/-- Compile-time `reordering_sign_t` of constant bitsets, `core/expression.hpp:464-488`:
parity of `swaps_count(LeftBitset >> 1, RightBitset)`; the specialisations for a zero bitset on
either side give `1`, which the general formula gives as well. -/
def reorderingSign (lhs rhs : Word) : Int :=
  if swapsCount (lhs >>> 1) rhs % 2 = 0 then 1 else -1

/-- `_leftmost_set_bit_impl`, `core/constexpr.hpp:83-85`.  The recursion on `n` (doubling until it
equals 64) is given fuel; `leftmostSetBit` supplies more than it needs. -/
def leftmostLoop : Nat → Word → Nat → Option Word
  | 0, _, _ => none
  | fuel + 1, arg, n =>
    if n ≠ 64 then leftmostLoop fuel (arg ||| (arg >>> 1)) (n <<< 1)
    else some ((arg >>> 1) + 1)

/-- `leftmost_set_bit`, `core/constexpr.hpp:87-89`. -/
def leftmostSetBit (arg : Word) : Word :=
  if arg ≠ 0 then (leftmostLoop 64 arg 1).getD 0 else 0

/-- `rightmost_set_bit`, `core/constexpr.hpp:92-94`: `arg & -signed(arg)`.  Negating
`INT64_MIN` is signed overflow, hence `none` (undefined behaviour) for the word `2^63`. -/
def rightmostSetBit (arg : Word) : Option Word :=
  if arg = 0x8000000000000000#64 then none else some (arg &&& -arg)

/-- `set_bit_index`, `core/constexpr.hpp:97-99`. -/
def setBitIndex (arg : Word) : Nat := ones (arg - 1)

/-- `first_combination`, `core/constexpr.hpp:102-104`; shifting by 64 or more is undefined. -/
def firstCombination (k : Nat) : Option Word :=
  if k < 64 then some (((1 : Word) <<< k) - 1) else none

/-- `next_combination` with its two helpers, `core/constexpr.hpp:107-117`. -/
def nextCombination (curr mask : Word) : Option Word := do
  let r ← rightmostSetBit curr
  let temp := (r + curr) &&& mask
  if temp ≠ 0 then some (temp + (((temp ^^^ curr) / r) >>> 2)) else some 0

/-- `safe_rshift` on `bitset_t`, `core/constexpr.hpp:144-146`. -/
def safeRshift (lhs : Word) (rhs : Nat) : Word :=
  if 64 > rhs then lhs >>> rhs else 0

/-! ### Integer helpers -/

/-- Value of a signed 64-bit computation: `none` is signed overflow (undefined behaviour). -/
def i64 (x : Int) : Option Int :=
  if -(2 ^ 63) ≤ x ∧ x < 2 ^ 63 then some x else none

/-- `iabs`, `core/constexpr.hpp:32-34`. -/
def iabs (x : Int) : Option Int := if x ≥ 0 then some x else i64 (-x)

/-- `sign`, `core/constexpr.hpp:42-44`. -/
def isign (x : Int) : Int := if x > 0 then 1 else if x < 0 then -1 else 0

/-- The recursion of `gcd`, `core/constexpr.hpp:37-39`, with fuel; C++ `%` truncates (`Int.tmod`).
Overflow of `INT64_MIN % -1` is not modelled (the callers pass absolute values). -/
def igcdLoop : Nat → Int → Int → Int
  | 0, a, _ => a
  | fuel + 1, a, b => if b = 0 then a else igcdLoop fuel b (a.tmod b)

/-- `gcd`, `core/constexpr.hpp:37-39`: the second argument shrinks in absolute value at each call,
so the fuel is never exhausted. -/
def igcd (a b : Int) : Int := igcdLoop (b.natAbs + 1) a b

/-- `ipow`, `core/constexpr.hpp:47-49`, with fuel for the recursion: a negative exponent recurses
forever (`-1 >> 1 = -1`), which shows up as `none` for every fuel; so does signed overflow. -/
def ipow : Nat → Int → Int → Option Int
  | 0, _, _ => none
  | fuel + 1, base, e =>
    if e = 1 then some base
    else if e = 0 then some 1
    else do
      let h₁ ← ipow fuel base (e >>> (1 : Nat))
      let h₂ ← ipow fuel base (e >>> (1 : Nat))
      let h ← i64 (h₁ * h₂)
      let r ← ipow fuel base (e.tmod 2)
      i64 (h * r)

/-- `_isqrt_impl`, `core/constexpr.hpp:52-54`, with fuel for the recursion; overflow is `none`. -/
def isqrtLoop : Nat → Int → Int → Int → Option Int
  | 0, _, _, _ => none
  | fuel + 1, sq, dlt, a =>
    if sq ≤ a then do
      let sq' ← i64 (sq + dlt)
      let dlt' ← i64 (dlt + 2)
      isqrtLoop fuel sq' dlt' a
    else some ((dlt >>> (1 : Nat)) - 1)

/-- `isqrt`, `core/constexpr.hpp:56-58`. -/
def isqrt (fuel : Nat) (a : Int) : Option Int := isqrtLoop fuel 1 3 a

end GATL
