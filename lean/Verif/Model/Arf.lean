import Mathlib.Data.Int.Log
import Mathlib.Data.Rat.Floor
import Mathlib.Algebra.Order.Field.Rat
import Mathlib.Algebra.Order.Group.Abs

/-!
# Arbitrary precision floating point numbers

An `Arf` (`exact-real/arf.hpp`, `src/arf.cc`) wraps FLINT's `arf_t`.  A finite `Arf` is a dyadic rational and is represented here by its
value in `ℚ`; infinities and NaN are not modelled.  FLINT's `arf` operations are documented to be correctly rounded: the exact result is
rounded once, to `prec` bits, in the requested direction.  `Rnd.round` is that rounding.  (FLINT's own implementation is not modelled.
FLINT documents `prec ≥ 2`; the model rounds correctly for every `prec ≥ 1`.)
-/

namespace ExactReal

/-- `Arf::Round`, `exact-real/arf.hpp:82-101`: FLINT's rounding modes. -/
inductive Rnd
  | down
  | up
  | floor
  | ceil
  | near
  deriving DecidableEq, Repr

/-- Nearest integer, ties to even (`ARF_RND_NEAR`). -/
def nearInt (y : ℚ) : ℤ :=
  if y - ⌊y⌋ < 1 / 2 then ⌊y⌋
  else if 1 / 2 < y - ⌊y⌋ then ⌊y⌋ + 1
  else if ⌊y⌋ % 2 = 0 then ⌊y⌋ else ⌊y⌋ + 1

namespace Rnd

/-- Rounding to an integer in the given direction. -/
def toInt : Rnd → ℚ → ℤ
  | down, y => if 0 ≤ y then ⌊y⌋ else ⌈y⌉
  | up, y => if 0 ≤ y then ⌈y⌉ else ⌊y⌋
  | floor, y => ⌊y⌋
  | ceil, y => ⌈y⌉
  | near, y => nearInt y

end Rnd

namespace Arf

/-- `Arf::logb`, `src/arf.cc:185-193`: `arf_frexp` yields `e` with `|x| = f·2^e`, `1/2 ≤ f < 1`, and `logb` is `e - 1`.  For `x = 0`
`arf_frexp` yields `e = 0`. -/
def logb (x : ℚ) : ℤ := if x = 0 then -1 else Int.log 2 |x|

/-- The value of the last of `prec` binary digits of `x ≠ 0`. -/
def ulp (prec : ℤ) (x : ℚ) : ℚ := 2 ^ (Int.log 2 |x| + 1 - prec)

/-- `arf_set_round` and the rounding that finishes `arf_add`, `arf_sub`, `arf_mul`, `arf_div`: round to `prec` bits. -/
def round (r : Rnd) (prec : ℤ) (x : ℚ) : ℚ :=
  if x = 0 then 0 else r.toInt (x / ulp prec x) * ulp prec x

/-- `Arf::Arf(mantissa, exponent)`, `src/arf.cc:59-87` (`arf_set_fmpz_2exp`). -/
def ofMantissaExponent (m : ℤ) (e : ℤ) : ℚ := m * 2 ^ e

/-- Halve `n` while it is even, at most `fuel` times; counts the halvings. -/
def strip : Nat → ℤ → ℤ × Nat
  | 0, n => (n, 0)
  | fuel + 1, n => if n % 2 = 0 then let p := strip fuel (n / 2); (p.1, p.2 + 1) else (n, 0)

/-- `mantissa_exponent`, `src/arf.cc:38-53`: `arf_get_fmpz_2exp` yields an odd mantissa (and mantissa and exponent zero for zero).
The numerator and the power of two in the denominator of a dyadic rational determine it. -/
def mantissaExponent (x : ℚ) : ℤ × ℤ :=
  if x = 0 then (0, 0)
  else
    let p := strip (Nat.log 2 x.num.natAbs) x.num
    (p.1, (p.2 : ℤ) - Nat.log 2 x.den)

/-- `Arf::mantissa`, `src/arf.cc:181`. -/
def mantissa (x : ℚ) : ℤ := (mantissaExponent x).1

/-- `Arf::exponent`, `src/arf.cc:183`. -/
def exponent (x : ℚ) : ℤ := (mantissaExponent x).2

/-- `arf_bits`: number of binary digits of the mantissa, `0` for zero. -/
def bits (x : ℚ) : Nat := if x = 0 then 0 else Nat.log 2 (mantissa x).natAbs + 1

/-- `Arf::operator<<=`, `src/arf.cc:128-131` (`arf_mul_2exp_si`). -/
def shiftLeft (x : ℚ) (n : ℤ) : ℚ := x * 2 ^ n

/-- `Arf::operator>>=`, `src/arf.cc:133`. -/
def shiftRight (x : ℚ) (n : ℤ) : ℚ := shiftLeft x (-n)

/-- `Arf::floor`, `src/arf.cc:157-167`: `arf_floor` followed by a conversion of an integral number. -/
def floor (x : ℚ) : ℤ := Rnd.near.toInt (⌊x⌋ : ℚ)

/-- `Arf::ceil`, `src/arf.cc:169-179`. -/
def ceil (x : ℚ) : ℤ := Rnd.near.toInt (⌈x⌉ : ℚ)

end Arf

end ExactReal
