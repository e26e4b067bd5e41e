import Verif.Model.Long

/-!
# The 64 bit integers in the shifts and the logarithm of an `Arf`

The model of `Verif/Model/Arf.lean` has unbounded integers.
-/

namespace ExactReal.Arf

/-- `Arf::operator<<=`, `src/arf.cc:128-131`. `arf_mul_2exp_si` accepts all `long`s; the exponent of an `arf_t` is unbounded. -/
def shiftLeftLong (x : ℚ) (rhs : ℤ) : Out ℚ := .ok (shiftLeft x rhs)

/-- `Arf::operator>>=`, `src/arf.cc:133`: the negative of a `long` is passed to `<<=`. -/
def shiftRightLong (x : ℚ) (rhs : ℤ) : Out ℚ := do
  let n ← long (-rhs)
  shiftLeftLong x n

/-- FLINT's `fmpz_get_si`: the result is undefined (though not the behaviour) when the value does not fit into a `long`. -/
def fmpzGetSi (e : ℤ) : Out ℤ := if -2 ^ 63 ≤ e ∧ e < 2 ^ 63 then .ok e else .ub

/-- `Arf::logb`, `src/arf.cc:185-193`: `arf_frexp` yields `e` with `|x| = f·2^e`, `1/2 ≤ f < 1`, respectively `e = 0` for `x = 0`. -/
def logbLong (x : ℚ) : Out ℤ := do
  let e ← fmpzGetSi (if x = 0 then 0 else Int.log 2 |x| + 1)
  long (e - 1)

end ExactReal.Arf
