import Verif.Model.Approx

/-!
# Conversion to `double`

A finite IEEE double is represented by its value (the sign of zero is not modelled; NaN does not occur).
-/

namespace ExactReal

/-- A `double` that is not NaN. -/
inductive Double
  | fin (q : ℚ)
  | posInf
  | negInf
  deriving DecidableEq

namespace Double

/-- The value of the last digit of doubles of the magnitude of `x ≠ 0`: 53 binary digits, but never less than `2^-1074`.
(Only used for `x ≠ 0`.) -/
def ulp (x : ℚ) : ℚ := 2 ^ max (Int.log 2 |x| - 52) (-1074)

/-- Round to a multiple of the last digit of a double, ties to even. -/
def near (x : ℚ) : ℚ := if x = 0 then 0 else nearInt (x / ulp x) * ulp x

/-- `arf_get_d(x, ARF_RND_NEAR)`, used by `Arf::operator double`, `src/arf.cc:101`: FLINT rounds correctly, including subnormal numbers and
overflow to infinity. -/
def ofArf (x : ℚ) : Double :=
  if 2 ^ 1024 ≤ near x then .posInf else if near x ≤ -2 ^ 1024 then .negInf else .fin (near x)

end Double

/-- `RealNumber::operator double`, `src/real_number.cc:40-42`. -/
def RN.toDouble (atoms : Atoms) (x : RN) : Double := Double.ofArf (x.arf atoms 54)

end ExactReal
