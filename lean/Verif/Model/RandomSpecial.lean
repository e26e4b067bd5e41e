import Verif.Model.Random
import Verif.Model.ArfSpecial

/-!
# Random numbers for all bounds

`Verif/Model/Random.lean` has `RealNumber::random(a, b)` for finite bounds only; here are the infinite ones and NaN, and `RealNumber::random(d)` for all values of
type `double`, including the assertions that are checked in builds without `NDEBUG`.
-/

namespace ExactReal

/-- The largest finite `double`. -/
def Double.largest : ℚ := 2 ^ 1024 - 2 ^ 971

namespace XArf

/-- `Arf::mantissa`, `/repo/libexactreal/src/arf.cc:37-53,181`: `arf_get_fmpz_2exp` yields 0 for infinities and NaN. -/
def mantissa : XArf → ℤ
  | fin q => Arf.mantissa q
  | _ => 0

/-- `Arf::exponent`, `/repo/libexactreal/src/arf.cc:37-53,183`: `arf_get_fmpz_2exp` yields 0 for infinities and NaN. -/
def exponent : XArf → ℤ
  | fin q => Arf.exponent q
  | _ => 0

/-- `((bound + 2 * midpoint) / 3)(64, NEAR)`, `/repo/libexactreal/src/constrained_random_real_number.cc:221-222`: `arf_add` and `arf_div` keep infinities. -/
def third (bound : XArf) (midpoint : ℚ) : XArf :=
  match bound with
  | fin y => fin (Arf.round .near 64 (Arf.round .near 64 (y + Arf.round .near 64 (2 * midpoint)) / 3))
  | x => x

/-- `nextafter(q, ∞)` for a finite double `q`. -/
def next (q : ℚ) : XArf := if q = Double.largest then posInf else fin (nextUp q)

/-- `nextafter(q, -∞)` for a finite double `q`. -/
def previous (q : ℚ) : XArf := if q = -Double.largest then negInf else fin (nextDown q)

end XArf

variable (gen : Generators)

/-- `RealNumber::random(lower, upper, seed)`, `/repo/libexactreal/src/constrained_random_real_number.cc:143-198`, for arbitrary bounds; `asserts` says that the
library has been built without `NDEBUG`.  `mpz_urandomm` ends the process with a division by zero for an empty range; for a negative range its documentation says
nothing, and `gen.urandomm` is arbitrary. -/
def randomInX (asserts : Bool) (lower upper : XArf) (seed : UInt32) : Out Atom :=
  if lower.eqLong 0 && upper.eqLong 1 then .ok (.random (gen.digits seed))
  else if lower.ge upper then .throws .logicError
  else
    let lm := lower.mantissa
    let le := lower.exponent
    let um := upper.mantissa
    let ue := upper.exponent
    -- lines 167-171
    let (um, ue) := if le < ue then (um * 2 ^ (ue - le).toNat, le) else (um, ue)
    -- lines 173-177
    let (lm, le) := if ue < le then (lm * 2 ^ (le - ue).toNat, ue) else (lm, le)
    -- lines 179-188
    let length := um - lm
    if asserts && length ≤ 0 then .abort
    else if length = 0 then .abort
    else .ok (.constrained (gen.urandomm seed length + lm) le (gen.digits seed))

/-- `RealNumber::random(x, seed)`, `/repo/libexactreal/src/constrained_random_real_number.cc:204-231`, for all values of type `double`. -/
def randomDoubleX (asserts : Bool) (x : XDouble) (seed : UInt32) : Out Atom :=
  match x with
  | .num (.fin q) =>
    let lower := (XArf.previous q).third q
    let upper := (XArf.next q).third q
    -- lines 225-226
    if asserts && !(lower.toDouble = x && upper.toDouble = x) then .abort
    else randomInX gen asserts lower upper seed
  | _ => .throws .logicError

end ExactReal
