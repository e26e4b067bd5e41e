import Verif.Model.Double

/-!
# Creating random numbers

The pseudo-random generators (`boost::random::rand48` for the digits, GMP's default generator for the mantissa) are parameters.
-/

namespace ExactReal

/-- The pseudo-random generators: `digits seed` is the digit sequence of `RandomRealNumber(seed)` (`src/random_real_number.cc:73-76,121`);
`urandomm seed n` is what `mpz_urandomm` returns in `src/constrained_random_real_number.cc:182-186`.  `urandomm_range` is GMP's
documented range. -/
structure Generators where
  digits : UInt32 → Digits
  urandomm : UInt32 → ℤ → ℤ
  urandomm_range : ∀ seed n, 0 < n → 0 ≤ urandomm seed n ∧ urandomm seed n < n

variable (gen : Generators)

/-- `RealNumber::random(lower, upper, seed)`, `src/constrained_random_real_number.cc:143-198`, for finite bounds.  The factory returns an
object that is determined by `initial`, `e` and `inner` (see `Verif/Model/Heap.lean`).  The conversion `delta.get_si()` of a shift by more
than 2^63 and exponents outside of `long` are not modelled (such a shift needs more memory than there is). -/
def randomIn (lower upper : ℚ) (seed : UInt32) : Out Atom :=
  if lower = 0 ∧ upper = 1 then .ok (.random (gen.digits seed))
  else if upper ≤ lower then .throws .logicError
  else
    let lm := Arf.mantissa lower
    let le := Arf.exponent lower
    let um := Arf.mantissa upper
    let ue := Arf.exponent upper
    -- lines 167-171
    let (um, ue) := if le < ue then (um * 2 ^ (ue - le).toNat, le) else (um, ue)
    -- lines 173-177
    let (lm, le) := if ue < le then (lm * 2 ^ (le - ue).toNat, ue) else (lm, le)
    -- lines 179-188
    let mantissa := gen.urandomm seed (um - lm) + lm
    .ok (.constrained mantissa le (gen.digits seed))

/-- `nextafter(x, +∞)` for a finite double below the largest one. -/
def nextUp (x : ℚ) : ℚ :=
  if x = 0 then 2 ^ (-1074 : ℤ)
  else if 0 < x then x + Double.ulp x
  else if -x = 2 ^ Int.log 2 |x| ∧ 2 ^ (-1022 : ℤ) < -x then x + Double.ulp x / 2 else x + Double.ulp x

/-- `nextafter(x, -∞)` for a finite double above the smallest one. -/
def nextDown (x : ℚ) : ℚ := -nextUp (-x)

/-- `RealNumber::random(x, seed)` for a finite double `x` whose neighbours are finite, `src/constrained_random_real_number.cc:204-229`.
The three operations of lines 221-222 are each rounded to 64 bits. -/
def randomNear (x : ℚ) (seed : UInt32) : Out Atom :=
  let r := Arf.round .near 64
  let lower := r (r (nextDown x + r (2 * x)) / 3)
  let upper := r (r (r (2 * x) + nextUp x) / 3)
  randomIn gen lower upper seed

/-- `RealNumber::random(x, seed)` for an arbitrary double: non-finite numbers are rejected,
`src/constrained_random_real_number.cc:205-207`. (For the largest finite double one of the neighbours is infinite and so is the
bound computed from it; that case is not modelled and reported as `ub`.) -/
def randomDouble (x : Double) (seed : UInt32) : Out Atom :=
  match x with
  | .fin q => if 2 ^ 1024 - 2 ^ 971 ≤ |q| then .ub else randomNear gen q seed
  | _ => .throws .logicError

end ExactReal
