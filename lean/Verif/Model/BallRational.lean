import Verif.Model.BallSpecial

/-!
# Comparison of all values of `Arb` with rational numbers

Continues `Verif/Model/BallSpecial.lean`; `Verif/Model/Ball.lean` has these comparisons for balls with a finite midpoint.
-/

namespace ExactReal.XBall

/-- The midpoint times a positive integer; `arf_mul` with `ARF_PREC_EXACT`. -/
def mulMid (m : XArf) (n : ℕ) : XArf :=
  match m with
  | .fin q => .fin (q * n)
  | x => x

/-- `*this * Arb(rhs.get_den())` with precision `ARF_PREC_EXACT`, e.g. `src/arb.cc:255`.  The denominator is positive and an exact ball; the midpoint is exact then and
the radius is the product of the radius and the denominator, rounded up to the bits of FLINT's `mag_t` by `mag`. -/
def scaled (mag : ℚ → ℚ) (a : XBall) (q : ℚ) : XBall := ⟨mulMid a.mid q.den, a.rad.map fun r => mag (r * q.den)⟩

/-- The comparisons with an `mpq_class`, `src/arb.cc:254-282`: all but `!=` use the operator of the same name. -/
def cmpQ (mag : ℚ → ℚ) (op : XBall → XBall → Option Bool) (a : XBall) (q : ℚ) : Option Bool := op (a.scaled mag q) (ofMpz q.num)

/-- `Arb::operator!=(const mpq_class&)`, `src/arb.cc:259-262`: this calls `==`. -/
def neQ (mag : ℚ → ℚ) (a : XBall) (q : ℚ) : Option Bool := cmpQ mag eq a q

end ExactReal.XBall
