import Verif.Model.Ball

/-!
# Balls from bounds

`Arb(std::pair<Arf, Arf>, precision)`; for the opposite direction see `Ball.interval`.  Bounds are finite.
-/

namespace ExactReal.Ball

/-- `Arb(const std::pair<Arf, Arf>& bounds, precision)`, `src/arb.cc:75-77`: `arb_set_interval_arf`.  FLINT terminates the process if the bounds are not in order.
Otherwise the midpoint is half the sum of the bounds, rounded to `prec` bits; the radius is half their difference, rounded upwards to 30 bits, plus
a unit in the last place of the midpoint if that has been rounded (FLINT rounds the sum of these upwards again, which is left out). -/
def ofBounds (lower upper : ℚ) (prec : ℕ) : Out Ball :=
  if upper < lower then .abort
  else
    let sum := lower + upper
    let mid := Arf.round .down prec sum
    let rad := Arf.round .up 30 (upper - lower) + if mid = sum then 0 else Arf.ulp prec sum
    .ok ⟨mid / 2, some (rad / 2)⟩

end ExactReal.Ball
