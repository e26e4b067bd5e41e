import Verif.Model.Double
import Mathlib.Data.Real.Basic

/-!
# Specification vocabulary for doubles
-/

namespace ExactReal.Double

/-- The numbers that fit into the 53 binary digits and the smallest exponent of a double (no bound on the exponent from above). -/
def IsRep (z : ℚ) : Prop := ∃ m e : ℤ, |m| ≤ 2 ^ 53 ∧ -1074 ≤ e ∧ z = m * 2 ^ e

/-- The finite doubles. -/
def IsFinite (z : ℚ) : Prop := IsRep z ∧ |z| < 2 ^ 1024

/-- `d` is a finite double and no finite double is closer to `v`. -/
def IsNearest (d : ℚ) (v : ℝ) : Prop := IsFinite d ∧ ∀ z, IsFinite z → |(d : ℝ) - v| ≤ |(z : ℝ) - v|

/-- `d` is a finite double and every other finite double is further away from `v`. -/
def IsUniqueNearest (d : ℚ) (v : ℝ) : Prop := IsFinite d ∧ ∀ z, IsFinite z → z ≠ d → |(d : ℝ) - v| < |(z : ℝ) - v|

/-- `d` is what rounding `v` to the nearest double should give, up to an error of `ε`: no double is closer by more than `ε`, and infinities are returned
only beyond the point (halfway between the largest double and `2^1024`) where IEEE rounding gives an infinity.  For `ε = 0` this is correct rounding
(with either choice for ties). -/
def NearestUpTo (ε v : ℝ) : Double → Prop
  | .fin d => IsFinite d ∧ ∀ z, IsRep z → |(d : ℝ) - v| ≤ |(z : ℝ) - v| + ε
  | .posInf => (2 : ℝ) ^ 1024 - 2 ^ 970 ≤ v + ε
  | .negInf => v - ε ≤ -((2 : ℝ) ^ 1024 - 2 ^ 970)

end ExactReal.Double
