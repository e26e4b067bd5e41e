import Verif.Model.Ball
import Verif.Model.ElementApprox
import Verif.Spec.Approx
import Verif.Spec.Element
import Mathlib.Topology.Order.Basic
import Mathlib.Topology.Algebra.Order.Field

/-!
# Specification vocabulary for balls

`Ball.Contains`: the points of a ball.  `Arith.Lawful` is the contract of FLINT's ball arithmetic on which the theorems rest: results contain
the results of the operations for all points of the operands, and they are not much larger than that requires (so that refining converges).
-/

namespace ExactReal

open Filter Topology

namespace Ball

/-- `x` is a point of the ball. -/
def Contains (b : Ball) (x : ℝ) : Prop :=
  match b.rad with
  | none => True
  | some r => |x - b.mid| ≤ r

/-- The ball is finite (and not empty). -/
def Finite (b : Ball) : Prop := ∃ r, b.rad = some r ∧ 0 ≤ r

/-- The radius, zero if it is infinite. -/
def radius (b : Ball) : ℚ := b.rad.getD 0

/-- A family of balls shrinks to a point when the precision grows. -/
structure Tends (b : ℕ → Ball) (x : ℝ) : Prop where
  finite : ∀ᶠ n in atTop, (b n).Finite
  radius : Tendsto (fun n => ((b n).radius : ℝ)) atTop (𝓝 0)
  mid : Tendsto (fun n => ((b n).mid : ℝ)) atTop (𝓝 x)

end Ball

/-- Contract of FLINT's ball arithmetic (Arb documentation, section "Ball arithmetic"): results contain the exact results for all points of
the operands; the midpoint is the exact result for the midpoints, rounded to `prec` bits (not rounded for `ARF_PREC_EXACT`); the radius is
at most twice the propagated error plus two units in the last place.  (FLINT's radii have a relative accuracy of about `2^-28`, so two is a
generous factor.) -/
structure Arith.Lawful (F : Arith) : Prop where
  add_contains : ∀ prec a b x y, a.Contains x → b.Contains y → (F.add prec a b).Contains (x + y)
  mul_contains : ∀ prec a b x y, a.Contains x → b.Contains y → (F.mul prec a b).Contains (x * y)
  div_contains : ∀ prec a b x y, a.Contains x → b.Contains y → ¬ b.Contains 0 → (F.div prec a b).Contains (x / y)
  ofRat_contains : ∀ prec q, (F.ofRat prec q).Contains q
  add_finite : ∀ prec a b, a.Finite → b.Finite → (F.add prec a b).Finite
  mul_finite : ∀ prec a b, a.Finite → b.Finite → (F.mul prec a b).Finite
  div_finite : ∀ prec a b, a.Finite → b.Finite → ¬ b.Contains 0 → (F.div prec a b).Finite
  ofRat_finite : ∀ prec q, (F.ofRat prec q).Finite
  add_mid : ∀ prec a b, 2 ≤ prec → |(F.add prec a b).mid - (a.mid + b.mid)| ≤ 2 ^ (1 - (prec : ℤ)) * |a.mid + b.mid|
  mul_mid : ∀ prec a b, 2 ≤ prec → |(F.mul prec a b).mid - a.mid * b.mid| ≤ 2 ^ (1 - (prec : ℤ)) * |a.mid * b.mid|
  div_mid : ∀ prec a b, 2 ≤ prec → ¬ b.Contains 0 → a.Finite → b.Finite →
    |(F.div prec a b).mid - a.mid / b.mid| ≤
      2 ^ (1 - (prec : ℤ)) * |a.mid / b.mid| + 2 * (|a.mid| * b.radius + |b.mid| * a.radius) / (|b.mid| * (|b.mid| - b.radius))
  ofRat_mid : ∀ prec q, 2 ≤ prec → |(F.ofRat prec q).mid - q| ≤ 2 ^ (1 - (prec : ℤ)) * |q|
  add_radius : ∀ prec a b, 2 ≤ prec → a.Finite → b.Finite →
    (F.add prec a b).radius ≤ 2 * (a.radius + b.radius) + 2 ^ (2 - (prec : ℤ)) * |a.mid + b.mid|
  mul_radius : ∀ prec a b, 2 ≤ prec → a.Finite → b.Finite →
    (F.mul prec a b).radius ≤ 2 * (|a.mid| * b.radius + |b.mid| * a.radius + a.radius * b.radius) + 2 ^ (2 - (prec : ℤ)) * |a.mid * b.mid|
  div_radius : ∀ prec a b, 2 ≤ prec → a.Finite → b.Finite → ¬ b.Contains 0 →
    (F.div prec a b).radius ≤
      2 ^ (2 - (prec : ℤ)) * |a.mid / b.mid| + 4 * (|a.mid| * b.radius + |b.mid| * a.radius) / (|b.mid| * (|b.mid| - b.radius))
  ofRat_radius : ∀ prec q, 2 ≤ prec → (F.ofRat prec q).radius ≤ 2 ^ (2 - (prec : ℤ)) * |q|
  mul_exact_mid : ∀ a b, (F.mul ARF_PREC_EXACT a b).mid = a.mid * b.mid
  mul_exact_radius : ∀ a b, a.Finite → b.Finite →
    (F.mul ARF_PREC_EXACT a b).radius ≤ 2 * (|a.mid| * b.radius + |b.mid| * a.radius + a.radius * b.radius)

/-- Contract of `Ring::arb`: the ball is finite, contains the coefficient and shrinks to it when the precision grows.  Proved for ℤ and ℚ
(`Verif/Lemma/Coeff.lean`); for number fields it is a property of e-antic. -/
structure CoeffLawful (P : Type) [DecidableEq P] {R : Type} [CommRing R] [DecidableEq R] [CRing P R] [LawfulCRing P]
    (coeff : ℕ → R → Ball) : Prop where
  contains : ∀ prec c, (coeff prec c).Contains (Elt.num P c)
  finite : ∀ prec c, (coeff prec c).Finite
  tends : ∀ c, Ball.Tends (fun prec => coeff prec c) (Elt.num P c)

end ExactReal
