import Verif.Model.BallSpecial
import Verif.Spec.ArfSpecial

/-! # Specification vocabulary for `Arb` with infinities: the points of a ball on the extended real line -/

namespace ExactReal

/-- The points of a ball: the extended real numbers within the radius of the midpoint.  A ball of infinite radius is the extended real line,
an infinite midpoint with a finite radius is just that infinity; nothing is known about an indeterminate. -/
def XBall.points (a : XBall) : Set EReal :=
  {x | match a.mid, a.rad with
    | .nan, _ => True
    | _, none => True
    | .fin m, some r => ∃ y : ℝ, x = (y : EReal) ∧ |y - m| ≤ r
    | .posInf, some _ => x = ⊤
    | .negInf, some _ => x = ⊥}

/-- Radii are not negative. -/
def XBall.WF (a : XBall) : Prop := ∀ r ∈ a.rad, 0 ≤ r

/-- The documented meaning of the comparison operators of `Arb`: the answer is `true` if the relation holds for all points of the two balls,
`false` if it holds for none, and there is no answer otherwise. -/
def XBall.Answers (answer : Option Bool) (R : EReal → EReal → Prop) (a b : XBall) : Prop :=
  (answer = some true ↔ ∀ x ∈ a.points, ∀ y ∈ b.points, R x y) ∧ (answer = some false ↔ ∀ x ∈ a.points, ∀ y ∈ b.points, ¬ R x y)

/-- The values of an integer type. -/
def IntType.Holds (t : IntType) (n : ℤ) : Prop := t.min ≤ n ∧ n ≤ t.max

end ExactReal
