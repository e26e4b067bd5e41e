import Verif.Model.Python

/-!
# `is_square` of the Python ring, `/repo/pyexactreal/src/pyexactreal/exact_reals.py:611-667`
-/

namespace ExactReal.Py

variable {P : Type} [DecidableEq P] {R : Type} [CommRing R] [DecidableEq R] [CRing P R]

/-- `is_square`, `exact_reals.py:611-667`: `convert` is `K(self)` (`none` is a `TypeError`), `square` is `is_square` of SageMath's elements of `K`.  The result
`none` is a `NotImplementedError`. -/
def isSquare {K : Type} (convert : Elt P R → Out (Option K)) (square : K → Bool) (x : Elt P R) : Out (Option Bool) := do
  match ← convert x with
  | none => .ok none
  | some c => .ok (some (square c))

/-- `K(self)` for the integers, `exact_reals.py:524-541`. -/
def toInteger (x : Elt P R) : Out (Option ℤ) := .ok x.integer?

/-- `K(self)` for the rationals, `exact_reals.py:543-560`. -/
def toRational (x : Elt P R) : Out (Option ℚ) := .ok x.rational?

end ExactReal.Py
