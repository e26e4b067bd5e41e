import Verif.Model.ElementApprox

/-!
# Comparison operators that `boost::totally_ordered` derives

`exact-real/real_number.hpp:57-69` and `exact-real/element.hpp:64-84` only implement `<` and `==` (and, for a right hand side of another
type, `>`).  The remaining operators come from `boost/operators.hpp`: `less_than_comparable1` defines `x > y` as `y < x`, `x <= y` as
`!(y < x)` and `x >= y` as `!(x < y)`; `less_than_comparable2` defines `x <= y` as `!(x > y)` and `x >= y` as `!(x < y)`, and, with the
types swapped, `y > x` as `x < y`, `y < x` as `x > y`, `y <= x` as `!(x < y)`, `y >= x` as `!(x > y)`.
-/

namespace ExactReal

/-- `!(…)` -/
def Out.not (r : Out Bool) : Out Bool := do
  let b ← r
  .ok !b

namespace RN
variable (atoms : Atoms)

/-- `x > y` for real numbers. -/
def gtRN (fuel : ℕ) (x y : RN) : Out Bool := ltRN atoms fuel y x
/-- `x <= y` for real numbers. -/
def leRN (fuel : ℕ) (x y : RN) : Out Bool := (ltRN atoms fuel y x).not
/-- `x >= y` for real numbers. -/
def geRN (fuel : ℕ) (x y : RN) : Out Bool := (ltRN atoms fuel x y).not

/-- `x <= a` for an `Arf`, `mpz_class` or integer; also `a >= x`. -/
def leArf (fuel : ℕ) (x : RN) (a : ℚ) : Out Bool := (gtArf atoms fuel x a).not
/-- `x >= a` for an `Arf`, `mpz_class` or integer; also `a <= x`. -/
def geArf (fuel : ℕ) (x : RN) (a : ℚ) : Out Bool := (ltArf atoms fuel x a).not

/-- `x <= q` for an `mpq_class`; also `q >= x`. -/
def leQ (F : Arith) (fuel : ℕ) (x : RN) (q : ℚ) : Out Bool := (gtQ atoms F fuel x q).not
/-- `x >= q` for an `mpq_class`; also `q <= x`. -/
def geQ (F : Arith) (fuel : ℕ) (x : RN) (q : ℚ) : Out Bool := (ltQ atoms F fuel x q).not

end RN

namespace Elt
variable {P : Type} [DecidableEq P] {R : Type} [CommRing R] [DecidableEq R] [CRing P R]
variable (atoms : Atoms) (F : Arith) (coeff : ℕ → R → Ball)

/-- `x > y` for elements. -/
def gt [Build] (fuel : ℕ) (x y : Elt P R) : Out Bool := lt atoms F coeff fuel y x
/-- `x <= y` for elements. -/
def le [Build] (fuel : ℕ) (x y : Elt P R) : Out Bool := (lt atoms F coeff fuel y x).not
/-- `x >= y` for elements. -/
def ge [Build] (fuel : ℕ) (x y : Elt P R) : Out Bool := (lt atoms F coeff fuel x y).not

/-- `x <= q` for an `mpq_class`; also `q >= x`. -/
def leQ (fuel : ℕ) (x : Elt P R) (q : ℚ) : Out Bool := (gtQ atoms F coeff fuel x q).not
/-- `x >= q` for an `mpq_class`; also `q <= x`. -/
def geQ (fuel : ℕ) (x : Elt P R) (q : ℚ) : Out Bool := (ltQ atoms F coeff fuel x q).not
/-- `x <= n` for an integer; also `n >= x`. -/
def leZ (fuel : ℕ) (x : Elt P R) (n : ℤ) : Out Bool := (gtZ atoms F coeff fuel x n).not
/-- `x >= n` for an integer; also `n <= x`. -/
def geZ (fuel : ℕ) (x : Elt P R) (n : ℤ) : Out Bool := (ltZ atoms F coeff fuel x n).not
/-- `x <= r` for a real number; also `r >= x`. -/
def leRN [Build] (fuel : ℕ) (x : Elt P R) (y : RN) : Out Bool := (gtRN atoms F coeff fuel x y).not
/-- `x >= r` for a real number; also `r <= x`. -/
def geRN [Build] (fuel : ℕ) (x : Elt P R) (y : RN) : Out Bool := (ltRN atoms F coeff fuel x y).not

end Elt

end ExactReal
