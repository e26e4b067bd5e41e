import Verif.Model.PythonSquare

/-!
# Integers, floats and hashes of elements of `ExactReals(K)`

(`ZZ(x)` and `QQ(x)` are `Py.toInteger` and `Py.toRational`, `Model/PythonSquare.lean`.)

Line numbers are those of `/repo/pyexactreal/src/pyexactreal/exact_reals.py` unless another file is named.
-/

namespace ExactReal.Py

variable {P : Type} [DecidableEq P] {R : Type} [CommRing R] [DecidableEq R] [CRing P R]

/-- `ExactReals(K).an_element()`, lines 821-832; the constructor makes the same of zero, lines 88-94. -/
def anElement : Elt P R := Elt.default

variable (atoms : Atoms) (F : Arith) (coeff : ℕ → R → Ball)

/-- `x // y`, i.e., `_floordiv_`, lines 365-380. -/
def floordiv [Build] (fuel : ℕ) (x y : Elt P R) : Out ℤ := Elt.floordiv atoms F coeff fuel x y

/-- `x.floor()`, lines 382-395. -/
def floor (fuel : ℕ) (x : Elt P R) : Out ℤ := Elt.floor atoms F coeff fuel x

/-- `x.ceil()`, lines 397-410. -/
def ceil (fuel : ℕ) (x : Elt P R) : Out ℤ := Elt.ceil atoms F coeff fuel x

/-- `float(x)`, lines 508-522. -/
def float (fuel : ℕ) (x : Elt P R) : Out Double := Elt.toDouble atoms F coeff fuel x

/-- `hash(x)`, lines 412-427. -/
def hash (hashDouble : Double → UInt64) (fuel : ℕ) (x : Elt P R) : Out UInt64 := Elt.hash atoms F coeff hashDouble fuel x

end ExactReal.Py
