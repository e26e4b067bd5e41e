import Verif.Model.ElementApprox

/-!
# The ring `ExactReals(K)` of the Python package

`pyexactreal` wraps elements of the C++ library as elements of a ring of SageMath.  A Python element holds a C++ element (`_backend`), so it is an
`Elt` here; `ring` is the base ring of the parent.  C++ exceptions become Python exceptions with the same outcome.  `NotRepresentableError`,
`NotImplementedError` and `TypeError`, which are raised by Python code, are `none`.

Line numbers are those of `/repo/pyexactreal/src/pyexactreal/exact_reals.py` unless another file is named.
-/

namespace ExactReal.Py

variable {P : Type} [DecidableEq P] {R : Type} [CommRing R] [DecidableEq R] [CRing P R]

section exact
variable [Build]

/-- `ExactReals(K).rational(q)`, lines 883-909. -/
def rational (ring : P) (q : ℚ) : Out (Elt P R) := do
  let m ← Mod.make ring [.rat q]
  Elt.ofCoefficients m [1]

/-- `ExactReals(K).random_element()`, lines 834-879; `i` is the random number created by `RealNumber.random`. -/
def random (ring : P) (i : ℕ) : Out (Elt P R) := do
  let m ← Mod.make ring [.atom i]
  Elt.ofCoefficients m [1]

/-- `_lmul_`, `_rmul_`, lines 472-506: the product with an element of the base ring. -/
def lmul (c : R) (x : Elt P R) : Out (Elt P R) := (x.imulR c).result

/-- The coercion from the base ring, lines 947-964: `ExactReals(K)(c)`. -/
def coerce (ring : P) (c : R) : Out (Elt P R) := do
  let one ← rational ring 1
  lmul c one

/-- `_add_`, lines 164-178. -/
def add (x y : Elt P R) : Out (Elt P R) := x.add y

/-- `_sub_`, lines 180-194. -/
def sub (x y : Elt P R) : Out (Elt P R) := x.sub y

/-- `_neg_`, lines 257-269. -/
def neg (x : Elt P R) : Out (Elt P R) := .ok x.neg

/-- `_mul_`, lines 196-229. -/
def mul (x y : Elt P R) : Out (Elt P R) := do
  let z ← x.mul y
  z.simplify

/-- `_div_`, lines 231-255, with `unwrap_binary_optional`, `cppyy_exactreal.py:107-113`: `none` is `NotRepresentableError`. -/
def div (fuel : ℕ) (x y : Elt P R) : Out (Option (Elt P R)) := do
  match (← x.truediv fuel y) with
  | none => .ok none
  | some q => do
    let q ← q.simplify
    .ok (some q)

/-- `__invert__`, lines 271-287. -/
def invert (ring : P) (fuel : ℕ) (x : Elt P R) : Out (Option (Elt P R)) := do
  let x ← x.simplify
  let one ← coerce ring 1
  div fuel one x

/-- `is_unit`, lines 289-303. -/
def isUnit (x : Elt P R) : Bool := x.unit

/-- The loop of `_algebraic_`, lines 585-593: `QQ(gen)` is the conversion of the generator as an element, which raises `TypeError` if it fails. -/
def algebraicLoop {A : Type} [CommRing A] [Algebra ℚ A] (ι : R → A) (m : Mod P) : List R → ℕ → A → Out (Option A)
  | [], _, ret => .ok (some ret)
  | c :: cs, i, ret =>
    if c ≠ 0 then do
      let gen ← m.gen (R := R) i
      match gen.rational? with
      | none => .ok none
      | some q => algebraicLoop ι m cs (i + 1) (ret + ι c * algebraMap ℚ A q)
    else algebraicLoop ι m cs (i + 1) ret

/-- `_algebraic_`, lines 562-594: conversion to a ring `A` of algebraic numbers into which the base ring is mapped. -/
def algebraic {A : Type} [CommRing A] [Algebra ℚ A] (ι : R → A) (x : Elt P R) : Out (Option A) := algebraicLoop ι x.mod x.coeffs 0 0

end exact

section order
variable (atoms : Atoms) (F : Arith) (coeff : ℕ → R → Ball)
variable [Build]

/-- `_richcmp_`, lines 443-470: all comparison operators of Python are derived from this. -/
def richcmp (fuel : ℕ) (x y : Elt P R) : Out Ordering := do
  if (← Elt.lt atoms F coeff fuel x y) then .ok .lt
  else if (← x.eq y) then .ok .eq
  else .ok .gt

/-- `x < y` -/
def lt (fuel : ℕ) (x y : Elt P R) : Out Bool := do .ok ((← richcmp atoms F coeff fuel x y) = .lt)
/-- `x <= y` -/
def le (fuel : ℕ) (x y : Elt P R) : Out Bool := do .ok ((← richcmp atoms F coeff fuel x y) ≠ .gt)
/-- `x == y` -/
def eq (fuel : ℕ) (x y : Elt P R) : Out Bool := do .ok ((← richcmp atoms F coeff fuel x y) = .eq)
/-- `x != y` -/
def ne (fuel : ℕ) (x y : Elt P R) : Out Bool := do .ok ((← richcmp atoms F coeff fuel x y) ≠ .eq)
/-- `x > y` -/
def gt (fuel : ℕ) (x y : Elt P R) : Out Bool := do .ok ((← richcmp atoms F coeff fuel x y) = .gt)
/-- `x >= y` -/
def ge (fuel : ℕ) (x y : Elt P R) : Out Bool := do .ok ((← richcmp atoms F coeff fuel x y) ≠ .lt)

/-- `x.divides(y)`, lines 337-363. -/
def divides (ring : P) (fuel : ℕ) (x y : Elt P R) : Out Bool := do
  let zero ← coerce ring 0
  if (← eq atoms F coeff fuel x zero) then do
    let zero ← coerce ring 0
    eq atoms F coeff fuel y zero
  else do
    match (← div fuel y x) with
    | some _ => .ok true
    | none => .ok false

/-- `x.gcd(y)`, lines 306-334; `none` is `NotImplementedError`. -/
def gcd (ring : P) (fuel : ℕ) (x y : Elt P R) : Out (Option (Elt P R)) := do
  if (← divides atoms F coeff ring fuel x y) then .ok (some x)
  else if (← divides atoms F coeff ring fuel y x) then .ok (some y)
  else .ok none

/-- `abs(x)`, lines 596-609. -/
def abs (ring : P) (fuel : ℕ) (x : Elt P R) : Out (Elt P R) := do
  let zero ← coerce ring 0
  if (← ge atoms F coeff fuel x zero) then .ok x else neg x

end order

end ExactReal.Py
