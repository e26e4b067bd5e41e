import Verif.Model.RealNumber
import Mathlib.Algebra.Algebra.Rat
import Mathlib.Algebra.Order.Archimedean.Real.Basic
import Mathlib.FieldTheory.AlgebraicClosure

/-!
# The coefficient rings

`Element<Ring>` is a template over `Ring ∈ {IntegerRing, RationalField, NumberField}`.  `CRing P R` collects the static members the
templates use: `P` is the type of ring objects (`Ring`), `R` the type of coefficients (`Ring::ElementClass`), which are modelled by the
exact numbers they represent (GMP and e-antic arithmetic is assumed exact).
-/

namespace ExactReal

/-- Effect of an in-place operation: how the call ended, and the object afterwards (also if the call threw). -/
structure Step (S : Type) where
  out : Out Unit
  self : S

namespace Step
variable {S : Type}
/-- The operation returned and left `s`. -/
def done (s : S) : Step S := ⟨.ok (), s⟩
/-- The operation threw and left `s`. -/
def fail (e : Exc) (s : S) : Step S := ⟨.throws e, s⟩
/-- Run `f` on the object if the first operation returned. -/
def andThen (x : Step S) (f : S → Step S) : Step S :=
  match x with
  | ⟨.ok (), s⟩ => f s
  | ⟨e, s⟩ => ⟨e, s⟩
/-- The value of the corresponding binary operator, which copies its left operand, applies the in-place operator to the copy and returns
the copy (`boost::operators`, e.g., `exact-real/element.hpp:62-100`). -/
def result (x : Step S) : Out S := x.out >>= fun _ => .ok x.self
end Step

/-- The interface of `Ring` used by `src/module.cc` and `src/element.cc`. -/
class CRing (P : Type) (R : outParam Type) [outParam (CommRing R)] [outParam (DecidableEq R)] [DecidableEq P] where
  /-- `Ring()` -/
  default : P
  /-- `Ring(value)`; the first argument is the ring object carried by the coefficient itself. -/
  ofValue : P → R → P
  /-- `Ring::compositum` -/
  compositum : P → P → Out P
  /-- `self.coerce(x)` for a coefficient `x` that carries the ring object `src`.  Simplification: `src` is taken to be the ring of the
  module the coefficient comes from. -/
  coerce (self src : P) : R → Out R
  /-- `Ring::isField` -/
  isField : Bool
  /-- Is this `IntegerRing` (tested with `std::is_same_v`, e.g., in `src/module.cc:204`)? -/
  isIntegers : Bool
  /-- `a / b` for two coefficients, `b ≠ 0` -/
  quo : R → R → R
  /-- `Ring::unit` -/
  unit : R → Bool
  /-- `Ring::rational` -/
  rational : R → Option ℚ
  /-- `Ring::floor` -/
  floor : R → ℤ
  /-- `Ring::imul(c, n)` for an integer `n` of any of the integer types -/
  imulZ : R → ℤ → Step R
  /-- `Ring::imul(c, q)` for an `mpq_class` -/
  imulQ : R → ℚ → Step R
  /-- `Ring::imul(c, d)` for a coefficient -/
  imulR : R → R → Step R
  /-- `Ring::idiv(c, n)` for an integer `n` of any of the integer types -/
  idivZ : R → ℤ → Step R
  /-- `Ring::idiv(c, q)` for an `mpq_class` -/
  idivQ : R → ℚ → Step R
  /-- `Ring::idiv(c, d)` for a coefficient -/
  idivR : R → R → Step R

/-! ### IntegerRing -/

/-- `struct IntegerRing`: there is a single ring object up to `==`, `src/integer_ring.cc:57-59`. -/
inductive IntegerRing
  | mk
  deriving DecidableEq

namespace IntegerRing

/-- `IntegerRing::imul` with an integer, `src/integer_ring.cc:62-71` (first and last branch). -/
def imulZ (lhs rhs : ℤ) : Step ℤ := .done (lhs * rhs)

/-- `IntegerRing::idiv` with an integer, `src/integer_ring.cc:73-86` (first and last branch): `%` and `/` of `mpz_class` truncate. -/
def idivZ (lhs rhs : ℤ) : Step ℤ :=
  if rhs = 0 then .fail .invalidArgument lhs
  else if Int.tmod lhs rhs ≠ 0 then .fail .invalidArgument lhs
  else .done (Int.tdiv lhs rhs)

/-- `IntegerRing::imul` with a rational, `src/integer_ring.cc:66-67`: multiply by the numerator in place, then divide by the
denominator. -/
def imulQ (lhs : ℤ) (rhs : ℚ) : Step ℤ := (imulZ lhs rhs.num).andThen fun s => idivZ s rhs.den

/-- `IntegerRing::idiv` with a rational, `src/integer_ring.cc:74-75,79-80`. -/
def idivQ (lhs : ℤ) (rhs : ℚ) : Step ℤ :=
  if rhs = 0 then .fail .invalidArgument lhs
  else (imulZ lhs rhs.den).andThen fun s => idivZ s rhs.num

end IntegerRing

/-- `src/integer_ring.cc:29-86`; `quo` is `operator/` of `mpz_class`, i.e., truncated division. -/
instance : CRing IntegerRing ℤ where
  default := .mk
  ofValue _ _ := .mk
  compositum _ _ := .ok .mk
  coerce _ _ x := .ok x
  isField := false
  isIntegers := true
  quo a b := Int.tdiv a b
  unit x := x = 1 ∨ x = -1
  rational x := some x
  floor x := x
  imulZ := IntegerRing.imulZ
  imulQ := IntegerRing.imulQ
  imulR := IntegerRing.imulZ
  idivZ := IntegerRing.idivZ
  idivQ := IntegerRing.idivQ
  idivR := IntegerRing.idivZ

/-! ### RationalField -/

/-- `struct RationalField`: a single ring object up to `==`, `src/rational_field.cc:57-59`. -/
inductive RationalField
  | mk
  deriving DecidableEq

namespace RationalField

/-- `RationalField::floor`, `src/rational_field.cc:49-51`: `mpz_class` division truncates towards zero. -/
def floor (x : ℚ) : ℤ := Int.tdiv x.num x.den

/-- `RationalField::imul`, `src/rational_field.cc:61-68`, for any scalar. -/
def imul (lhs rhs : ℚ) : Step ℚ := .done (lhs * rhs)

/-- `RationalField::idiv`, `src/rational_field.cc:70-80`, for any scalar. -/
def idiv (lhs rhs : ℚ) : Step ℚ := if rhs = 0 then .fail .invalidArgument lhs else .done (lhs / rhs)

end RationalField

/-- `src/rational_field.cc:29-80`. -/
instance : CRing RationalField ℚ where
  default := .mk
  ofValue _ _ := .mk
  compositum _ _ := .ok .mk
  coerce _ _ x := .ok x
  isField := true
  isIntegers := false
  quo a b := a / b
  unit x := x ≠ 0
  rational x := some x
  floor x := RationalField.floor x
  imulZ c n := RationalField.imul c n
  imulQ := RationalField.imul
  imulR := RationalField.imul
  idivZ c n := RationalField.idiv c n
  idivQ := RationalField.idiv
  idivR := RationalField.idiv

/-! ### NumberField -/

/-- Real algebraic numbers: the values of `renf_elem_class` (e-antic, external). -/
abbrev AlgReal : Type := ↥(algebraicClosure ℚ ℝ)

/-- `struct NumberField`, `exact-real/number_field.hpp`: a number field with a real embedding, i.e., a field of real algebraic numbers
together with a presentation (defining polynomial, embedding and variable name): `operator==` (`src/number_field.cc:55-57`) compares
the e-antic fields, so the same field with two presentations gives two distinct objects.  `subfield` is the set of its elements; that it
has finite degree is not needed and not imposed. -/
structure NumberField where
  subfield : IntermediateField ℚ AlgReal
  presentation : ℕ

namespace NumberField

noncomputable instance : DecidableEq NumberField := Classical.decEq _
noncomputable instance : DecidableEq AlgReal := Classical.decEq _

open Classical in
/-- `NumberField::compositum`, `src/number_field.cc:36-41`; `degree() == 1` iff the field is ℚ. -/
noncomputable def compositum (lhs rhs : NumberField) : Out NumberField :=
  if lhs = rhs then .ok lhs
  else if lhs.subfield = ⊥ then .ok rhs
  else if rhs.subfield = ⊥ then .ok lhs
  else .throws .logicError

open Classical in
/-- `NumberField::rational`, `src/number_field.cc:51-53` (`is_rational` and the conversion are e-antic's, assumed exact). -/
noncomputable def rational (x : AlgReal) : Option ℚ :=
  if h : ∃ q : ℚ, algebraMap ℚ AlgReal q = x then some h.choose else none

/-- `NumberField::coerce`, `src/number_field.cc:63-72`, for an `x` whose parent is `src`. -/
noncomputable def coerce (self src : NumberField) (x : AlgReal) : Out AlgReal :=
  if src = self then .ok x
  else if (rational x).isSome then .ok x
  else .throws .logicError

/-- `NumberField::imul`, `src/number_field.cc:74-77`, for any scalar.  Simplification: e-antic throws when `rhs` belongs to a
different number field and neither is rational; here the product is always returned. -/
noncomputable def imul (lhs rhs : AlgReal) : Step AlgReal := .done (lhs * rhs)

/-- `NumberField::idiv`, `src/number_field.cc:79-85`, for any scalar; same simplification as for `imul`. -/
noncomputable def idiv (lhs rhs : AlgReal) : Step AlgReal := if rhs = 0 then .fail .invalidArgument lhs else .done (lhs / rhs)

end NumberField

/-- `src/number_field.cc:28-85`; arithmetic and `floor` of `renf_elem_class` are e-antic's, assumed exact. -/
noncomputable instance : CRing NumberField AlgReal where
  default := ⟨⊥, 0⟩
  ofValue parent _ := parent
  compositum := NumberField.compositum
  coerce := NumberField.coerce
  isField := true
  isIntegers := false
  quo a b := a / b
  unit x := x ≠ 0
  rational := NumberField.rational
  floor x := ⌊(x : ℝ)⌋
  imulZ c n := NumberField.imul c n
  imulQ c q := NumberField.imul c q
  imulR := NumberField.imul
  idivZ c n := NumberField.idiv c n
  idivQ c q := NumberField.idiv c q
  idivR := NumberField.idiv

end ExactReal
