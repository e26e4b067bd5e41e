import Verif.Conformance.Random
import Verif.Model.BallBounds
import Verif.Model.DerivedOrder
import Verif.Model.Yap

/-!
# Conformance: floating point numbers, balls and real numbers

The documentation in the headers of the library consists of small programs together with their output; the project's test suite runs them.  Here these
programs are run in the model.  These are tests of the model, not proofs of properties.
-/

namespace ExactReal.Conformance
open ExactReal Print Props

/-- `std::cout << x` for a finite `Arf`. -/
def out (x : ℚ) : String := String.ofList (XArf.print Format.default (.fin x))

/-! ### `exact-real/arf.hpp` -/

example : out 0 = "0" := by decide +kernel
example : out 1 = "1" := by decide +kernel
-- Arf("abc", 16, -8)
example : (Text.setStr 16 "abc".toList).map (fun m => out (Arf.ofMantissaExponent m (-8))) = some "10.7344=687p-6" := by decide +kernel
-- Arf(2748, -8)
example : out (Arf.ofMantissaExponent 2748 (-8)) = "10.7344=687p-6" := by decide +kernel
example : out 2748 = "2748" := by decide +kernel
-- 0.3 as a double
example : out (Double.near (3 / 10)) = "0.3=5404319552844595p-54" := by decide +kernel
example : XArf.print Format.default (XArf.neg (.fin 1)) = "-1".toList := by decide +kernel
-- static_cast<double>(Arf{1, -65536})
example : Format.default.double (.num (Double.ofArf (Arf.ofMantissaExponent 1 (-65536)))) = "0".toList := by decide +kernel
example : Format.default.double (.num (Double.ofArf (Arf.round .near 64 (Arf.ofMantissaExponent 1 (-65536) * Arf.ofMantissaExponent 1 65536)))) = "1".toList := by
  decide +kernel
example : XArf.print Format.default (XArf.abs (.fin (-1))) = "1".toList := by decide +kernel
example : Arf.floor (-1 / 2) = -1 := by decide +kernel
example : Arf.ceil (-1 / 2) = 0 := by decide +kernel
example : Arf.mantissa (-1) = -1 := by decide +kernel
example : Arf.exponent (-1) = 0 := by decide +kernel
example : Arf.logb 1025 = 10 := by decide +kernel
example : out (Arf.shiftRight (-1) 8) = "-0.00390625=-1p-8" := by decide +kernel
example : out (Arf.shiftLeft (-1) 8) = "-256" := by decide +kernel
example : XArf.ltLong (.fin 1) 2 = true := by decide +kernel
example : XArf.le (.fin 1) (.fin 1) = true := by decide +kernel
example : out (Arf.ofMantissaExponent 1 (-16)) = "1.52588e-05=1p-16" := by decide +kernel

/-! ### `exact-real/arb.hpp`

The printed form of balls is computed by FLINT and not modelled; what is shown are midpoints and radii.  `Arb(mpq_class)` divides with precision 64. -/

/-- `Arb(1/3)`: the quotient is rounded to 64 bits and the radius is one unit in the last place. -/
def third : Ball := ⟨6148914691236517205 / 2 ^ 64, some (1 / 2 ^ 65)⟩

-- the exact midpoint
example : out third.mid = "0.333333=6148914691236517205p-64" := by decide +kernel
-- the bounds
example : third.interval = .ok (1537228672809129301 / 2 ^ 62, 3074457345618258603 / 2 ^ 63) := by decide +kernel
example : out (1537228672809129301 / 2 ^ 62) = "0.333333=1537228672809129301p-62" := by decide +kernel
example : out (3074457345618258603 / 2 ^ 63) = "0.333333=3074457345618258603p-63" := by decide +kernel
example : third.lt (Ball.exact 1) = some true := by decide +kernel
example : third.lt third = none := by decide +kernel
-- Arb(pair(0, 1)) is printed as [0.500000 +/- 0.501]
example : Ball.ofBounds 0 1 64 = .ok ⟨1 / 2, some (1 / 2)⟩ := by decide +kernel
example : (XBall.unitInterval.mid, XBall.unitInterval.rad) = (.fin (1 / 2), some (1 / 2)) := by decide +kernel
example : XBall.posInf = XBall.ofArf .posInf ∧ XBall.posInf.isFinite = false ∧ XBall.one.isExact = true ∧ XBall.one.isFinite = true := by decide +kernel
example : XBall.equal .zero .zero = true := by decide +kernel

/-! ### `exact-real/real_number.hpp` -/

/-- The real number number `i` of a session, with seed 1337 + i. -/
def A : Atoms := fun i => .random (Rand48.digits (1337 + UInt32.ofNat i))

/-- `RealNumber::rational(mpq_class{1, 3})`. -/
def x : RN := .rat (1 / 3)

example : (RN.rat 1).toDouble A = .fin 1 := by decide +kernel
example : (RN.rat 0).toBool = false := by decide +kernel
example : (RN.rat 1).rational? = some 1 ∧ (RN.atom 0).rational? = none := by decide +kernel
-- x->arf(3), x->arf(64)
example : out (x.arf A 3) = "0.3125=5p-4" := by decide +kernel
example : out (x.arf A 64) = "0.333333=12297829382473034411p-65" := by decide +kernel
-- x->arb(3) is printed as [0.312500 +/- 0.0157]
example : x.arb A 3 = ⟨5 / 16, some (1 / 2 ^ 6)⟩ := by decide +kernel
-- x->arb(64) is printed as [0.33333333333333333334236835143738 +/- 6.78e-21]
example : x.arb A 64 = ⟨12297829382473034411 / 2 ^ 65, some (1 / 2 ^ 67)⟩ := by decide +kernel
-- x->refine(a, 2) and x->refine(a, 16) are printed as [0.375000 +/- 0.0313] and [0.333336 +/- 2.04e-6]
example : x.refine A ⟨1 / 2, some (1 / 2)⟩ 2 = ⟨3 / 8, some (1 / 2 ^ 5)⟩ := by decide +kernel
example : x.refine A ⟨3 / 8, some (1 / 2 ^ 5)⟩ 16 = ⟨43691 / 2 ^ 17, some (1 / 2 ^ 19)⟩ := by decide +kernel
-- *x < 1, *x == mpq_class{1, 3}, *x == x->arf(64)
example : RN.ltArf A 5 x 1 = .ok true := by decide +kernel
example : RN.eqQ x (1 / 3) = true := by decide +kernel
example : RN.eqArf x (x.arf A 64) = false := by decide +kernel
-- x->cmp([0, 1]) is 0 in the documentation; it asks FLINT for bounds with precision -1, which FLINT does not support, so the model does not say what happens.
example : RN.cmp A x ⟨1 / 2, some (1 / 2)⟩ = .ub := by decide +kernel
example : RN.cmp A x (x.arb A 3) = .ok 0 ∧ RN.cmp A x (Ball.exact 0) = .ok 1 ∧ RN.cmp A x (Ball.exact 1) = .ok (-1) := by decide +kernel

/-- What is printed for a real number in a session with seeds 1337 and 1338, where the numbers without atoms are not needed. -/
def text (x : RN) : String := String.ofList (realText Format.default twoAtoms x)

-- the product of 1/3 and 1/3, of a random number with itself and with another one
example : RN.mul x x = .ok (.rat (1 / 9)) := by decide +kernel
example : RN.mul (.atom 0) (.atom 0) = .ok (.prod [(0, 2)]) := by decide +kernel
example : RN.mul (.atom 0) (.atom 1) = .ok (.prod [(0, 1), (1, 1)]) := by decide +kernel
-- quotients: z / z, z / y, y / z for z = y * y
example : RN.div (.prod [(0, 2)]) (.prod [(0, 2)]) = .ok (some (.rat 1)) := by decide +kernel
example : RN.div (.prod [(0, 2)]) (.atom 0) = .ok (some (.atom 0)) := by decide +kernel
example : RN.div (.atom 0) (.prod [(0, 2)]) = .ok none := by decide +kernel
-- their printed form
example : text (.rat (1 / 9)) = "1/9" := by decide +kernel

/-- The text for one of the two random numbers. -/
theorem atom_text : atomText Format.default (twoAtoms 0) = "ℝ(0.303644…)".toList ∧ atomText Format.default (twoAtoms 1) = "ℝ(0.120809…)".toList :=
  ⟨random_print_1337, random_print_1338⟩

example : text (.prod [(0, 2)]) = "ℝ(0.303644…)^2" := by
  simp only [text, realText, List.map, factorText, join, atom_text]; decide +kernel
example : text (.prod [(0, 1), (1, 1)]) = "ℝ(0.303644…)*ℝ(0.120809…)" := by
  simp only [text, realText, List.map, factorText, join, atom_text]; decide +kernel

/-- `pyexactreal/test/element.py:34` and `exact_reals.py:24,27,30`. -/
example : String.ofList (moduleText Format.default twoAtoms .integers [.rat 1, .atom 0, .prod [(0, 2)]]) = "ℤ-Module(1, ℝ(0.303644…), ℝ(0.303644…)^2)" := by
  simp only [moduleText, realText, List.map, factorText, join, atom_text]; decide +kernel
example : String.ofList (moduleText Format.default twoAtoms .rationals [.prod [(0, 2)]]) = "ℚ-Module(ℝ(0.303644…)^2)" := by
  simp only [moduleText, realText, List.map, factorText, join, atom_text]; decide +kernel
example : String.ofList (moduleText Format.default twoAtoms .rationals [.rat 1, .atom 0]) = "ℚ-Module(1, ℝ(0.303644…))" := by
  simp only [moduleText, realText, List.map, factorText, join, atom_text]; decide +kernel

/-! ### `test/real_number_product.test.cc` -/

-- "Quotient of Real Numbers": all divisions of the test
def quotients : List (RN × RN × Option RN) := [
  (.rat 1, .rat 1, some (.rat 1)), (.rat 1, .atom 0, none), (.rat 1, .atom 1, none),
  (.rat 1, .prod [(0, 2)], none), (.rat 1, .prod [(0, 1), (1, 1)], none), (.rat 1, .prod [(1, 2)], none),
  (.rat 1, .prod [(0, 3)], none), (.rat 1, .prod [(0, 2), (1, 1)], none), (.rat 1, .prod [(0, 1), (1, 2)], none),
  (.rat 1, .prod [(1, 3)], none), (.atom 0, .rat 1, some (.atom 0)), (.atom 0, .atom 0, some (.rat 1)),
  (.atom 0, .atom 1, none), (.atom 0, .prod [(0, 2)], none), (.atom 0, .prod [(0, 1), (1, 1)], none),
  (.atom 0, .prod [(1, 2)], none), (.atom 0, .prod [(0, 3)], none), (.atom 0, .prod [(0, 2), (1, 1)], none),
  (.atom 0, .prod [(0, 1), (1, 2)], none), (.atom 0, .prod [(1, 3)], none), (.atom 1, .rat 1, some (.atom 1)),
  (.atom 1, .atom 0, none), (.atom 1, .atom 1, some (.rat 1)), (.atom 1, .prod [(0, 2)], none),
  (.atom 1, .prod [(0, 1), (1, 1)], none), (.atom 1, .prod [(1, 2)], none), (.atom 1, .prod [(0, 3)], none),
  (.atom 1, .prod [(0, 2), (1, 1)], none), (.atom 1, .prod [(0, 1), (1, 2)], none), (.atom 1, .prod [(1, 3)], none),
  (.prod [(0, 2)], .rat 1, some (.prod [(0, 2)])), (.prod [(0, 2)], .atom 0, some (.atom 0)), (.prod [(0, 2)], .atom 1, none),
  (.prod [(0, 2)], .prod [(0, 2)], some (.rat 1)), (.prod [(0, 2)], .prod [(0, 1), (1, 1)], none), (.prod [(0, 2)], .prod [(1, 2)], none),
  (.prod [(0, 2)], .prod [(0, 3)], none), (.prod [(0, 2)], .prod [(0, 2), (1, 1)], none), (.prod [(0, 2)], .prod [(0, 1), (1, 2)], none),
  (.prod [(0, 2)], .prod [(1, 3)], none), (.prod [(0, 1), (1, 1)], .rat 1, some (.prod [(0, 1), (1, 1)])), (.prod [(0, 1), (1, 1)], .atom 0, some (.atom 1)),
  (.prod [(0, 1), (1, 1)], .atom 1, some (.atom 0)), (.prod [(0, 1), (1, 1)], .prod [(0, 2)], none), (.prod [(0, 1), (1, 1)], .prod [(0, 1), (1, 1)], some (.rat 1)),
  (.prod [(0, 1), (1, 1)], .prod [(1, 2)], none), (.prod [(0, 1), (1, 1)], .prod [(0, 3)], none), (.prod [(0, 1), (1, 1)], .prod [(0, 2), (1, 1)], none),
  (.prod [(0, 1), (1, 1)], .prod [(0, 1), (1, 2)], none), (.prod [(0, 1), (1, 1)], .prod [(1, 3)], none), (.prod [(1, 2)], .rat 1, some (.prod [(1, 2)])),
  (.prod [(1, 2)], .atom 0, none), (.prod [(1, 2)], .atom 1, some (.atom 1)), (.prod [(1, 2)], .prod [(0, 2)], none),
  (.prod [(1, 2)], .prod [(0, 1), (1, 1)], none), (.prod [(1, 2)], .prod [(1, 2)], some (.rat 1)), (.prod [(1, 2)], .prod [(0, 3)], none),
  (.prod [(1, 2)], .prod [(0, 2), (1, 1)], none), (.prod [(1, 2)], .prod [(0, 1), (1, 2)], none), (.prod [(1, 2)], .prod [(1, 3)], none),
  (.prod [(0, 3)], .rat 1, some (.prod [(0, 3)])), (.prod [(0, 3)], .atom 0, some (.prod [(0, 2)])), (.prod [(0, 3)], .atom 1, none),
  (.prod [(0, 3)], .prod [(0, 2)], some (.atom 0)), (.prod [(0, 3)], .prod [(0, 1), (1, 1)], none), (.prod [(0, 3)], .prod [(1, 2)], none),
  (.prod [(0, 3)], .prod [(0, 3)], some (.rat 1)), (.prod [(0, 3)], .prod [(0, 2), (1, 1)], none), (.prod [(0, 3)], .prod [(0, 1), (1, 2)], none),
  (.prod [(0, 3)], .prod [(1, 3)], none), (.prod [(0, 2), (1, 1)], .rat 1, some (.prod [(0, 2), (1, 1)])), (.prod [(0, 2), (1, 1)], .atom 0, some (.prod [(0, 1), (1, 1)])),
  (.prod [(0, 2), (1, 1)], .atom 1, some (.prod [(0, 2)])), (.prod [(0, 2), (1, 1)], .prod [(0, 2)], some (.atom 1)), (.prod [(0, 2), (1, 1)], .prod [(0, 1), (1, 1)], some (.atom 0)),
  (.prod [(0, 2), (1, 1)], .prod [(1, 2)], none), (.prod [(0, 2), (1, 1)], .prod [(0, 3)], none), (.prod [(0, 2), (1, 1)], .prod [(0, 2), (1, 1)], some (.rat 1)),
  (.prod [(0, 2), (1, 1)], .prod [(0, 1), (1, 2)], none), (.prod [(0, 2), (1, 1)], .prod [(1, 3)], none), (.prod [(0, 1), (1, 2)], .rat 1, some (.prod [(0, 1), (1, 2)])),
  (.prod [(0, 1), (1, 2)], .atom 0, some (.prod [(1, 2)])), (.prod [(0, 1), (1, 2)], .atom 1, some (.prod [(0, 1), (1, 1)])), (.prod [(0, 1), (1, 2)], .prod [(0, 2)], none),
  (.prod [(0, 1), (1, 2)], .prod [(0, 1), (1, 1)], some (.atom 1)), (.prod [(0, 1), (1, 2)], .prod [(1, 2)], some (.atom 0)), (.prod [(0, 1), (1, 2)], .prod [(0, 3)], none),
  (.prod [(0, 1), (1, 2)], .prod [(0, 2), (1, 1)], none), (.prod [(0, 1), (1, 2)], .prod [(0, 1), (1, 2)], some (.rat 1)), (.prod [(0, 1), (1, 2)], .prod [(1, 3)], none),
  (.prod [(1, 3)], .rat 1, some (.prod [(1, 3)])), (.prod [(1, 3)], .atom 0, none), (.prod [(1, 3)], .atom 1, some (.prod [(1, 2)])),
  (.prod [(1, 3)], .prod [(0, 2)], none), (.prod [(1, 3)], .prod [(0, 1), (1, 1)], none), (.prod [(1, 3)], .prod [(1, 2)], some (.atom 1)),
  (.prod [(1, 3)], .prod [(0, 3)], none), (.prod [(1, 3)], .prod [(0, 2), (1, 1)], none), (.prod [(1, 3)], .prod [(0, 1), (1, 2)], none),
  (.prod [(1, 3)], .prod [(1, 3)], some (.rat 1))]

example : quotients.all (fun (a, b, q) => RN.div a b = .ok q) = true := by decide +kernel

-- "DegLex Order of Real Numbers", with x < y
example : [(RN.rat 1, RN.rat 1), (.rat 1, .rat 2), (.atom 0, .rat 1), (.prod [(0, 1), (1, 1)], .rat 1), (.prod [(0, 2)], .atom 0), (.prod [(0, 2)], .atom 1),
    (.prod [(0, 3)], .prod [(0, 2)]), (.prod [(0, 1), (1, 2)], .prod [(0, 2)]), (.atom 1, .atom 0), (.prod [(0, 1), (1, 1)], .prod [(0, 2)]),
    (.prod [(1, 2)], .prod [(0, 2)]), (.prod [(1, 2)], .prod [(0, 1), (1, 1)])].all (fun (a, b) => RN.deglex a b = .ok false) = true := by decide +kernel
example : [(RN.rat 1, RN.atom 0), (.rat 1, .prod [(0, 1), (1, 1)]), (.atom 0, .prod [(0, 2)]), (.atom 1, .prod [(0, 2)]), (.prod [(0, 2)], .prod [(0, 3)]),
    (.prod [(0, 2)], .prod [(0, 2), (1, 1)]), (.prod [(0, 2)], .prod [(0, 1), (1, 2)]), (.atom 0, .atom 1), (.prod [(0, 2)], .prod [(0, 1), (1, 1)]),
    (.prod [(0, 2)], .prod [(1, 2)]), (.prod [(0, 1), (1, 1)], .prod [(1, 2)])].all (fun (a, b) => RN.deglex a b = .ok true) = true := by decide +kernel

-- "Product of Real Numbers": products of a rational other than one and a random number throw
example : RN.mul (.rat (2 / 3)) (.atom 0) = .throws .logicError ∧ RN.mul (.atom 0) (.rat (-3 / 2)) = .throws .logicError ∧
    RN.mul (.rat (2 / 3)) (.rat (-3 / 2)) = .ok (.rat (-1)) := by decide +kernel

end ExactReal.Conformance
