import Verif.Model.PythonRing
import Mathlib.Algebra.MvPolynomial.CommRing

/-!
# Identities of commutative rings
-/

namespace ExactReal.Py

/-- What an expression means in a commutative ring `A`. -/
def RExpr.value {A : Type} [CommRing A] (a : ℕ → A) : RExpr → A
  | var i => a i
  | int n => n
  | add s t => s.value a + t.value a
  | sub s t => s.value a - t.value a
  | mul s t => s.value a * t.value a
  | neg s => -s.value a
  | scale n s => n * s.value a

/-- Two expressions that are equal in every commutative ring, for example `(x + y)*(x - y)` and `x*x - y*y`. -/
def RExpr.Identity (s t : RExpr) : Prop := ∀ (A : Type) [CommRing A] (a : ℕ → A), s.value a = t.value a

end ExactReal.Py
