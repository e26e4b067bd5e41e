import Verif.Model.ArfSpecial
import Verif.Spec.Double
import Mathlib.Data.EReal.Basic

/-! # Specification vocabulary for `Arf` and `double` with infinities -/

namespace ExactReal

/-- The extended real number that a `double` other than NaN denotes. -/
noncomputable def Double.ereal : Double → EReal
  | .fin q => ((q : ℝ) : EReal)
  | .posInf => ⊤
  | .negInf => ⊥

/-- The extended real number that an `Arf` other than NaN denotes. -/
noncomputable def XArf.ereal : XArf → EReal
  | .fin q => ((q : ℝ) : EReal)
  | .posInf => ⊤
  | .negInf => ⊥
  | .nan => 0 -- not used

/-- The values of type `double`. -/
def XDouble.Valid : XDouble → Prop
  | .num (.fin q) => Double.IsFinite q
  | _ => True

/-- `os << double` writes digits, signs, a point, `e`, `inf` or `nan` but never `=`; `os << mpz_class` writes different decimal expansions for different
numbers, which contain neither `=` nor `p`. -/
structure XArf.Format.Valid (f : XArf.Format) : Prop where
  double_eq : ∀ d, '=' ∉ f.double d
  int_p : ∀ n, 'p' ∉ f.int n
  int_injective : Function.Injective f.int

end ExactReal
