import Verif.Model.Format
import Verif.Model.RealNumber
import Verif.Model.Module

/-!
# Printing real numbers and modules

A stream is modelled by the characters that are written to it.  `f` says how the stream writes doubles and integers (`Verif/Model/Format.lean`).
-/

namespace ExactReal.Print
open Text

/-- Strings with a separator between them. -/
def join (sep : Str) : List Str → Str
  | [] => []
  | [s] => s
  | s :: t :: ss => s ++ sep ++ join sep (t :: ss)

variable (f : XArf.Format)

/-- `RandomRealNumber::operator>>`, `src/random_real_number.cc:98-101`; the conversion to `double` is `src/real_number.cc:40-42`. -/
def randomText (d : Digits) : Str := "ℝ(".toList ++ f.double (.num (Double.ofArf (d.arf 54))) ++ "…)".toList

/-- `ConstrainedRandomRealNumber::operator>>`, `src/constrained_random_real_number.cc:105-111`, or that of a `RandomRealNumber`.
Line 107 compares the results of `boost::lexical_cast<string>(double)`, which are different for different doubles. -/
def atomText : Atom → Str
  | .random d => randomText f d
  | .constrained m e inner =>
    let initial := Arf.ofMantissaExponent m e
    let self := Double.ofArf (Atom.arf (.constrained m e inner) 54)
    "ℝ(".toList ++ XArf.print f (.fin initial) ++ " + ".toList ++ randomText f inner ++ "p".toList ++ f.int e ++ ")".toList ++
      if Double.ofArf initial = self then [] else "[∼".toList ++ f.double (.num self) ++ "]".toList

variable (atoms : Atoms)

/-- One factor of a product, `src/real_number_product.cc:428-432`. -/
def factorText (p : ℕ × ℕ) : Str := atomText f (atoms p.1) ++ if p.2 ≠ 1 then '^' :: f.int p.2 else []

/-- `operator<<(ostream&, const RealNumber&)`, `src/real_number.cc:221-224`: `src/rational_real_number.cc:52-55` (`mpq_class` is written like
`mpq_get_str` does), the above, and `src/real_number_product.cc:423-435`. -/
def realText : RN → Str
  | .rat q => f.int q.num ++ if q.den = 1 then [] else '/' :: f.int q.den
  | .atom i => atomText f (atoms i)
  | .prod m => join ['*'] (m.map (factorText f atoms))

/-- The three instances of the template: what is written for the ring, `src/module.cc:218-224`. -/
inductive RingName
  | integers
  | rationals
  | numberField

/-- `ℤ`, `ℚ` or `K`. -/
def RingName.text : RingName → Str
  | integers => "ℤ-Module(".toList
  | rationals => "ℚ-Module(".toList
  | numberField => "K-Module(".toList

/-- `operator<<(ostream&, const Module&)`, `src/module.cc:216-229`: generators are converted with `boost::lexical_cast<std::string>`, which uses a stream
with default settings; so `f` is `Format.default`. -/
def moduleText (ring : RingName) (basis : List RN) : Str := ring.text ++ join ", ".toList (basis.map (realText f atoms)) ++ ")".toList

end ExactReal.Print
