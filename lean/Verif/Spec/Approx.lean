import Verif.Model.Approx
import Verif.Spec.RealNumber
import Mathlib.Topology.Algebra.InfiniteSum.Real
import Mathlib.Analysis.SpecificLimits.Basic

/-!
# The numbers behind the approximations

The real number that an infinite sequence of binary digits denotes, and the real numbers that the atoms denote
(`src/random_real_number.cc:58`, "a random real number in [0, 1]"; `src/constrained_random_real_number.cc:146-149`,
"`initial + inner·2^(e - 1)`").
-/

namespace ExactReal

/-- `∑ dᵢ 2^-(i+1)`. -/
noncomputable def Digits.value (d : Digits) : ℝ := ∑' i, if d.digit i then (1 / 2 : ℝ) ^ (i + 1) else 0

/-- The number that an atom stands for. -/
noncomputable def Atom.value : Atom → ℝ
  | .random d => d.value
  | .constrained m e inner => m * 2 ^ e + inner.value * 2 ^ (e - 1)

/-- The number that a real number object stands for when its atoms are `atoms`. -/
noncomputable def RN.real (atoms : Atoms) (x : RN) : ℝ := x.value fun i => (atoms i).value

end ExactReal
