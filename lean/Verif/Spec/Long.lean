import Verif.Model.Long
import Verif.Spec.Ball

/-!
# Numbers of moderate size
-/

namespace ExactReal

/-- A random number with at most `L` leading zeros, or one in an interval `[m·2^e, (m + 1)·2^e]` where `m` has at most `L` bits and `e` is
at most `L`. -/
def Atom.Moderate (L : ℕ) : Atom → Prop
  | .random d => d.first ≤ L
  | .constrained m e inner => inner.first ≤ L ∧ |e| ≤ L ∧ |m| < 2 ^ L

/-- A number between `2 ^ (-L)` and `2 ^ L` (up to the sign) or zero; if it is a product then a product of at most `2 ^ 31` random numbers. -/
def RN.Moderate (atoms : Atoms) (L : ℕ) (x : RN) : Prop :=
  (x.real atoms = 0 ∨ (2 : ℝ) ^ (-(L : ℤ)) ≤ |x.real atoms| ∧ |x.real atoms| ≤ 2 ^ L) ∧
    match x with
    | .rat _ => True
    | .atom i => (atoms i).Moderate L
    | .prod m => (m.map Prod.snd).sum ≤ 2 ^ 31 ∧ ∀ p ∈ m, (atoms p.1).Moderate L

end ExactReal
