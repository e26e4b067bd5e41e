import Verif.Model.RealNumber
import Mathlib.Algebra.Algebra.Rat
import Mathlib.Algebra.BigOperators.Finsupp.Basic
import Mathlib.Data.Real.Basic
import Mathlib.Data.Finsupp.Weight

/-!
# Specification vocabulary for real numbers

* `RN.WF`: the representation invariant of `RealNumberProduct` (constructor assertions of `src/real_number_product.cc:415-419` plus
  sortedness).
* `RN.value v x`: the number denoted by `x` when atom `i` stands for `v i`.  The target is an arbitrary commutative ℚ-algebra, so the
  same definition gives real values (`A = ℝ`) and formal polynomials.
* `RN.mult x`: how often each atom occurs in `x`.
-/

namespace ExactReal

open Finsupp

namespace Mono

/-- Canonical list: strictly increasing ids, positive exponents. -/
structure Canon (m : Mono) : Prop where
  sorted : m.Pairwise fun p q => p.1 < q.1
  pos : ∀ p ∈ m, 0 < p.2

/-- The multiplicity of each atom in a list. -/
noncomputable def mult (m : Mono) : ℕ →₀ ℕ := (m.map fun p => single p.1 p.2).sum

/-- The value of a list of atoms with exponents. -/
def value {A : Type*} [CommMonoid A] (v : ℕ → A) (m : Mono) : A := (m.map fun p => v p.1 ^ p.2).prod

end Mono

namespace RN

/-- Representation invariant of a real number. -/
def WF : RN → Prop
  | rat _ => True
  | atom _ => True
  | prod m => m.Canon ∧ 2 ≤ (m.map Prod.snd).sum

/-- The number denoted by a real number object, given the numbers the atoms stand for. -/
def value {A : Type*} [CommRing A] [Algebra ℚ A] (v : ℕ → A) : RN → A
  | rat q => algebraMap ℚ A q
  | atom i => v i
  | prod m => m.value v

/-- How often each atom occurs in a real number (rationals contain no atoms). -/
noncomputable def mult : RN → ℕ →₀ ℕ
  | rat _ => 0
  | atom i => single i 1
  | prod m => m.mult

end RN

end ExactReal

namespace ExactReal

/-- The order that `deglex` is meant to implement, on multiplicities of atoms: smaller total degree first; for equal degree look at the
atom with the smallest identity on which the two products differ, the product that has it more often comes first
(`x² < x·y < y²` if `x` has the smaller identity). -/
def Precedes (f g : ℕ →₀ ℕ) : Prop :=
  f.degree < g.degree ∨ (f.degree = g.degree ∧ ∃ i, (∀ j < i, f j = g j) ∧ g i < f i)

end ExactReal
