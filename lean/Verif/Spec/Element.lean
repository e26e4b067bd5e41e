import Verif.Model.Element
import Verif.Spec.Module
import Verif.Spec.Ring

/-!
# Specification vocabulary for elements

* `Elt.WF`: the module is well-formed, there is one coefficient for each generator and the coefficients are in the ring of the module.
* `Elt.real v x`: the real number that `x` stands for when atom `i` stands for the real number `v i`.
-/

namespace ExactReal.Elt
variable {P : Type} [DecidableEq P] {R : Type} [CommRing R] [DecidableEq R] [CRing P R]

/-- Representation invariant of an element. -/
structure WF [LawfulCRing P] (x : Elt P R) : Prop where
  mod : x.mod.WF
  length : x.coeffs.length = x.mod.basis.length
  mem : ∀ c ∈ x.coeffs, c ∈ LawfulCRing.mem x.mod.par

/-- The linear combination of the generators, in any commutative ℚ-algebra `A` into which coefficients and atoms are mapped. -/
def value {A : Type*} [CommRing A] [Algebra ℚ A] (ι : R →+* A) (v : ℕ → A) (x : Elt P R) : A :=
  (x.terms.map fun t => ι t.2 * t.1.value v).sum

/-- The real number denoted by a coefficient. -/
noncomputable def num (P : Type) [DecidableEq P] {R : Type} [CommRing R] [DecidableEq R] [CRing P R] [LawfulCRing P] : R →+* ℝ :=
  (algebraMap AlgReal ℝ).comp (LawfulCRing.emb P)

/-- The real number denoted by an element. -/
noncomputable def real [LawfulCRing P] (v : ℕ → ℝ) (x : Elt P R) : ℝ := x.value (num P) v

/-- No generator is the rational number zero. -/
def NoZeroGen (x : Elt P R) : Prop := .rat 0 ∉ x.mod.basis

end ExactReal.Elt

namespace ExactReal.Mod
variable {P : Type}

/-- The rational generator, if there is one, is the number one (this is how modules are usually set up). -/
def Unital (m : Mod P) : Prop := ∀ q : ℚ, .rat q ∈ m.basis → q = 1

end ExactReal.Mod
