import Verif.Model.Element

/-!
# Rational coefficients of an element
-/

namespace ExactReal

/-- What e-antic provides for the elements of the number field generated by `gen`: `renf_class::degree`, `renf_elem_class::num_vector` (the
coefficients of a polynomial in the generator that represents the numerator, maybe without trailing zeros) and `renf_elem_class::den`. -/
structure NumVector (gen : AlgReal) where
  degree : ℕ
  numVector : AlgReal → List ℤ
  den : AlgReal → ℕ

/-- The documented behaviour of e-antic. -/
structure NumVector.Lawful {gen : AlgReal} (nv : NumVector gen) : Prop where
  degree_eq : nv.degree = Module.finrank ℚ (IntermediateField.adjoin ℚ {gen})
  length_le : ∀ x ∈ IntermediateField.adjoin ℚ {gen}, (nv.numVector x).length ≤ nv.degree
  den_pos : ∀ x, 0 < nv.den x
  value : ∀ x ∈ IntermediateField.adjoin ℚ {gen},
    x = (∑ j ∈ Finset.range (nv.numVector x).length, ((nv.numVector x).getD j 0 : AlgReal) * gen ^ j) / (nv.den x : AlgReal)

namespace Elt

/-- `rationalCoefficients` over the integers, `src/element.cc:162-165`. -/
def rationalCoefficientsZ (x : Elt IntegerRing ℤ) : List ℚ := x.coeffs.map fun c : ℤ => (c : ℚ)

/-- `rationalCoefficients` over the rationals, `src/element.cc:166-167`. -/
def rationalCoefficientsQ (x : Elt RationalField ℚ) : List ℚ := x.coeffs

/-- The entries for one coefficient, `src/element.cc:170-182`.  (The assertion in line 178 holds for lawful `NumVector`s.) -/
def rationalEntries {gen : AlgReal} (nv : NumVector gen) (c : AlgReal) : List ℚ :=
  ((nv.numVector c).map fun num : ℤ => (num : ℚ) / (nv.den c : ℚ)) ++ List.replicate (nv.degree - (nv.numVector c).length) 0

/-- `rationalCoefficients` over a number field, `src/element.cc:168-184`. -/
def rationalCoefficientsNF {gen : AlgReal} (nv : NumVector gen) (x : Elt NumberField AlgReal) : List ℚ := x.coeffs.flatMap (rationalEntries nv)

end Elt

end ExactReal
