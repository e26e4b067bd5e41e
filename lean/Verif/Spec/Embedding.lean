import Verif.Spec.Effort
import Verif.Model.Embedding

/-!
# Coefficients in number fields whose embedding is refined as needed

What is asked of the balls of coefficients: what `CoeffLawful` and `CoeffAccurate` ask, whatever the field has been refined to before.
-/

namespace ExactReal

/-- The ball of a coefficient for `prec` bits if the field knew `level` digits of its generator before it was refined for that. -/
def coeffAt {R : Type} (coeff : ℕ → ℕ → R → Ball) (level prec : ℕ) (c : R) : Ball := coeff (max level prec) prec c

/-- Contract of `Arb(renf_elem_class, prec)`: whatever the level was before, the balls are finite, contain the coefficient and shrink to it. -/
def EmbeddingLawful (P : Type) [DecidableEq P] {R : Type} [CommRing R] [DecidableEq R] [CRing P R] [LawfulCRing P] (coeff : ℕ → ℕ → R → Ball) : Prop :=
  ∀ level, CoeffLawful P (coeffAt coeff level)

/-- The same with rates. -/
def EmbeddingAccurate (P : Type) [DecidableEq P] {R : Type} [CommRing R] [DecidableEq R] [CRing P R] [LawfulCRing P] (coeff : ℕ → ℕ → R → Ball) : Prop :=
  ∀ level, CoeffAccurate P (coeffAt coeff level)

end ExactReal
