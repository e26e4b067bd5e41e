import Mathlib.RingTheory.AlgebraicIndependent.RankAndCardinality
import Mathlib.Analysis.Real.Cardinality
import Mathlib.Algebra.AlgebraicCard

/-! There are infinitely many algebraically independent real numbers (so the hypothesis used in completeness theorems is satisfiable). -/

namespace ExactReal

open Cardinal in
theorem infinite_of_isTranscendenceBasis {s : Set ℝ} (hs : IsTranscendenceBasis ℚ ((↑) : s → ℝ)) : Infinite s := by
    by_contra hfin
    rw [not_infinite_iff_finite] at hfin
    have hle : #ℝ ≤ ℵ₀ := by
      by_cases hne : Nonempty s
      · have := hs.lift_cardinalMk_eq_max_lift
        simp only [lift_id, Cardinal.mkRat] at this
        rw [this]
        have : #s ≤ ℵ₀ := Cardinal.mk_le_aleph0
        simp [this]
      · exfalso
        have h2 := hs.nonempty_iff_transcendental.not.1 hne
        have hall : ∀ x : ℝ, IsAlgebraic ℚ x := by
          by_contra hcon
          rw [not_forall] at hcon
          exact h2 ⟨hcon⟩
        have hc := Algebraic.countable ℚ ℝ
        have hu : {x : ℝ | IsAlgebraic ℚ x} = Set.univ := Set.eq_univ_of_forall hall
        rw [hu] at hc
        exact Cardinal.not_countable_real hc
    rw [Cardinal.mk_real] at hle
    exact absurd hle (not_le.2 Cardinal.aleph0_lt_continuum)

theorem exists_independent : ∃ v : ℕ → ℝ, AlgebraicIndependent ℚ v := by
  obtain ⟨s, hs⟩ := exists_isTranscendenceBasis ℚ ℝ
  have hinf : Infinite s := infinite_of_isTranscendenceBasis hs
  exact ⟨_, hs.1.comp _ (Infinite.natEmbedding s).injective⟩

end ExactReal
