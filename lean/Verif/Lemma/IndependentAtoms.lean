import Verif.Lemma.Independent
import Verif.Lemma.ElementApprox
import Mathlib.Analysis.Real.OfDigits
import Mathlib.RingTheory.AlgebraicIndependent.Transcendental

/-! There are atoms whose values are algebraically independent. -/

namespace ExactReal

/-- Every number strictly between zero and one is the value of a random real number. -/
theorem exists_digits {t : ℝ} (h0 : 0 < t) (h1 : t < 1) : ∃ d : Digits, d.value = t := by
  have hs := Real.hasSum_ofDigitsTerm_digits t (b := 2) (by norm_num) ⟨h0.le, h1⟩
  set f := Real.digits t 2
  have hterm : ∀ i, Real.ofDigitsTerm f i = if decide (f i = 1) then (1 / 2 : ℝ) ^ (i + 1) else 0 := by
    intro i
    rw [Real.ofDigitsTerm]
    have : f i = 0 ∨ f i = 1 := by omega
    rcases this with h | h <;> simp [h]
  have hex : ∃ i, (fun i => decide (f i = 1)) i = true := by
    by_contra hno
    have : ∀ i, Real.ofDigitsTerm f i = 0 := fun i => by
      rw [hterm, if_neg]
      intro h; exact hno ⟨i, h⟩
    have h2 : HasSum (Real.ofDigitsTerm f) 0 := by
      have : Real.ofDigitsTerm f = fun _ => 0 := funext this
      rw [this]; exact hasSum_zero
    exact h0.ne (h2.unique hs)
  refine ⟨⟨fun i => decide (f i = 1), hex⟩, ?_⟩
  rw [Digits.value, ← hs.tsum_eq]
  exact tsum_congr fun i => (hterm i).symm

/-- The completeness theorems apply: there are atoms with algebraically independent values. -/
theorem exists_independent_atoms : ∃ atoms : Atoms, AlgebraicIndependent ℚ atoms.vals := by
  obtain ⟨v, hv⟩ := exists_independent
  have hw := hv.polynomial_aeval_of_transcendental (f := fun i => Polynomial.X - Polynomial.C (⌊v i⌋ : ℚ)) fun i => by
    exact Polynomial.transcendental _ (by rw [Polynomial.natDegree_X_sub_C]; norm_num) (by rw [Polynomial.leadingCoeff_X_sub_C]; exact one_mem _)
  have he : (fun i => Polynomial.aeval (v i) (Polynomial.X - Polynomial.C (⌊v i⌋ : ℚ))) = fun i => Int.fract (v i) := by
    funext i
    rw [map_sub, Polynomial.aeval_X, Polynomial.aeval_C, Int.fract]
    congr 1
  rw [he] at hw
  have hd : ∀ i, ∃ d : Digits, d.value = Int.fract (v i) := fun i => by
    refine exists_digits (lt_of_le_of_ne (Int.fract_nonneg _) fun h => ?_) (Int.fract_lt_one _)
    exact hw.ne_zero i h.symm
  choose d hd using hd
  exact ⟨fun i => .random (d i), by rw [show Atoms.vals (fun i => .random (d i)) = fun i => Int.fract (v i) from funext hd]; exact hw⟩

end ExactReal
