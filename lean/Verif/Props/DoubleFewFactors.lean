import Verif.Props.ProductError
import Verif.Props.Random

/-! C34 for products of few random numbers: the conversion to `double` is as accurate as for the other numbers. -/

namespace ExactReal.Props
open ExactReal

/-- **C34** for products of random numbers whose number `n` of factors satisfies `4n ≤ 2^k < 6n` for a `k` (such as 2, 3, 4, 6, 7, 8, but
not 5): the result of `double(x)` is as close to `x` as any other double, up to
`2^-53·|x|`, which is the bound that holds for numbers which are not products. -/
theorem toDouble_few_factors_partial (atoms : Atoms) (m : Mono) (hm : ∀ p ∈ m, ∃ d, atoms p.1 = .random d) (k : ℕ)
    (h1 : 4 * (m.map Prod.snd).sum ≤ 2 ^ k) (h2 : 2 ^ k < 6 * (m.map Prod.snd).sum) (d : ℚ) (hd : (RN.prod m).toDouble atoms = .fin d) :
    Double.IsFinite d ∧ ∀ z, Double.IsRep z →
      |(d : ℝ) - (RN.prod m).real atoms| ≤ |(z : ℝ) - (RN.prod m).real atoms| + 2 ^ (-53 : ℤ) * |(RN.prod m).real atoms| := by
  have h54 := arf_relative_error_few_factors_partial atoms m hm k h1 h2 54
  unfold RN.toDouble Double.ofArf at hd
  by_cases c1 : 2 ^ 1024 ≤ Double.near ((RN.prod m).arf atoms 54)
  · rw [if_pos c1] at hd; cases hd
  rw [if_neg c1] at hd
  by_cases c2 : Double.near ((RN.prod m).arf atoms 54) ≤ -2 ^ 1024
  · rw [if_pos c2] at hd; cases hd
  rw [if_neg c2] at hd
  have hd' := Double.fin.inj hd
  subst hd'
  refine ⟨⟨Double.isRep_near _, abs_lt.2 ⟨not_le.1 c2, not_le.1 c1⟩⟩, fun z hz => ?_⟩
  have h1 := Double.near_le_dist hz ((RN.prod m).arf atoms 54)
  have h1' : |(Double.near ((RN.prod m).arf atoms 54) : ℝ) - (RN.prod m).arf atoms 54| ≤ |(z : ℝ) - (RN.prod m).arf atoms 54| := by
    exact_mod_cast h1
  have h2 := abs_sub_le (Double.near ((RN.prod m).arf atoms 54) : ℝ) ((RN.prod m).arf atoms 54) ((RN.prod m).real atoms)
  have h3 := abs_sub_le (z : ℝ) ((RN.prod m).real atoms) ((RN.prod m).arf atoms 54)
  rw [abs_sub_comm ((RN.prod m).real atoms)] at h3
  rw [show (2 : ℝ) ^ (-53 : ℤ) = 2 * 2 ^ (-54 : ℤ) by norm_num]
  linarith

/-- Products of two numbers, and squares, qualify. -/
theorem toDouble_two_factors_partial (atoms : Atoms) (i j : ℕ) (hi : ∃ d, atoms i = .random d) (hj : ∃ d, atoms j = .random d) (d : ℚ) :
    ((RN.prod [(i, 1), (j, 1)]).toDouble atoms = .fin d → ∀ z, Double.IsRep z → |(d : ℝ) - (RN.prod [(i, 1), (j, 1)]).real atoms| ≤
      |(z : ℝ) - (RN.prod [(i, 1), (j, 1)]).real atoms| + 2 ^ (-53 : ℤ) * |(RN.prod [(i, 1), (j, 1)]).real atoms|) ∧
    ((RN.prod [(i, 2)]).toDouble atoms = .fin d → ∀ z, Double.IsRep z → |(d : ℝ) - (RN.prod [(i, 2)]).real atoms| ≤
      |(z : ℝ) - (RN.prod [(i, 2)]).real atoms| + 2 ^ (-53 : ℤ) * |(RN.prod [(i, 2)]).real atoms|) :=
  ⟨fun h => (toDouble_few_factors_partial atoms _ (by simp [hi, hj]) 3 (by norm_num) (by norm_num) d h).2,
    fun h => (toDouble_few_factors_partial atoms _ (by simp [hi]) 3 (by norm_num) (by norm_num) d h).2⟩

end ExactReal.Props
