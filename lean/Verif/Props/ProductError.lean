import Verif.Lemma.ProductError
import Verif.Props.Approx

/-! # C24 for products whose number of factors leaves room to the next power of two

`RealNumberProduct::arf_` computes with `prec + ⌈log₂ 3n⌉` bits for a product of `n` factors (counted with multiplicity).  The documented
relative error `2^-prec` then holds when `4n` is at most that power of two, i.e., when there is a power of two `2^k` with
`4n ≤ 2^k < 6n`: for `n = 2, 3, 4, 6, 7, 8, 11, …, 16, 22, …, 32, …`.  For `n = 5` it fails (`arf_relative_error_fails`). -/

namespace ExactReal.Props

open Arf

/-- **C24** for products of random numbers: the relative error is at most the documented `2^-prec`, for every precision, when a power of
two lies between `4n` and `6n` for the number `n` of factors. -/
theorem arf_relative_error_few_factors_partial (atoms : Atoms) (m : Mono) (hm : ∀ p ∈ m, ∃ d, atoms p.1 = .random d) (k : ℕ)
    (h1 : 4 * (m.map Prod.snd).sum ≤ 2 ^ k) (h2 : 2 ^ k < 6 * (m.map Prod.snd).sum) (prec : ℤ) :
    |((RN.prod m).arf atoms prec : ℝ) - (RN.prod m).real atoms| ≤ 2 ^ (-prec) * |(RN.prod m).real atoms| := by
  refine (RN.prod_rel_few atoms m hm k prec.toNat h1 h2).trans (mul_le_mul_of_nonneg_right (zmonoR ?_) (abs_nonneg _))
  omega

/-- **C24** for the product of two random numbers, respectively the square of one: the documented bound holds for every precision. -/
theorem arf_relative_error_two_factors_partial (atoms : Atoms) (i j : ℕ) (d e : Digits) (hi : atoms i = .random d) (hj : atoms j = .random e)
    (prec : ℤ) :
    |((RN.prod [(i, 1), (j, 1)]).arf atoms prec : ℝ) - d.value * e.value| ≤ 2 ^ (-prec) * |d.value * e.value| ∧
      |((RN.prod [(i, 2)]).arf atoms prec : ℝ) - d.value ^ 2| ≤ 2 ^ (-prec) * |d.value ^ 2| := by
  have vi : (atoms i).value = d.value := by rw [hi]; rfl
  have vj : (atoms j).value = e.value := by rw [hj]; rfl
  constructor
  · have := arf_relative_error_few_factors_partial atoms [(i, 1), (j, 1)] (by
      rintro p hp; simp only [List.mem_cons, List.not_mem_nil, or_false] at hp
      rcases hp with rfl | rfl
      · exact ⟨d, hi⟩
      · exact ⟨e, hj⟩) 3 (by norm_num) (by norm_num) prec
    rw [RN.real_prod] at this
    simpa [Mono.value, vi, vj] using this
  · have := arf_relative_error_few_factors_partial atoms [(i, 2)] (by
      rintro p hp; simp only [List.mem_cons, List.not_mem_nil, or_false] at hp
      subst hp; exact ⟨d, hi⟩) 3 (by norm_num) (by norm_num) prec
    rw [RN.real_prod] at this
    simpa [Mono.value, vi] using this

/-- **C24** for products that may also contain random numbers in an interval: the relative error is at most the documented `2^-prec` when
`4n·(1 + 2^-prec) ≤ 2^k < 6n` for the number `n` of factors, i.e., when there is a power of two strictly between `4n` and `6n` and the
precision is not tiny. -/
theorem arf_relative_error_few_factors_interval_partial (atoms : Atoms) (m : Mono) (k prec : ℕ)
    (h1 : 4 * (m.map Prod.snd).sum * (2 ^ prec + 1) ≤ 2 ^ (k + prec)) (h2 : 2 ^ k < 6 * (m.map Prod.snd).sum) :
    |((RN.prod m).arf atoms prec : ℝ) - (RN.prod m).real atoms| ≤ 2 ^ (-(prec : ℤ)) * |(RN.prod m).real atoms| :=
  RN.prod_rel_few_any atoms m k prec h1 h2

/-- The hypotheses are met: the product of the two numbers of the counterexample of C24. -/
example (prec : ℤ) : |((RN.prod [(1, 1), (2, 1)]).arf cexAtoms prec : ℝ) - cexDigits1.value * cexDigits2.value| ≤
    2 ^ (-prec) * |cexDigits1.value * cexDigits2.value| :=
  (arf_relative_error_two_factors_partial cexAtoms 1 2 cexDigits1 cexDigits2 rfl rfl prec).1

/-- The hypotheses are met: the third power of a number in an interval, to 10 bits. -/
example (atoms : Atoms) : |((RN.prod [(1, 3)]).arf atoms 10 : ℝ) - (RN.prod [(1, 3)]).real atoms| ≤
    2 ^ (-(10 : ℤ)) * |(RN.prod [(1, 3)]).real atoms| :=
  arf_relative_error_few_factors_interval_partial atoms [(1, 3)] 4 10 (by norm_num) (by norm_num)

/-- Six, seven and eight factors are covered; five are not. -/
example : (∀ n ∈ [2, 3, 4, 6, 7, 8], ∃ k, 4 * n ≤ 2 ^ k ∧ 2 ^ k < 6 * n) ∧ ¬∃ k, 4 * 5 ≤ 2 ^ k ∧ 2 ^ k < 6 * 5 := by
  refine ⟨?_, ?_⟩
  · intro n hn
    simp only [List.mem_cons, List.not_mem_nil, or_false] at hn
    rcases hn with rfl | rfl | rfl | rfl | rfl | rfl
    exacts [⟨3, by norm_num⟩, ⟨4, by norm_num⟩, ⟨4, by norm_num⟩, ⟨5, by norm_num⟩, ⟨5, by norm_num⟩, ⟨5, by norm_num⟩]
  · rintro ⟨k, h1, h2⟩
    rcases Nat.lt_or_ge k 5 with hk | hk
    · have : 2 ^ k ≤ 2 ^ 4 := Nat.pow_le_pow_right (by norm_num) (by omega)
      omega
    · have : 2 ^ 5 ≤ 2 ^ k := Nat.pow_le_pow_right (by norm_num) hk
      omega

end ExactReal.Props
