import Verif.Lemma.ArfError

/-!
# C24, C40: approximations `arf(prec)`

`Digits.value`, `Atom.value` and `RN.real` (the numbers that are approximated) are defined in `Verif/Spec/Approx.lean`.
-/

namespace ExactReal.Props

open ExactReal

/-! ### sample digit sequences -/

/-- The number `n / 2^(len)` as a digit sequence (`len` digits, then zeros). -/
def finiteDigits (n len : ℕ) (i : ℕ) : Bool := if i < len then n.testBit (len - 1 - i) else false

theorem value_finite (d : Digits) (n : ℕ) (h : ∀ i, n ≤ i → d.digit i = false) : d.value = Digits.prefixValue d.digit n := by
  rw [d.value_split n]
  have : ∀ i : ℕ, (if d.digit (i + n) then (1 / 2 : ℝ) ^ (i + n + 1) else 0) = 0 := by
    intro i; rw [h (i + n) (by omega)]; simp
  simp_rw [this]; simp

theorem first_eq_zero (d : Digits) (h : d.digit 0 = true) : d.first = 0 := by
  unfold Digits.first; rw [Nat.find_eq_zero]; exact h

/-! ### C40 -/

/-- **C40**: if the generator ever produces a one, the loop of `arf(prec)` returns; the result is in `[0, 1]`, does not exceed the number,
and is below it by less than the last digit (`2^-(digits read)`, relative to the number at most `2^-prec`). -/
theorem random_arf (d : Digits) (prec : ℕ) :
    ∃ (a : ℚ) (enough read : ℕ), (∀ fuel, enough ≤ fuel → Digits.arfLoop d.digit prec fuel = .ok a) ∧
      0 ≤ a ∧ a ≤ 1 ∧ (a : ℝ) ≤ d.value ∧ d.value ≤ a + 2 ^ (-(read : ℤ)) ∧
      (2 : ℝ) ^ (-(read : ℤ)) ≤ 2 ^ (-(prec : ℤ)) * d.value ∧ a = Digits.prefixValue d.digit read := by
  refine ⟨d.arf prec, d.first + prec + 2, d.first + prec + 1, fun fuel h => d.arfLoop_eq prec fuel h, (d.arf_pos prec).le,
    (d.arf_lt_one prec).le, d.arf_le_value prec, d.value_le _, ?_, rfl⟩
  have h := d.le_value
  calc (2 : ℝ) ^ (-((d.first + prec + 1 : ℕ) : ℤ)) = 2 ^ (-(prec : ℤ)) * 2 ^ (-((d.first : ℤ) + 1)) := by
        rw [← zaddR]; congr 1; push_cast; ring
    _ ≤ _ := mul_le_mul_of_nonneg_left h (zposR _).le

/-- **C40** (stability): increasing the precision by one appends one binary digit, so approximations only ever grow. -/
theorem random_arf_append (d : Digits) (prec : ℕ) :
    d.arf (prec + 1) = d.arf prec ∨ d.arf (prec + 1) = d.arf prec + 2 ^ (-((d.first : ℤ) + prec + 2)) := by
  have : d.arf (prec + 1) = d.arf prec + if d.digit (d.first + prec + 1) then 2 ^ (-((d.first : ℤ) + prec + 2)) else 0 := by
    rw [Digits.arf, show d.first + (prec + 1) + 1 = (d.first + prec + 1) + 1 by ring, Digits.prefixValue]
    rw [Digits.arf]
    congr 2
  rw [this]; split_ifs <;> simp

/-- **C40** (nested approximations): for `p ≤ q` the approximation to `q` digits extends the one to `p` digits. -/
theorem random_arf_mono (d : Digits) {p q : ℕ} (h : p ≤ q) :
    d.arf p ≤ d.arf q ∧ d.arf q ≤ d.arf p + 2 ^ (-((d.first : ℤ) + 1 + p)) := by
  refine ⟨Digits.prefixValue_mono _ (by omega), ?_⟩
  have h1 := d.arf_le_value q
  have h2 := d.value_le_arf p
  have h3 : (d.arf q : ℝ) ≤ ((d.arf p + 2 ^ (-((d.first : ℤ) + 1 + p)) : ℚ) : ℝ) := by
    push_cast
    rw [show -((d.first : ℤ) + 1 + p) = -((d.first : ℤ) + 1) - p by ring]; linarith
  exact_mod_cast h3

/-- **C40** (value): the number is in `(0, 1]`. -/
theorem random_value_mem (d : Digits) : 0 < d.value ∧ d.value ≤ 1 := ⟨d.value_pos, d.value_le_one⟩

/-- **C40** (the excluded case): a generator that only produces zeros makes `arf` loop forever, whatever the precision. -/
theorem random_arf_all_zero (digit : ℕ → Bool) (h : ∀ i, digit i = false) (prec fuel : ℕ) :
    Digits.arfLoop digit prec fuel = .pending :=
  Digits.loop_all_zero digit h prec fuel 0

/-- `0.0110100000…` -/
def sampleDigits : Digits := ⟨finiteDigits 0b01101 5, 1, by decide⟩

example : Digits.arfLoop sampleDigits.digit 2 10 = .ok (3 / 8) ∧ Digits.arfLoop sampleDigits.digit 3 10 = .ok (13 / 32) ∧
    sampleDigits.value = 13 / 32 := by
  refine ⟨by decide +kernel, by decide +kernel, ?_⟩
  rw [value_finite sampleDigits 5 (fun i hi => by simp [sampleDigits, finiteDigits, hi])]
  have : Digits.prefixValue sampleDigits.digit 5 = 13 / 32 := by decide +kernel
  rw [this]; norm_num

/-! ### C24 -/

/-- **C24** for everything but products: `arf(prec)` has relative error at most `2^-prec`, for every precision (a negative precision is
treated as 0).  This covers rationals, random numbers and random numbers in an interval. -/
theorem arf_relative_error_partial (atoms : Atoms) (x : RN) (hx : ∀ m, x ≠ .prod m) (prec : ℤ) :
    |(x.arf atoms prec : ℝ) - x.real atoms| ≤ 2 ^ (-prec) * |x.real atoms| := by
  have key : ∀ n : ℕ, |(x.arf_ atoms n : ℝ) - x.real atoms| ≤ 2 ^ (-(n : ℤ)) * |x.real atoms| := by
    intro n
    cases x with
    | rat q =>
      by_cases hq : q = 0
      · subst hq; rw [RN.arf_rat_zero, RN.real_rat]; simp
      · exact (RN.goodApprox_rat atoms hq n).rel
    | atom i => exact ((atoms i).goodApprox n).rel
    | prod m => exact absurd rfl (hx m)
  refine (key prec.toNat).trans (mul_le_mul_of_nonneg_right (zmonoR ?_) (abs_nonneg _))
  omega

/-- **C24** for products: the relative error is at most `3/2·2^-prec` (`prec ≥ 2`), respectively `7/2·2^-prec` (any `prec ≥ 0`).  The
documented bound `2^-prec` fails, see `arf_relative_error_fails`. -/
theorem arf_relative_error_product_partial (atoms : Atoms) (x : RN) (hx : x.WF) (prec : ℕ) :
    (2 ≤ prec → |(x.arf atoms prec : ℝ) - x.real atoms| ≤ 3 / 2 * 2 ^ (-(prec : ℤ)) * |x.real atoms|) ∧
      |(x.arf atoms prec : ℝ) - x.real atoms| ≤ 7 / 2 * 2 ^ (-(prec : ℤ)) * |x.real atoms| := by
  have hnn : (0 : ℝ) ≤ 2 ^ (-(prec : ℤ)) * |x.real atoms| := mul_nonneg (zposR _).le (abs_nonneg _)
  by_cases h : ∀ m, x ≠ .prod m
  · have := arf_relative_error_partial atoms x h prec
    constructor
    · intro _; linarith
    · linarith
  · push Not at h
    obtain ⟨m, rfl⟩ := h
    obtain ⟨-, hdeg⟩ := hx
    exact ⟨fun hp => RN.prod_rel atoms m prec hp (by omega), RN.prod_rel_any atoms m prec (by omega)⟩

/-- First atom of the counterexample. -/
def cexDigits1 : Digits := ⟨finiteDigits 0x101ffffffffff 49, 0, by decide⟩
/-- Second atom of the counterexample. -/
def cexDigits2 : Digits := ⟨finiteDigits 0x109ffffffffff 49, 0, by decide⟩
/-- Atoms of the counterexample. -/
def cexAtoms : Atoms := fun i => if i = 1 then .random cexDigits1 else .random cexDigits2

theorem cex_value1 : cexDigits1.value = 0x101ffffffffff / 2 ^ 49 := by
  rw [value_finite cexDigits1 49 (fun i hi => by simp [cexDigits1, finiteDigits, hi])]
  have : Digits.prefixValue cexDigits1.digit 49 = 0x101ffffffffff / 2 ^ 49 := by decide +kernel
  rw [this]; norm_num

theorem cex_value2 : cexDigits2.value = 0x109ffffffffff / 2 ^ 49 := by
  rw [value_finite cexDigits2 49 (fun i hi => by simp [cexDigits2, finiteDigits, hi])]
  have : Digits.prefixValue cexDigits2.digit 49 = 0x109ffffffffff / 2 ^ 49 := by decide +kernel
  rw [this]; norm_num

theorem cex_arf1 : (cexAtoms 1).arf 8 = 257 / 512 := by
  show cexDigits1.arf 8 = _
  rw [Digits.arf, first_eq_zero _ (by decide)]
  decide +kernel

theorem cex_arf2 : (cexAtoms 2).arf 8 = 265 / 512 := by
  show cexDigits2.arf 8 = _
  rw [Digits.arf, first_eq_zero _ (by decide)]
  decide +kernel

/-- **C24 is false for products**: for `x₁⁴·x₂` with the given digits, `arf(4)` is off by more than `2^-4` relative to the number. -/
theorem arf_relative_error_fails :
    ∃ (atoms : Atoms) (x : RN), x.WF ∧ (2 : ℝ) ^ (-(4 : ℤ)) * |x.real atoms| < |(x.arf atoms 4 : ℝ) - x.real atoms| := by
  refine ⟨cexAtoms, .prod [(1, 4), (2, 1)], ⟨⟨by simp, by simp⟩, by simp⟩, ?_⟩
  have h1 : RN.arf cexAtoms (.prod [(1, 4), (2, 1)]) 4 = Arf.round .near 5
      (mulLoop 8 ((cexAtoms 2).arf 8) 1 (mulLoop 8 ((cexAtoms 1).arf 8) 4 1)) := by
    have hw : workingPrec 4 5 = 8 := by decide +kernel
    simp [RN.arf, RN.arf_, prodLoop, hw]
  rw [cex_arf1, cex_arf2] at h1
  have h2 : Arf.round .near 5 (mulLoop 8 (265 / 512) 1 (mulLoop 8 (257 / 512) 4 1)) = 1 / 32 := by decide +kernel
  rw [h1, h2, RN.real_prod]
  simp only [Mono.value, List.map_cons, List.map_nil, List.prod_cons, List.prod_nil, mul_one, pow_one]
  have e1 : (cexAtoms 1).value = 0x101ffffffffff / 2 ^ 49 := cex_value1
  have e2 : (cexAtoms 2).value = 0x109ffffffffff / 2 ^ 49 := cex_value2
  rw [e1, e2]
  norm_num [abs_of_pos, abs_of_neg]

end ExactReal.Props
