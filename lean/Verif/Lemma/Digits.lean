import Verif.Spec.Approx
import Verif.Lemma.Arf
import Mathlib.Topology.Algebra.InfiniteSum.NatInt

/-! # Digit sequences -/

namespace ExactReal

namespace Digits

variable (digit : ℕ → Bool)

theorem term_nonneg (i : ℕ) : 0 ≤ (if digit i then (1 / 2 : ℝ) ^ (i + 1) else 0) := by split_ifs <;> positivity

theorem term_le (i : ℕ) : (if digit i then (1 / 2 : ℝ) ^ (i + 1) else 0) ≤ (1 / 2 : ℝ) ^ (i + 1) := by
  split_ifs <;> [exact le_rfl; positivity]

theorem summable_pow : Summable fun i : ℕ => (1 / 2 : ℝ) ^ (i + 1) :=
  (summable_nat_add_iff 1).2 summable_geometric_two

theorem summable_term : Summable fun i : ℕ => (if digit i then (1 / 2 : ℝ) ^ (i + 1) else 0) :=
  Summable.of_nonneg_of_le (term_nonneg digit) (term_le digit) summable_pow

theorem tsum_tail (n : ℕ) : ∑' i : ℕ, (1 / 2 : ℝ) ^ (i + n + 1) = (1 / 2) ^ n := by
  have : ∀ i : ℕ, (1 / 2 : ℝ) ^ (i + n + 1) = (1 / 2) ^ (n + 1) * (1 / 2) ^ i := fun i => by
    rw [← pow_add]; congr 1; omega
  simp_rw [this]
  rw [tsum_mul_left, tsum_geometric_two, pow_succ]; ring

theorem half_pow (n : ℕ) : ((1 / 2 : ℝ)) ^ n = 2 ^ (-(n : ℤ)) := by
  rw [zpow_neg, zpow_natCast, one_div, inv_pow]

theorem prefixValue_eq_sum (n : ℕ) :
    (prefixValue digit n : ℝ) = ∑ i ∈ Finset.range n, if digit i then (1 / 2 : ℝ) ^ (i + 1) else 0 := by
  induction n with
  | zero => simp [prefixValue]
  | succ n ih =>
    rw [Finset.sum_range_succ, ← ih, prefixValue]
    push_cast
    congr 1
    split_ifs
    · rw [half_pow]; push_cast; rfl
    · simp

end Digits

namespace Digits

variable (d : Digits)

theorem value_split (n : ℕ) :
    d.value = prefixValue d.digit n + ∑' i, (if d.digit (i + n) then (1 / 2 : ℝ) ^ (i + n + 1) else 0) := by
  rw [prefixValue_eq_sum, value, (summable_term d.digit).sum_add_tsum_nat_add n]

theorem prefixValue_le (n : ℕ) : (prefixValue d.digit n : ℝ) ≤ d.value := by
  rw [d.value_split n]
  exact le_add_of_nonneg_right (tsum_nonneg fun i => term_nonneg d.digit (i + n))

theorem value_le (n : ℕ) : d.value ≤ prefixValue d.digit n + 2 ^ (-(n : ℤ)) := by
  rw [d.value_split n]
  rw [← half_pow, ← tsum_tail]
  have h1 : Summable fun i => (if d.digit (i + n) then (1 / 2 : ℝ) ^ (i + n + 1) else 0) :=
    (summable_nat_add_iff (f := fun i => (if d.digit i then (1 / 2 : ℝ) ^ (i + 1) else 0)) n).2 (summable_term d.digit)
  have h2 : Summable fun i : ℕ => (1 / 2 : ℝ) ^ (i + n + 1) :=
    (summable_nat_add_iff (f := fun i => (1 / 2 : ℝ) ^ (i + 1)) n).2 summable_pow
  exact add_le_add le_rfl (Summable.tsum_le_tsum (fun i => term_le d.digit (i + n)) h1 h2)

theorem prefixValue_nonneg (digit : ℕ → Bool) (n : ℕ) : 0 ≤ prefixValue digit n := by
  induction n with
  | zero => simp [prefixValue]
  | succ n ih => rw [prefixValue]; split_ifs <;> positivity

theorem prefixValue_mono (digit : ℕ → Bool) {m n : ℕ} (h : m ≤ n) : prefixValue digit m ≤ prefixValue digit n := by
  induction n, h using Nat.le_induction with
  | base => exact le_rfl
  | succ n _ ih =>
    rw [prefixValue]; refine ih.trans (le_add_of_nonneg_right ?_); split_ifs <;> positivity

theorem digit_first : d.digit d.first = true := Nat.find_spec d.hasOne

theorem digit_lt_first {i : ℕ} (h : i < d.first) : d.digit i = false := by
  have := Nat.find_min d.hasOne h; simpa using this

theorem prefixValue_first {n : ℕ} (h : n ≤ d.first) : prefixValue d.digit n = 0 := by
  induction n with
  | zero => rfl
  | succ n ih => rw [prefixValue, ih (by omega), d.digit_lt_first (by omega)]; simp

theorem prefixValue_first_succ : prefixValue d.digit (d.first + 1) = 2 ^ (-((d.first : ℤ) + 1)) := by
  rw [prefixValue, d.prefixValue_first le_rfl, d.digit_first]; simp

/-- The prefix as an integer. -/
def prefixInt (digit : ℕ → Bool) : ℕ → ℤ
  | 0 => 0
  | n + 1 => 2 * prefixInt digit n + if digit n then 1 else 0

theorem prefixValue_eq_int (digit : ℕ → Bool) (n : ℕ) : prefixValue digit n = prefixInt digit n * 2 ^ (-(n : ℤ)) := by
  induction n with
  | zero => simp [prefixValue, prefixInt]
  | succ n ih =>
    rw [prefixValue, prefixInt, ih]
    have h : (2 : ℚ) ^ (-(n : ℤ)) = 2 * 2 ^ (-((n : ℤ) + 1)) := by
      rw [← zpow_one_add₀ (by norm_num)]; congr 1; ring
    push_cast
    rw [h]
    split_ifs <;> push_cast <;> ring

theorem prefixInt_nonneg (digit : ℕ → Bool) (n : ℕ) : 0 ≤ prefixInt digit n := by
  induction n with
  | zero => simp [prefixInt]
  | succ n ih => rw [prefixInt]; split_ifs <;> omega

theorem prefixInt_lt (k : ℕ) : prefixInt d.digit (d.first + k) < 2 ^ k := by
  induction k with
  | zero =>
    have := prefixValue_eq_int d.digit d.first
    rw [d.prefixValue_first le_rfl] at this
    have h2 : (2 : ℚ) ^ (-(d.first : ℤ)) ≠ 0 := (Arf.two_zpow_pos _).ne'
    have : (prefixInt d.digit d.first : ℚ) = 0 := by
      rcases mul_eq_zero.1 this.symm with h | h
      · exact h
      · exact absurd h h2
    have : prefixInt d.digit d.first = 0 := by exact_mod_cast this
    simp [this]
  | succ k ih =>
    rw [show d.first + (k + 1) = (d.first + k) + 1 by rfl, prefixInt, pow_succ]
    split_ifs <;> omega

/-- The literal loop of `arf_` and the closed form of its result. -/
theorem loop_digits (prec : ℕ) : ∀ (fuel k : ℕ), 1 ≤ k → k ≤ prec + 1 → prec + 1 - k < fuel →
    loop d.digit prec fuel (d.first + k) k (prefixInt d.digit (d.first + k)) = .ok (d.arf prec)
  | 0, k, _, _, h => absurd h (by omega)
  | fuel + 1, k, h1, h2, h3 => by
    rw [loop]
    by_cases hk : k < prec + 1
    · rw [if_pos hk, if_neg (by omega)]
      have e := loop_digits prec fuel (k + 1) (by omega) (by omega) (by omega)
      rw [show d.first + (k + 1) = d.first + k + 1 by rfl, prefixInt] at e
      exact e
    · rw [if_neg hk]
      obtain rfl : k = prec + 1 := by omega
      rw [arf, prefixValue_eq_int, Arf.ofMantissaExponent]
      rfl

theorem loop_skip (prec : ℕ) : ∀ (j fuel : ℕ), j ≤ d.first →
    loop d.digit prec (fuel + j) (d.first - j) 0 0 = loop d.digit prec fuel d.first 0 0
  | 0, fuel, _ => rfl
  | j + 1, fuel, h => by
    rw [← add_assoc, loop, if_pos (by omega), if_pos ⟨rfl, d.digit_lt_first (by omega)⟩,
      show d.first - (j + 1) + 1 = d.first - j by omega]
    exact loop_skip prec j fuel (by omega)

/-- The loop returns once it may read enough digits, and its result is the value of the digits it has read. -/
theorem arfLoop_eq (prec fuel : ℕ) (h : d.first + prec + 2 ≤ fuel) : arfLoop d.digit prec fuel = .ok (d.arf prec) := by
  obtain ⟨f, rfl⟩ : ∃ f, fuel = (f + 1 + prec + 1) + d.first := ⟨fuel - (d.first + prec + 2), by omega⟩
  have h1 := d.loop_skip prec d.first (f + 1 + prec + 1) le_rfl
  rw [Nat.sub_self] at h1
  rw [arfLoop, h1, loop, if_pos (by omega), if_neg (by simp [d.digit_first])]
  have h2 := d.loop_digits prec (f + 1 + prec) 1 le_rfl (by omega) (by omega)
  have h3 : prefixInt d.digit (d.first + 1) = 1 := by
    have h4 := d.prefixInt_lt 0
    have h5 := prefixInt_nonneg d.digit d.first
    rw [add_zero] at h4
    rw [prefixInt, d.digit_first]
    simp only [if_true]; omega
  rw [h3] at h2
  simpa [d.digit_first] using h2

theorem loop_all_zero (digit : ℕ → Bool) (h : ∀ i, digit i = false) (prec : ℕ) :
    ∀ fuel pos, loop digit prec fuel pos 0 0 = .pending
  | 0, _ => rfl
  | fuel + 1, pos => by
    rw [loop, if_pos (by omega), if_pos ⟨rfl, h pos⟩]; exact loop_all_zero digit h prec fuel (pos + 1)

theorem arf_le_value (prec : ℕ) : (d.arf prec : ℝ) ≤ d.value := d.prefixValue_le _

theorem value_le_arf (prec : ℕ) : d.value ≤ d.arf prec + 2 ^ (-((d.first : ℤ) + 1) - prec) := by
  have := d.value_le (d.first + prec + 1)
  rw [show -((d.first : ℤ) + 1) - prec = -((d.first + prec + 1 : ℕ) : ℤ) by push_cast; ring]
  exact this

theorem le_arf (prec : ℕ) : (2 : ℚ) ^ (-((d.first : ℤ) + 1)) ≤ d.arf prec := by
  rw [← prefixValue_first_succ]; exact prefixValue_mono _ (by omega)

theorem arf_pos (prec : ℕ) : 0 < d.arf prec := (Arf.two_zpow_pos _).trans_le (d.le_arf prec)

theorem arf_eq_int (prec : ℕ) :
    d.arf prec = prefixInt d.digit (d.first + prec + 1) * 2 ^ (-((d.first : ℤ) + prec + 1)) := by
  rw [arf, prefixValue_eq_int]; push_cast; rfl

theorem arf_lt (prec : ℕ) : d.arf prec < 2 ^ (-(d.first : ℤ)) := by
  rw [arf_eq_int]
  have h := d.prefixInt_lt (prec + 1)
  have h' : (prefixInt d.digit (d.first + prec + 1) : ℚ) < 2 ^ ((prec : ℤ) + 1) := by
    have : ((prefixInt d.digit (d.first + (prec + 1)) : ℤ) : ℚ) < ((2 ^ (prec + 1) : ℤ) : ℚ) := by exact_mod_cast h
    rw [show ((prec : ℤ) + 1) = ((prec + 1 : ℕ) : ℤ) by push_cast; rfl, zpow_natCast]
    push_cast at this; exact this
  calc _ < (2 : ℚ) ^ ((prec : ℤ) + 1) * 2 ^ (-((d.first : ℤ) + prec + 1)) :=
        mul_lt_mul_of_pos_right h' (Arf.two_zpow_pos _)
    _ = _ := by rw [← Arf.zadd]; congr 1; ring

theorem arf_lt_one (prec : ℕ) : d.arf prec < 1 :=
  (d.arf_lt prec).trans_le (by
    have := Arf.zpow_mono (show -(d.first : ℤ) ≤ 0 by omega); simpa using this)

theorem log_arf (prec : ℕ) : Int.log 2 |d.arf prec| = -((d.first : ℤ) + 1) := by
  apply Arf.log_eq
  · rw [abs_of_pos (d.arf_pos prec)]; exact d.le_arf prec
  · rw [abs_of_pos (d.arf_pos prec)]
    refine (d.arf_lt prec).trans_eq ?_
    congr 1; ring

theorem rep_arf (prec : ℕ) : Arf.Rep (prec + 1) (d.arf prec) := by
  refine ⟨_, _, ?_, d.arf_eq_int prec⟩
  rw [abs_of_nonneg (prefixInt_nonneg _ _)]
  exact (d.prefixInt_lt (prec + 1)).le

theorem le_value : (2 : ℝ) ^ (-((d.first : ℤ) + 1)) ≤ d.value := by
  have h1 := d.le_arf 0
  have h2 := d.arf_le_value 0
  have h3 : (((2 : ℚ) ^ (-((d.first : ℤ) + 1)) : ℚ) : ℝ) ≤ (d.arf 0 : ℝ) := by exact_mod_cast h1
  push_cast at h3
  exact h3.trans h2

theorem value_pos : 0 < d.value := lt_of_lt_of_le (by positivity) d.le_value

theorem value_le_first : d.value ≤ 2 ^ (-(d.first : ℤ)) := by
  have := d.value_le d.first
  rwa [d.prefixValue_first le_rfl, Rat.cast_zero, zero_add] at this

theorem value_le_one : d.value ≤ 1 := by
  have := d.value_le 0; simpa [prefixValue] using this

end Digits

end ExactReal
