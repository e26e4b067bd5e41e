import Verif.Lemma.Arf
import Mathlib.Data.Rat.Lemmas
import Mathlib.Data.Nat.Prime.Basic
import Mathlib.Data.Nat.Prime.Pow

/-! # Mantissa and exponent of dyadic rationals -/

namespace ExactReal

namespace Arf

/-- A finite `Arf`: an integer times a power of two. -/
def Dyadic (x : ℚ) : Prop := ∃ m e : ℤ, x = m * 2 ^ e

theorem strip_mul (fuel : ℕ) (n : ℤ) : (strip fuel n).1 * 2 ^ (strip fuel n).2 = n := by
  induction fuel generalizing n with
  | zero => simp [strip]
  | succ fuel ih =>
    rw [strip]; split_ifs with h
    · have := ih (n / 2)
      simp only [pow_succ]
      rw [← mul_assoc, this]; omega
    · simp

theorem strip_odd (fuel : ℕ) (n : ℤ) (hn : n ≠ 0) (h : Nat.log 2 n.natAbs ≤ fuel) : (strip fuel n).1 % 2 = 1 := by
  induction fuel generalizing n with
  | zero =>
    have h1 := Nat.lt_pow_succ_log_self (b := 2) (by norm_num) n.natAbs
    rw [Nat.le_zero.1 h] at h1
    simp only [strip]; omega
  | succ fuel ih =>
    rw [strip]; split_ifs with h2
    · apply ih
      · omega
      · have : (n / 2).natAbs = n.natAbs / 2 := by omega
        rw [this, Nat.log_div_base]; omega
    · show n % 2 = 1
      omega

theorem Dyadic.den {x : ℚ} (h : Dyadic x) : x.den = 2 ^ Nat.log 2 x.den := by
  obtain ⟨m, e, hx⟩ := h
  obtain ⟨k, n, hk⟩ : ∃ (k : ℕ) (n : ℤ), x = (n : ℚ) / ((2 ^ k : ℤ) : ℚ) := by
    rcases le_total 0 e with he | he
    · refine ⟨0, m * 2 ^ e.toNat, ?_⟩
      rw [hx]; push_cast; rw [div_one, ← zpow_natCast, Int.toNat_of_nonneg he]
    · refine ⟨(-e).toNat, m, ?_⟩
      rw [hx]; push_cast
      rw [← zpow_natCast, Int.toNat_of_nonneg (by omega), zpow_neg, div_inv_eq_mul]
  have hd := Rat.den_dvd n (2 ^ k)
  rw [Rat.divInt_eq_div, ← hk] at hd
  have hd' : x.den ∣ 2 ^ k := by exact_mod_cast hd
  obtain ⟨j, -, hj⟩ := (Nat.dvd_prime_pow Nat.prime_two).1 hd'
  rw [hj, Nat.log_pow (by norm_num)]

theorem mantissa_mul {x : ℚ} (h : Dyadic x) : (mantissa x : ℚ) * 2 ^ exponent x = x := by
  unfold mantissa exponent mantissaExponent
  split_ifs with h0
  · simp [h0]
  · simp only
    have h1 := strip_mul (Nat.log 2 x.num.natAbs) x.num
    have h2 := h.den
    set p := strip (Nat.log 2 x.num.natAbs) x.num
    have h3 : (p.1 : ℚ) * 2 ^ p.2 = x.num := by exact_mod_cast h1
    have h4 : (x.den : ℚ) = 2 ^ Nat.log 2 x.den := by exact_mod_cast h2
    rw [zpow_sub₀ (by norm_num), zpow_natCast, zpow_natCast, ← mul_div_assoc, h3, ← h4, Rat.num_div_den]

theorem mantissa_odd {x : ℚ} (h : x ≠ 0) : mantissa x % 2 = 1 := by
  unfold mantissa mantissaExponent
  rw [if_neg h]
  exact strip_odd _ _ (Rat.num_ne_zero.2 h) le_rfl

theorem mantissa_zero : mantissa 0 = 0 := by simp [mantissa, mantissaExponent]

theorem exponent_zero : exponent 0 = 0 := by simp [exponent, mantissaExponent]

/-- Odd mantissas are unique. -/
theorem odd_unique {a b e f : ℤ} (ha : a % 2 = 1) (hb : b % 2 = 1) (h : (a : ℚ) * 2 ^ e = b * 2 ^ f) : a = b ∧ e = f := by
  wlog hef : e ≤ f generalizing a b e f
  · obtain ⟨h1, h2⟩ := this hb ha h.symm (by omega)
    exact ⟨h1.symm, h2.symm⟩
  obtain ⟨k, rfl⟩ : ∃ k : ℕ, f = e + k := ⟨(f - e).toNat, by omega⟩
  have h2e := (two_zpow_pos e).ne'
  have : (a : ℚ) = b * 2 ^ k := by
    rw [zadd, zpow_natCast] at h
    have h' : (a : ℚ) * 2 ^ e = (b * 2 ^ k) * 2 ^ e := by rw [h]; ring
    exact mul_right_cancel₀ h2e h'
  have h3 : a = b * 2 ^ k := by exact_mod_cast this
  rcases k with _ | k
  · simpa using h3
  · exfalso
    rw [pow_succ, ← mul_assoc] at h3
    omega

theorem log_mul_zpow {c : ℤ} (hc : c ≠ 0) (k : ℤ) : Int.log 2 |(c : ℚ) * 2 ^ k| = (Nat.log 2 c.natAbs : ℤ) + k := by
  have hp := two_zpow_pos k
  have hca : |(c : ℚ)| = (c.natAbs : ℚ) := by rw [← Int.cast_abs, Int.abs_eq_natAbs]; simp
  apply log_eq
  · rw [abs_mul, abs_of_pos hp, zadd, zpow_natCast, hca]
    refine mul_le_mul_of_nonneg_right ?_ hp.le
    exact_mod_cast Nat.pow_log_le_self 2 (by omega)
  · rw [abs_mul, abs_of_pos hp, add_right_comm, zadd, hca]
    refine mul_lt_mul_of_pos_right ?_ hp
    rw [show ((Nat.log 2 c.natAbs : ℤ) + 1) = ((Nat.log 2 c.natAbs + 1 : ℕ) : ℤ) by push_cast; rfl, zpow_natCast]
    exact_mod_cast Nat.lt_pow_succ_log_self (by norm_num) _

/-- The number of digits of `m·2^e` and its magnitude. -/
theorem bits_spec {m e : ℤ} (hm : m ≠ 0) :
    1 ≤ bits (ofMantissaExponent m e) ∧
      e + bits (ofMantissaExponent m e) - 1 ≤ Int.log 2 |ofMantissaExponent m e| ∧
      (|ofMantissaExponent m e| = 2 ^ Int.log 2 |ofMantissaExponent m e| → bits (ofMantissaExponent m e) = 1) := by
  set x := ofMantissaExponent m e with hx
  have hx0 : x ≠ 0 := by
    rw [hx, ofMantissaExponent]; exact mul_ne_zero (by exact_mod_cast hm) (two_zpow_pos e).ne'
  have hd : Dyadic x := ⟨m, e, rfl⟩
  have h1 := mantissa_mul hd
  have h2 := mantissa_odd hx0
  set c := mantissa x
  set k := exponent x
  have hc0 : c ≠ 0 := by rintro h; rw [h] at h2; simp at h2
  have hlog : Int.log 2 |x| = (Nat.log 2 c.natAbs : ℤ) + k := by
    have := log_mul_zpow hc0 k; rwa [h1] at this
  have hb : bits x = Nat.log 2 c.natAbs + 1 := by rw [bits, if_neg hx0]
  have hk : e ≤ k := by
    -- otherwise the mantissa would be even
    by_contra hlt
    push Not at hlt
    obtain ⟨j, hj⟩ : ∃ j : ℕ, e = k + (j + 1) := ⟨(e - k - 1).toNat, by omega⟩
    have h3 : (c : ℚ) * 2 ^ k = (m * 2 ^ (j + 1)) * 2 ^ k := by
      rw [h1, hx, ofMantissaExponent, hj, zadd,
        show ((j : ℤ) + 1) = ((j + 1 : ℕ) : ℤ) by push_cast; rfl, zpow_natCast]; ring
    have h4 := mul_right_cancel₀ (two_zpow_pos k).ne' h3
    have h5 : c = m * 2 ^ (j + 1) := by exact_mod_cast h4
    rw [pow_succ, ← mul_assoc] at h5
    omega
  refine ⟨by omega, by omega, ?_⟩
  intro hp
  have h6 : (|c| : ℤ) = 1 ∧ True := by
    have h7 : ((|c| : ℤ) : ℚ) * 2 ^ k = (1 : ℤ) * 2 ^ Int.log 2 |x| := by
      rw [← hp, ← h1, abs_mul, abs_of_pos (two_zpow_pos k)]; simp
    have h8 : |c| % 2 = 1 := by
      rcases abs_choice c with h | h <;> rw [h] <;> omega
    exact ⟨(odd_unique h8 (by norm_num) h7).1, trivial⟩
  have h9 : c.natAbs = 1 := by have := h6.1; rw [Int.abs_eq_natAbs] at this; exact_mod_cast this
  rw [hb, h9]; simp

end Arf

end ExactReal
