import Verif.Model.Log2
import Verif.Spec.Log2
import Mathlib.Analysis.Convex.SpecificFunctions.Basic
import Mathlib.Data.Nat.Log

/-!
# C90: extra bits that are computed with floating point logarithms
-/

namespace ExactReal.Props
open ExactReal

theorem logb_lower (k : ℕ) : (k : ℝ) + 2 ^ (-(k : ℤ)) ≤ Real.logb 2 (2 ^ k + 1) := by
  have hp : (0 : ℝ) < 2 ^ k := by positivity
  have hx : (2 : ℝ) ^ (-(k : ℤ)) = (2 ^ k)⁻¹ := by rw [zpow_neg, zpow_natCast]
  have h1 : ((2 : ℝ) ^ k)⁻¹ ≤ 1 := inv_le_one_of_one_le₀ (one_le_pow₀ (by norm_num))
  rw [Real.le_logb_iff_rpow_le (by norm_num) (by positivity), hx, Real.rpow_add (by norm_num), Real.rpow_natCast]
  have := _root_.rpow_one_add_le_one_add_mul_self (s := 1) (by norm_num) (p := ((2 : ℝ) ^ k)⁻¹) (by positivity) h1
  rw [show (1 : ℝ) + 1 = 2 by norm_num, _root_.mul_one] at this
  calc (2 : ℝ) ^ k * 2 ^ ((2 : ℝ) ^ k)⁻¹ ≤ 2 ^ k * (1 + (2 ^ k)⁻¹) := by gcongr
    _ = 2 ^ k + 1 := by field_simp

theorem logb_upper (k : ℕ) : Real.logb 2 (2 ^ (k + 1) - 1) ≤ (k : ℝ) + 1 - 2 ^ (-(k + 1 : ℤ)) := by
  have hp : (0 : ℝ) < 2 ^ (k + 1) := by positivity
  have h2 : (2 : ℝ) ≤ 2 ^ (k + 1) := le_self_pow₀ (by norm_num) (by omega)
  have hx : (2 : ℝ) ^ (-(k + 1 : ℤ)) = (2 ^ (k + 1))⁻¹ := by rw [zpow_neg, show ((k : ℤ) + 1) = ((k + 1 : ℕ) : ℤ) by push_cast; rfl, zpow_natCast]
  have e : (2 : ℝ) ^ (k + 1) - 1 = 2 ^ (k + 1) * (1 - (2 ^ (k + 1))⁻¹) := by field_simp
  have h1 : ((2 : ℝ) ^ (k + 1))⁻¹ ≤ 1 / 2 := by
    rw [one_div]; exact inv_anti₀ (by norm_num) h2
  have hpos : (0 : ℝ) < ((2 : ℝ) ^ (k + 1))⁻¹ := by positivity
  generalize hd : ((2 : ℝ) ^ (k + 1))⁻¹ = d at *
  rw [hx, e, Real.logb_mul (by positivity) (by linarith), Real.logb_pow, Real.logb_self_eq_one (by norm_num)]
  have hl : Real.log (1 - d) ≤ -d := by have := Real.log_le_sub_one_of_pos (x := 1 - d) (by linarith); linarith
  have l2 : 0 < Real.log 2 := Real.log_pos (by norm_num)
  have l1 : Real.log 2 ≤ 1 := by have := Real.log_le_sub_one_of_pos (x := 2) (by norm_num); linarith
  have : Real.logb 2 (1 - d) ≤ -d := by
    rw [Real.logb, div_le_iff₀ l2]
    nlinarith
  push_cast
  linarith

theorem ceil_log2 {log2 : ℕ → ℝ} (h : Log2Near log2) {m : ℕ} (h1 : 1 ≤ m) (hm : m < 2 ^ 33) (hp : ∀ k, m ≠ 2 ^ k) : ⌈log2 m⌉ = Nat.clog 2 m := by
  have h2 : 2 ≤ m := by
    rcases h1.eq_or_lt with rfl | h
    · exact absurd rfl (hp 0)
    · exact h
  obtain ⟨k, hk⟩ : ∃ k, Nat.clog 2 m = k + 1 := Nat.exists_eq_succ_of_ne_zero (Nat.clog_pos (by norm_num) h2).ne'
  have lo : 2 ^ k + 1 ≤ m := (Nat.lt_clog_iff_pow_lt (by norm_num)).1 (by omega)
  have hi : m ≤ 2 ^ (k + 1) - 1 := by
    have a : m ≤ 2 ^ (k + 1) := (Nat.clog_le_iff_le_pow (by norm_num)).1 hk.le
    have b := hp (k + 1)
    omega
  have hk33 : k + 1 ≤ 33 := by rw [← hk]; exact Nat.clog_le_of_le_pow hm.le
  have mpos : (0 : ℝ) < m := by exact_mod_cast h1
  have a := logb_lower k
  have b := logb_upper k
  have la : Real.logb 2 (2 ^ k + 1) ≤ Real.logb 2 m := Real.logb_le_logb_of_le (by norm_num) (by positivity) (by exact_mod_cast lo)
  have lb : Real.logb 2 m ≤ Real.logb 2 (2 ^ (k + 1) - 1) := by
    refine Real.logb_le_logb_of_le (by norm_num) mpos ?_
    have : (m : ℝ) + 1 ≤ 2 ^ (k + 1) := by
      have : m + 1 ≤ 2 ^ (k + 1) := by have := Nat.one_le_two_pow (n := k + 1); omega
      exact_mod_cast this
    linarith
  have e1 : (2 : ℝ) ^ (-33 : ℤ) ≤ 2 ^ (-(k : ℤ)) := zpow_le_zpow_right₀ (by norm_num) (by omega)
  have e2 : (2 : ℝ) ^ (-33 : ℤ) ≤ 2 ^ (-(k + 1 : ℤ)) := zpow_le_zpow_right₀ (by norm_num) (by omega)
  have hn := abs_lt.1 (h m h1 hm)
  rw [hk, Int.ceil_eq_iff]
  push_cast
  constructor <;> linarith [hn.1, hn.2]

/-- C90. The extra bits of products of up to `2 ^ 31` factors are `⌈log₂(3n)⌉`, whatever the last digits of the C library's `log2` are: `3n` is never a power of two. -/
theorem product_bits {log2 : ℕ → ℝ} (h : Log2Near log2) {n : ℕ} (h1 : 1 ≤ n) (hn : n ≤ 2 ^ 31) : productBits log2 n = Nat.clog 2 (3 * n) := by
  rw [productBits, show n * 2 + (n - 1) + 1 = 3 * n by omega]
  refine ceil_log2 h (by omega) (by omega) fun k hk => ?_
  have : 3 ∣ 2 ^ k := ⟨n, hk.symm⟩
  have := (Nat.Prime.dvd_of_dvd_pow Nat.prime_three this)
  omega

/-- C90. The extra bits of elements of modules of rank up to `2 ^ 32` are `⌈log₂ r⌉` if `log2` is exact for powers of two. -/
theorem rank_bits {log2 : ℕ → ℝ} (h : Log2Near log2) (he : Log2Exact log2) {r : ℕ} (h1 : 1 ≤ r) (hr : r ≤ 2 ^ 32) : rankBits log2 r = Nat.clog 2 r := by
  rw [rankBits]
  by_cases hp : ∃ k, r = 2 ^ k
  · obtain ⟨k, rfl⟩ := hp
    have hk : k < 33 := Nat.lt_succ_of_le ((Nat.pow_le_pow_iff_right (by norm_num)).1 hr)
    rw [he k hk, Nat.clog_pow _ _ (by norm_num), Int.ceil_natCast]
  · exact ceil_log2 h h1 (by omega) fun k hk => hp ⟨k, hk⟩

/-- C90. Exactness is needed: with an error in the last digit, an element of a module of rank 8 is approximated with a bit more. -/
theorem rank_bits_inexact : ∃ log2 : ℕ → ℝ, Log2Near log2 ∧ rankBits log2 8 ≠ Nat.clog 2 8 := by
  refine ⟨fun m => Real.logb 2 m + 2 ^ (-50 : ℤ), fun m _ _ => ?_, ?_⟩
  · rw [add_sub_cancel_left, abs_of_pos (by positivity)]
    exact zpow_lt_zpow_right₀ (by norm_num) (by norm_num)
  · have : Real.logb 2 ((8 : ℕ) : ℝ) = 3 := by
      rw [show ((8 : ℕ) : ℝ) = 2 ^ 3 by norm_num, Real.logb_pow, Real.logb_self_eq_one (by norm_num)]; norm_num
    have e : rankBits (fun m => Real.logb 2 m + 2 ^ (-50 : ℤ)) 8 = 4 := by
      rw [rankBits, Int.ceil_eq_iff, this]
      norm_num
    have c : Nat.clog 2 8 = 3 := by decide
    rw [e, c]; norm_num

/-- The exact logarithm meets the hypotheses, and so does one that is wrong in the last digit of a `double` everywhere else. -/
example : ∃ log2 : ℕ → ℝ, Log2Near log2 ∧ Log2Exact log2 := by
  refine ⟨fun m => Real.logb 2 m, fun m _ _ => by rw [sub_self, abs_zero]; positivity, fun k _ => ?_⟩
  push_cast
  rw [Real.logb_pow, Real.logb_self_eq_one (by norm_num), _root_.mul_one]

open Classical in
example : ∃ log2 : ℕ → ℝ, Log2Near log2 ∧ Log2Exact log2 ∧ log2 3 = Real.logb 2 3 - 2 ^ (-51 : ℤ) := by
  refine ⟨fun m => if ∃ k, m = 2 ^ k then Real.logb 2 m else Real.logb 2 m - 2 ^ (-51 : ℤ), fun m _ _ => ?_, fun k _ => ?_, ?_⟩
  · beta_reduce
    split_ifs
    · rw [sub_self, abs_zero]; positivity
    · rw [show Real.logb 2 m - 2 ^ (-51 : ℤ) - Real.logb 2 m = -2 ^ (-51 : ℤ) by ring, abs_neg, abs_of_pos (by positivity)]
      exact zpow_lt_zpow_right₀ (by norm_num) (by norm_num)
  · beta_reduce
    rw [if_pos ⟨k, rfl⟩]
    push_cast
    rw [Real.logb_pow, Real.logb_self_eq_one (by norm_num), _root_.mul_one]
  · beta_reduce
    rw [if_neg]
    · norm_num
    · rintro ⟨k, hk⟩
      rcases k with _ | k
      · simp at hk
      · omega

end ExactReal.Props
