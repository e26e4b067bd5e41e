import Verif.Lemma.AtomError
import Verif.Lemma.ArfError

/-!
# Approximations of atoms are truncated and then rounded

The approximation of an atom rounds a number that is obtained by cutting off the digits of the atom.
-/

namespace ExactReal

open Arf Atom

/-- A random number is the constrained random number that starts at zero. -/
theorem Atom.arf_random (d : Digits) (N : ℕ) : (Atom.random d).arf N = arfConstrained 0 1 d N := by
  have hI : ofMantissaExponent 0 1 = 0 := by simp [ofMantissaExponent]
  have hN : ((N : ℤ) + 1) = ((N + 1 : ℕ) : ℤ) := by push_cast; rfl
  unfold arfConstrained
  simp only [hI]
  have hb : bits 0 = 0 := by simp [bits]
  rw [hb, if_pos (by push_cast; omega)]
  have hk : (((N : ℤ) + 1) - ((0 : ℕ) : ℤ) - 1).toNat = N := by push_cast; omega
  have hr := (d.rep_arf N)
  rw [hk, zero_add, shiftLeft, hN, sub_self, zpow_zero, mul_one, round_eq_self .near (by omega) hr, round_eq_self .near (by omega) hr]
  rfl

theorem Atom.value_random (d : Digits) : (Atom.random d).value = (Atom.constrained 0 1 d).value := by
  simp [Atom.value]

/-- Every atom is a constrained random number. -/
theorem Atom.exists_constrained (a : Atom) : ∃ m e d, (∀ N, a.arf N = arfConstrained m e d N) ∧ a.value = (Atom.constrained m e d).value := by
  cases a with
  | random d => exact ⟨0, 1, d, Atom.arf_random d, Atom.value_random d⟩
  | constrained m e d => exact ⟨m, e, d, fun _ => rfl, rfl⟩

/-- Number of digits of the inner random number that go into an approximation. -/
def innerDigits (m e : ℤ) (d : Digits) (N : ℕ) : ℕ :=
  if bits (ofMantissaExponent m e) ≤ N then d.first + (N - bits (ofMantissaExponent m e)) + 1 else 0

/-- The number that is rounded. -/
def truncated (m e : ℤ) (d : Digits) (n : ℕ) : ℚ := m * 2 ^ e + Digits.prefixValue d.digit n * 2 ^ (e - 1)

theorem arfConstrained_eq (m e : ℤ) (d : Digits) (N : ℕ) :
    arfConstrained m e d N = round .near ((N + 1 : ℕ) : ℤ) (truncated m e d (innerDigits m e d N)) := by
  have hN : ((N : ℤ) + 1) = ((N + 1 : ℕ) : ℤ) := by push_cast; rfl
  unfold arfConstrained innerDigits truncated
  simp only
  by_cases h : bits (ofMantissaExponent m e) ≤ N
  · rw [if_pos (by omega), if_pos h, hN, round_eq_self .near (by omega) (rep_round .near _)]
    have : ((((N + 1 : ℕ) : ℤ) - bits (ofMantissaExponent m e)) - 1).toNat = N - bits (ofMantissaExponent m e) := by omega
    rw [this, shiftLeft, Digits.arf, ofMantissaExponent]
  · rw [if_neg (by omega), if_neg h, hN, ofMantissaExponent]
    simp [Digits.prefixValue]

theorem innerDigits_mono (m e : ℤ) (d : Digits) {M N : ℕ} (h : M ≤ N) : innerDigits m e d M ≤ innerDigits m e d N := by
  unfold innerDigits
  split_ifs <;> omega

theorem truncated_le (m e : ℤ) (d : Digits) (n : ℕ) : (truncated m e d n : ℝ) ≤ (Atom.constrained m e d).value := by
  have h := mul_le_mul_of_nonneg_right (d.prefixValue_le n) (zposR (e - 1)).le
  rw [truncated, Atom.value]
  push_cast
  linarith

theorem le_truncated (m e : ℤ) (d : Digits) (n : ℕ) :
    (Atom.constrained m e d).value ≤ truncated m e d n + 2 ^ (e - 1 - n) := by
  have h := mul_le_mul_of_nonneg_right (d.value_le n) (zposR (e - 1)).le
  rw [truncated, Atom.value, show e - 1 - (n : ℤ) = -n + (e - 1) by ring, zaddR]
  push_cast
  linarith

theorem truncated_mono (m e : ℤ) (d : Digits) {n k : ℕ} (h : n ≤ k) : truncated m e d n ≤ truncated m e d k := by
  have h := mul_le_mul_of_nonneg_right (Digits.prefixValue_mono d.digit h) (two_zpow_pos (e - 1)).le
  rw [truncated, truncated]
  linarith

theorem truncated_int (m e : ℤ) (d : Digits) (n : ℕ) : ∃ k : ℤ, truncated m e d n = k * 2 ^ (e - 1 - n) := by
  obtain ⟨j, hj⟩ := int_of_zpow (show e - 1 - (n : ℤ) ≤ e by omega)
  refine ⟨m * j + Digits.prefixInt d.digit n, ?_⟩
  rw [truncated, Digits.prefixValue_eq_int, hj, mul_assoc (Digits.prefixInt d.digit n : ℚ), ← zadd,
    show -(n : ℤ) + (e - 1) = e - 1 - n by ring]
  push_cast
  ring

/-- A multiple of a power of two. -/
theorem multiple_of_log {z : ℚ} {p : ℕ} (hp : 1 ≤ p) (hz : Rep p z) {g : ℤ} (hg : z ≠ 0 → g ≤ Int.log 2 |z| + 1 - p) :
    ∃ k : ℤ, z = k * 2 ^ g := by
  by_cases h0 : z = 0
  · exact ⟨0, by simp [h0]⟩
  · obtain ⟨k, hk⟩ := hz.multiple hp (x := z) (zpow_le_abs h0)
    obtain ⟨j, hj⟩ := int_of_zpow (hg h0)
    refine ⟨k * j, ?_⟩
    rw [ulp, hj] at hk
    push_cast
    rw [mul_assoc]
    exact hk

/-- Truncation keeps a number above a lower bound that has few digits. -/
theorem le_truncated_of_lt {m e : ℤ} {d : Digits} {p : ℕ} {z : ℚ} (hz : Rep p z) (hp : 1 ≤ p)
    (h : (z : ℝ) < (Atom.constrained m e d).value) : z ≤ truncated m e d (innerDigits m e d p) := by
  set n := innerDigits m e d p with hn
  have hx := le_truncated m e d n
  by_cases hbig : z ≠ 0 → e - 1 - (n : ℤ) ≤ Int.log 2 |z| + 1 - p
  · obtain ⟨k, hk⟩ := multiple_of_log hp hz hbig
    obtain ⟨j, hj⟩ := truncated_int m e d n
    have hg := two_zpow_pos (e - 1 - (n : ℤ))
    have h2 : (z : ℝ) < ((truncated m e d n + 2 ^ (e - 1 - (n : ℤ)) : ℚ) : ℝ) := by push_cast; linarith
    have h3 : z < truncated m e d n + 2 ^ (e - 1 - (n : ℤ)) := by exact_mod_cast h2
    rw [hk, hj, ← add_one_mul] at h3
    have h4 := lt_of_mul_lt_mul_right h3 hg.le
    have h5 : k < j + 1 := by exact_mod_cast h4
    have h6 : (k : ℚ) ≤ j := by exact_mod_cast Int.lt_add_one_iff.1 h5
    rw [hk, hj]
    exact mul_le_mul_of_nonneg_right h6 hg.le
  · push Not at hbig
    obtain ⟨hz0, hlt⟩ := hbig
    have hzlt := abs_lt_zpow z
    by_cases hm : m = 0
    · -- the first digit is larger than `z`
      have hb : bits (ofMantissaExponent m e) = 0 := by simp [ofMantissaExponent, hm, bits]
      have hnn : n = d.first + p + 1 := by rw [hn, innerDigits, hb, if_pos (Nat.zero_le _), Nat.sub_zero]
      have h1 := Digits.prefixValue_mono d.digit (show d.first + 1 ≤ n by omega)
      rw [d.prefixValue_first_succ] at h1
      have h2 := mul_le_mul_of_nonneg_right h1 (two_zpow_pos (e - 1)).le
      rw [← zadd] at h2
      have h3 : (2 : ℚ) ^ (Int.log 2 |z| + 1) ≤ 2 ^ (-((d.first : ℤ) + 1) + (e - 1)) := zpow_mono (by omega)
      rw [truncated, hm]
      have := le_abs_self z
      push_cast
      linarith
    · obtain ⟨hb1, hb2, -⟩ := bits_spec (e := e) hm
      set I := ofMantissaExponent m e with hI
      have hIv : I = (m : ℚ) * 2 ^ e := rfl
      have hI0 : I ≠ 0 := by rw [hIv]; exact mul_ne_zero (by exact_mod_cast hm) (two_zpow_pos e).ne'
      have hL1 := zpow_le_abs hI0
      have hzL : Int.log 2 |z| + 1 ≤ Int.log 2 |I| - 1 := by
        rw [hn, innerDigits, ← hI] at hlt
        split_ifs at hlt <;> push_cast at hlt <;> omega
      have h3 := zpow_mono hzL
      have h4 := zpow_mono (show Int.log 2 |I| - 1 ≤ Int.log 2 |I| by omega)
      rcases lt_or_gt_of_ne hI0 with hneg | hpos
      · -- `z` is not below the number
        exfalso
        rw [abs_of_neg hneg] at hL1 hzL h3 h4
        have h5 : (2 : ℚ) ^ (e - 1) ≤ 2 ^ (Int.log 2 (-I) - 1) := zpow_mono (by rw [abs_of_neg hneg] at hb2; omega)
        have h6 : (2 : ℚ) ^ (Int.log 2 (-I)) = 2 ^ (Int.log 2 (-I) - 1) + 2 ^ (Int.log 2 (-I) - 1) := by
          rw [zpow_sub_one₀ (by norm_num)]; ring
        have h7 := neg_abs_le z
        have h8 : I + 2 ^ (e - 1) ≤ z := by linarith
        have h9 : ((I : ℚ) : ℝ) + 2 ^ (e - 1) ≤ z := by
          have : ((I + 2 ^ (e - 1) : ℚ) : ℝ) ≤ z := by exact_mod_cast h8
          push_cast at this; exact this
        have h10 : (Atom.constrained m e d).value ≤ I + 2 ^ (e - 1) := by
          rw [Atom.value, hIv]
          have := mul_le_mul_of_nonneg_right d.value_le_one (zposR (e - 1)).le
          push_cast
          linarith
        linarith
      · rw [abs_of_pos hpos] at hL1 h3 h4
        have h5 := mul_nonneg (Digits.prefixValue_nonneg d.digit n) (two_zpow_pos (e - 1)).le
        have := le_abs_self z
        rw [truncated, ← hIv]
        linarith

/-- Approximations with more digits than `z` has are on the right side of `z`. -/
theorem Atom.le_arf_of_lt (a : Atom) {p q : ℕ} (hp : 1 ≤ p) (hq : p ≤ q) {z : ℚ} (hz : Rep p z) (h : (z : ℝ) < a.value) : z ≤ a.arf q := by
  obtain ⟨m, e, d, h1, h2⟩ := a.exists_constrained
  rw [h2] at h
  rw [h1, arfConstrained_eq]
  refine le_round .near (by omega) (hz.mono (by omega)) ?_
  exact (le_truncated_of_lt hz hp h).trans (truncated_mono _ _ _ (innerDigits_mono _ _ _ hq))

theorem Atom.arf_le_of_le (a : Atom) {p q : ℕ} (hq : p ≤ q + 1) {z : ℚ} (hz : Rep p z) (h : a.value ≤ z) : a.arf q ≤ z := by
  obtain ⟨m, e, d, h1, h2⟩ := a.exists_constrained
  rw [h2] at h
  rw [h1, arfConstrained_eq]
  refine round_le .near (by omega) (hz.mono hq) ?_
  have := (truncated_le m e d (innerDigits m e d q)).trans h
  exact_mod_cast this

end ExactReal
