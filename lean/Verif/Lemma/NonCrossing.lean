import Verif.Lemma.Truncate
import Verif.Lemma.Ball

/-!
# Approximations do not cross floating point numbers

The approximation of a real number that is not a product, with precision `prec`, is on the same side of all floating point numbers of
`prec + 1` digits as the number.
-/

namespace ExactReal

open Arf Atom

/-- As `le_truncated_of_lt`, with one more digit. -/
theorem le_truncated_of_lt_succ {m e : ℤ} {d : Digits} {p : ℕ} {z : ℚ} (hz : Rep (p + 1) z)
    (h : (z : ℝ) < (Atom.constrained m e d).value) : z ≤ truncated m e d (innerDigits m e d p) := by
  set n := innerDigits m e d p with hn
  have hx := le_truncated m e d n
  by_cases hbig : z ≠ 0 → e - 1 - (n : ℤ) ≤ Int.log 2 |z| - p
  · obtain ⟨k, hk⟩ := multiple_of_log (by omega) hz (fun h => (hbig h).trans (by push_cast; omega))
    obtain ⟨j, hj⟩ := truncated_int m e d n
    have hg := two_zpow_pos (e - 1 - (n : ℤ))
    have h2 : (z : ℝ) < ((truncated m e d n + 2 ^ (e - 1 - (n : ℤ)) : ℚ) : ℝ) := by push_cast; linarith
    have h3 : z < truncated m e d n + 2 ^ (e - 1 - (n : ℤ)) := by exact_mod_cast h2
    rw [hk, hj, ← add_one_mul] at h3
    have h4 := lt_of_mul_lt_mul_right h3 hg.le
    have h5 : k < j + 1 := by exact_mod_cast h4
    have h6 : (k : ℚ) ≤ j := by exact_mod_cast Int.lt_add_one_iff.1 h5
    rw [hk, hj]
    exact mul_le_mul_of_nonneg_right h6 hg.le
  · push Not at hbig
    obtain ⟨hz0, hlt⟩ := hbig
    have hzlt := abs_lt_zpow z
    by_cases hm : m = 0
    · -- the first digit is larger than `z`
      have hb : bits (ofMantissaExponent m e) = 0 := by simp [ofMantissaExponent, hm, bits]
      have hnn : n = d.first + p + 1 := by rw [hn, innerDigits, hb, if_pos (Nat.zero_le _), Nat.sub_zero]
      have h1 := Digits.prefixValue_mono d.digit (show d.first + 1 ≤ n by omega)
      rw [d.prefixValue_first_succ] at h1
      have h2 := mul_le_mul_of_nonneg_right h1 (two_zpow_pos (e - 1)).le
      rw [← zadd] at h2
      have h3 : (2 : ℚ) ^ (Int.log 2 |z| + 1) ≤ 2 ^ (-((d.first : ℤ) + 1) + (e - 1)) := zpow_mono (by omega)
      rw [truncated, hm]
      have := le_abs_self z
      push_cast
      linarith
    · obtain ⟨hb1, hb2, -⟩ := bits_spec (e := e) hm
      set I := ofMantissaExponent m e with hI
      have hIv : I = (m : ℚ) * 2 ^ e := rfl
      have hI0 : I ≠ 0 := by rw [hIv]; exact mul_ne_zero (by exact_mod_cast hm) (two_zpow_pos e).ne'
      have hL1 := zpow_le_abs hI0
      have hzL : Int.log 2 |z| + 1 ≤ Int.log 2 |I| - 1 := by
        rw [hn, innerDigits, ← hI] at hlt
        split_ifs at hlt <;> push_cast at hlt <;> omega
      have h3 := zpow_mono hzL
      have h4 := zpow_mono (show Int.log 2 |I| - 1 ≤ Int.log 2 |I| by omega)
      rcases lt_or_gt_of_ne hI0 with hneg | hpos
      · -- `z` is not below the number
        exfalso
        rw [abs_of_neg hneg] at hL1 hzL h3 h4
        have h5 : (2 : ℚ) ^ (e - 1) ≤ 2 ^ (Int.log 2 (-I) - 1) := zpow_mono (by rw [abs_of_neg hneg] at hb2; omega)
        have h6 : (2 : ℚ) ^ (Int.log 2 (-I)) = 2 ^ (Int.log 2 (-I) - 1) + 2 ^ (Int.log 2 (-I) - 1) := by
          rw [zpow_sub_one₀ (by norm_num)]; ring
        have h7 := neg_abs_le z
        have h8 : I + 2 ^ (e - 1) ≤ z := by linarith
        have h9 : ((I : ℚ) : ℝ) + 2 ^ (e - 1) ≤ z := by
          have : ((I + 2 ^ (e - 1) : ℚ) : ℝ) ≤ z := by exact_mod_cast h8
          push_cast at this; exact this
        have h10 : (Atom.constrained m e d).value ≤ I + 2 ^ (e - 1) := by
          rw [Atom.value, hIv]
          have := mul_le_mul_of_nonneg_right d.value_le_one (zposR (e - 1)).le
          push_cast
          linarith
        linarith
      · rw [abs_of_pos hpos] at hL1 h3 h4
        have h5 := mul_nonneg (Digits.prefixValue_nonneg d.digit n) (two_zpow_pos (e - 1)).le
        have := le_abs_self z
        rw [truncated, ← hIv]
        linarith

theorem Atom.le_arf_of_lt_succ (a : Atom) {q : ℕ} {z : ℚ} (hz : Rep (q + 1) z) (h : (z : ℝ) < a.value) : z ≤ a.arf q := by
  obtain ⟨m, e, d, h1, h2⟩ := a.exists_constrained
  rw [h2] at h
  rw [h1, arfConstrained_eq]
  exact le_round .near (by omega) hz (le_truncated_of_lt_succ hz h)

/-- Rounding to nearest does not cross numbers with one more digit. -/
theorem round_near_le_of_lt {p : ℕ} (hp : 1 ≤ p) {z x : ℚ} (hz : Rep (p + 1) z) (h : x < z) : Arf.round .near p x ≤ z := by
  by_cases hx : x = 0
  · subst hx; simpa using h.le
  by_contra hlt
  rw [not_le] at hlt
  have hu := ulp_pos (p : ℤ) x
  have hlog := zpow_le_abs hx
  have hlz : (2 : ℚ) ^ Int.log 2 |x| ≤ |z| := by
    rcases lt_or_gt_of_ne hx with hneg | hpos
    · rw [abs_of_neg hneg] at hlog ⊢
      by_contra hc
      rw [not_le] at hc
      have h1 := (abs_lt.1 hc).1
      have h2 := round_le (r := .near) hp (Rep.neg (rep_zpow (p := p) (Int.log 2 (-x)))) (by linarith : x ≤ -2 ^ Int.log 2 (-x))
      linarith
    · exact hlog.trans (by rw [abs_of_pos hpos]; exact h.le.trans (le_abs_self z))
  obtain ⟨n, hn⟩ := hz.multiple (by omega) hlz
  have hu2 : ulp ((p + 1 : ℕ) : ℤ) x = ulp p x / 2 := by
    rw [ulp, ulp, show Int.log 2 |x| + 1 - ((p + 1 : ℕ) : ℤ) = Int.log 2 |x| + 1 - p - 1 by push_cast; ring, zpow_sub_one₀ (by norm_num)]
    ring
  have herr := abs_le.1 (abs_round_near_sub_le (p : ℤ) hx)
  rw [round_of_ne _ _ hx] at hlt herr
  set k := Rnd.near.toInt (x / ulp p x)
  rw [hu2] at hn
  set u := ulp (p : ℤ) x
  have h1 : (n : ℚ) * (u / 2) < (2 * k : ℤ) * (u / 2) := by push_cast; rw [← hn]; linarith
  have h2 : n < 2 * k := by exact_mod_cast lt_of_mul_lt_mul_right h1 (by linarith)
  have h3 : ((n + 1 : ℤ) : ℚ) * (u / 2) ≤ (2 * k : ℤ) * (u / 2) := mul_le_mul_of_nonneg_right (by exact_mod_cast h2) (by linarith)
  push_cast at h3
  linarith [herr.2]

theorem le_round_near_of_lt {p : ℕ} (hp : 1 ≤ p) {z x : ℚ} (hz : Rep (p + 1) z) (h : z < x) : z ≤ Arf.round .near p x := by
  have := round_near_le_of_lt hp hz.neg (neg_lt_neg h)
  rw [round_neg] at this
  exact neg_le_neg_iff.1 this

namespace RN
variable (atoms : Atoms)

/-- The approximation is on the same side of floating point numbers with `prec + 1` digits. -/
theorem arf_side_succ {x : RN} (hx : ∀ m, x ≠ .prod m) {prec : ℕ} (hp : 1 ≤ prec) {z : ℚ} (hz : Rep (prec + 1) z) :
    ((z : ℝ) < x.real atoms → z ≤ x.arf atoms prec) ∧ (x.real atoms < z → x.arf atoms prec ≤ z) := by
  rw [RN.arf_nat]
  cases x with
  | prod m => exact absurd rfl (hx m)
  | rat q =>
    rw [RN.arf_, if_neg (by omega), Rat.num_div_den, RN.real_rat]
    exact ⟨fun h => le_round_near_of_lt hp hz (by exact_mod_cast h), fun h => round_near_le_of_lt hp hz (by exact_mod_cast h)⟩
  | atom i =>
    rw [RN.real_atom, RN.arf_]
    exact ⟨(atoms i).le_arf_of_lt_succ hz, fun h => (atoms i).arf_le_of_le le_rfl hz h.le⟩

/-- Approximations have `prec + 1` digits. -/
theorem rep_arf_succ {x : RN} (hx : ∀ m, x ≠ .prod m) {prec : ℕ} (hp : 1 ≤ prec) : Rep (prec + 1) (x.arf atoms prec) := by
  rw [RN.arf_nat]
  cases x with
  | prod m => exact absurd rfl (hx m)
  | rat q =>
    rw [RN.arf_, if_neg (by omega)]
    exact (rep_round .near _).mono (by omega)
  | atom i =>
    obtain ⟨m, e, d, h1, -⟩ := (atoms i).exists_constrained
    rw [RN.arf_, h1, arfConstrained_eq]
    exact rep_round .near _

end RN

/-- The next floating point number. -/
theorem rep_next {p : ℕ} (hp : 1 ≤ p) {a : ℚ} (ha : Rep p a) (h0 : 0 < a) : Rep p (a + 2 ^ (Int.log 2 |a| + 1 - (p : ℤ))) := by
  obtain ⟨k, hk⟩ := ha.multiple hp (zpow_le_abs h0.ne')
  have hlt := abs_lt_zpow a
  rw [ulp] at hk
  have hg := two_zpow_pos (Int.log 2 |a| + 1 - (p : ℤ))
  rw [abs_of_pos h0] at hlt hk hg ⊢
  set g := Int.log 2 a + 1 - (p : ℤ) with hgd
  have hg2 : (2 : ℚ) ^ (Int.log 2 a + 1) = ((2 ^ p : ℤ) : ℚ) * 2 ^ g := by
    push_cast
    rw [← zpow_natCast, ← zadd]; congr 1; omega
  rw [hg2, hk] at hlt
  have h1 : k < 2 ^ p := by exact_mod_cast lt_of_mul_lt_mul_right hlt hg.le
  have h2 : 0 < k := by
    by_contra hc
    have : (k : ℚ) ≤ 0 := by exact_mod_cast not_lt.1 hc
    have := mul_nonpos_of_nonpos_of_nonneg this hg.le
    linarith
  refine ⟨k + 1, g, ?_, ?_⟩
  · rw [abs_of_pos (by omega)]; omega
  · push_cast; linarith

/-- There is a floating point number between the midpoints of balls that do not overlap. -/
theorem exists_between_pos {prec : ℕ} {a b : ℚ} (ha : Rep (prec + 1) a) (h0 : 0 < a)
    (h : a + 2 ^ (logb a - ((prec : ℤ) + 1)) < b - 2 ^ (logb b - ((prec : ℤ) + 1))) : ∃ z, Rep (prec + 1) z ∧ a < z ∧ z < b := by
  have hp1 := two_zpow_pos (logb a - ((prec : ℤ) + 1))
  have hp2 := two_zpow_pos (logb b - ((prec : ℤ) + 1))
  have hab : a < b := by linarith
  have hl : Int.log 2 |a| ≤ Int.log 2 |b| := log_mono h0.ne' (by rw [abs_of_pos h0, abs_of_pos (h0.trans hab)]; exact hab.le)
  rw [logb, if_neg h0.ne'] at h
  rw [logb, if_neg (h0.trans hab).ne'] at h
  have h1 := zpow_mono (show Int.log 2 |a| - ((prec : ℤ) + 1) ≤ Int.log 2 |b| - ((prec : ℤ) + 1) by omega)
  have h2 : (2 : ℚ) ^ (Int.log 2 |a| + 1 - ((prec + 1 : ℕ) : ℤ)) = 2 * 2 ^ (Int.log 2 |a| - ((prec : ℤ) + 1)) := by
    rw [show Int.log 2 |a| + 1 - ((prec + 1 : ℕ) : ℤ) = 1 + (Int.log 2 |a| - ((prec : ℤ) + 1)) by push_cast; ring, zadd]; norm_num
  refine ⟨_, rep_next (by omega) ha h0, ?_, ?_⟩
  · linarith [two_zpow_pos (Int.log 2 |a| + 1 - ((prec + 1 : ℕ) : ℤ))]
  · rw [h2]; linarith

theorem rep_half {p : ℕ} {a : ℚ} (ha : Rep p a) : Rep p (a / 2) := by
  have := ha.mul_zpow (-1)
  rwa [show a * 2 ^ (-1 : ℤ) = a / 2 by norm_num; ring] at this

theorem logb_neg (a : ℚ) : logb (-a) = logb a := by simp [logb]

theorem exists_between_balls {prec : ℕ} {a b : ℚ} (ha : Rep (prec + 1) a) (hb : Rep (prec + 1) b)
    (h : a + 2 ^ (logb a - ((prec : ℤ) + 1)) < b - 2 ^ (logb b - ((prec : ℤ) + 1))) : ∃ z, Rep (prec + 1) z ∧ a < z ∧ z < b := by
  have hp1 := two_zpow_pos (logb a - ((prec : ℤ) + 1))
  have hp2 := two_zpow_pos (logb b - ((prec : ℤ) + 1))
  have hab : a < b := by linarith
  rcases lt_trichotomy a 0 with hneg | rfl | hpos
  · rcases lt_trichotomy b 0 with bneg | rfl | bpos
    · obtain ⟨z, h1, h2, h3⟩ := exists_between_pos (b := -a) hb.neg (by linarith) (by rw [logb_neg, logb_neg]; linarith)
      exact ⟨-z, h1.neg, by linarith, by linarith⟩
    · exact ⟨a / 2, rep_half ha, by linarith, by linarith⟩
    · exact ⟨0, rep_zero _, hneg, bpos⟩
  · exact ⟨b / 2, rep_half hb, by linarith, by linarith⟩
  · exact exists_between_pos ha hpos h

/-- If the balls of two numbers (not products) do not touch, they are in the right order. -/
theorem RN.le_of_balls (atoms : Atoms) {x y : RN} (hx : ∀ m, x ≠ .prod m) (hy : ∀ m, y ≠ .prod m) {prec : ℕ} (hp : 1 ≤ prec)
    (h : (x.arb atoms prec).lt (y.arb atoms prec) = some true) : x.real atoms ≤ y.real atoms := by
  rw [RN.arb_eq, RN.arb_eq] at h
  unfold Ball.lt at h
  simp only [Ball.allLt, Ball.allLe, decide_eq_true_eq] at h
  split_ifs at h with h1 h2
  · obtain ⟨z, hz, hxz, hzy⟩ := exists_between_balls (RN.rep_arf_succ atoms hx hp) (RN.rep_arf_succ atoms hy hp) h1
    have s1 : x.real atoms ≤ z := not_lt.1 fun hc => absurd ((RN.arf_side_succ atoms hx hp hz).1 hc) (not_le.2 hxz)
    have s2 : (z : ℝ) ≤ y.real atoms := not_lt.1 fun hc => absurd ((RN.arf_side_succ atoms hy hp hz).2 hc) (not_le.2 hzy)
    exact s1.trans s2
  · cases h

end ExactReal
