import Verif.Props.RandomSpecial
import Verif.Lemma.NonCrossing

/-!
# The double of a random number close to a double

`double(random(d)) == d`: although the conversion rounds twice (first to 55 bits), it gives back the double.
-/

namespace ExactReal.Props
open ExactReal Arf

variable (gen : Generators)

namespace RandomRoundTrip

/-- A double is less than `2^53` steps to the next double away from zero. -/
theorem step {x : ℚ} (hx : Double.IsRep x) : ∃ k j : ℤ, -2 ^ 53 ≤ k ∧ k < 2 ^ 53 ∧ x = k * 2 ^ j ∧ nextUp x - x = 2 ^ j := by
  obtain ⟨n, hn⟩ := Double.multiple_self hx
  have hu := Double.ulp_pos x
  have hge := Double.ulp_ge x
  have hn53 : |n| ≤ 2 ^ 53 := by
    have : |(n : ℚ)| ≤ 2 ^ 53 := by
      rw [hn, abs_mul, ← hn, abs_of_pos hu] at hge
      exact le_of_mul_le_mul_right hge hu
    exact_mod_cast this
  unfold nextUp
  split_ifs with hx0 hxp hpow
  · exact ⟨0, -1074, by norm_num, by norm_num, by simp [hx0], by rw [hx0, sub_zero]⟩
  · have hn53' : n < 2 ^ 53 := by
      refine lt_of_le_of_ne (le_of_abs_le hn53) ?_
      rintro rfl
      have h1 := abs_lt_zpow x
      have h2 : (2 : ℚ) ^ (Int.log 2 |x| + 1) ≤ |x| := by
        calc (2 : ℚ) ^ (Int.log 2 |x| + 1) = 2 ^ 53 * 2 ^ (Int.log 2 |x| - 52) := by
              rw [show (2 : ℚ) ^ 53 = 2 ^ (53 : ℤ) by norm_num, ← zadd]; congr 1; ring
          _ ≤ 2 ^ 53 * Double.ulp x := mul_le_mul_of_nonneg_left (zpow_mono (le_max_left _ _)) (by positivity)
          _ = |x| := by rw [abs_of_pos hxp]; conv_rhs => rw [hn]
                        push_cast; ring
      linarith
    exact ⟨n, _, by have := neg_le_of_abs_le hn53; omega, hn53', hn, by rw [add_sub_cancel_left]; rfl⟩
  · obtain ⟨hP, hbig⟩ := hpow
    set L := Int.log 2 |x| with hL
    have hLb : -1022 < L := by rw [hP] at hbig; exact zpow_lt_iff.1 hbig
    refine ⟨-2 ^ 53, L - 53, le_rfl, by norm_num, ?_, ?_⟩
    · have e53 : (2 : ℚ) ^ L = 2 ^ 53 * 2 ^ (L - 53) := by
        rw [show (2 : ℚ) ^ 53 = 2 ^ (53 : ℤ) by norm_num, ← zadd]; congr 1; ring
      push_cast; linarith
    · rw [add_sub_cancel_left, Double.ulp, ← hL, max_eq_left (by omega), show L - 53 = (L - 52) - 1 by ring, zpow_sub_one₀ (by norm_num)]; ring
  · refine ⟨n, _, by have := neg_le_of_abs_le hn53; omega, ?_, hn, by rw [add_sub_cancel_left]; rfl⟩
    by_contra hge'
    have h1 : (0 : ℚ) < n := by exact_mod_cast (by omega : 0 < n)
    have := mul_pos h1 hu
    rw [← hn] at this; exact hxp this

/-- `3/8` of the way to the next double needs 56 bits. -/
theorem rep_up {x : ℚ} (hx : Double.IsRep x) : Rep 56 (x + 3 / 8 * (nextUp x - x)) := by
  obtain ⟨k, j, h1, h2, h3, h4⟩ := step hx
  refine ⟨8 * k + 3, j - 3, ?_, ?_⟩
  · rw [abs_le]; constructor <;> omega
  · rw [h4]; nth_rw 1 [h3]
    rw [show (2 : ℚ) ^ j = 8 * 2 ^ (j - 3) by rw [show (8 : ℚ) = 2 ^ (3 : ℤ) by norm_num, ← zadd]; congr 1; ring]
    push_cast; ring

theorem rep_down {x : ℚ} (hx : Double.IsRep x) : Rep 56 (x - 3 / 8 * (x - nextDown x)) := by
  have := (rep_up hx.neg).neg
  unfold nextDown
  convert this using 1; ring

/-- The bounds are less than `3/8` of the way to the neighbours. -/
theorem bound_closer {x y : ℚ} (h : |x| ≤ 2 ^ 54 * |y - x|) (hne : y ≠ x) :
    |round .near 64 (round .near 64 (y + 2 * x) / 3) - (x + (y - x) / 3)| < |y - x| / 24 := by
  have hg : 0 < |y - x| := abs_pos.2 (sub_ne_zero.2 hne)
  have hs : |y + 2 * x| ≤ 3 * |x| + |y - x| := by
    have := abs_add_le (3 * x) (y - x)
    rw [show y + 2 * x = 3 * x + (y - x) by ring]
    rwa [abs_mul, abs_of_pos (by norm_num : (0 : ℚ) < 3)] at this
  have r1 := abs_round_near_sub_le_rel 64 (y + 2 * x)
  set s := round .near 64 (y + 2 * x)
  have r2 := abs_round_near_sub_le_rel 64 (s / 3)
  set t := round .near 64 (s / 3)
  have hs' : |s| ≤ |y + 2 * x| + |s - (y + 2 * x)| := by
    have := abs_add_le (y + 2 * x) (s - (y + 2 * x)); rwa [add_sub_cancel] at this
  rw [abs_div, abs_of_pos (by norm_num : (0 : ℚ) < 3)] at r2
  have hz : (2 : ℚ) ^ (-64 : ℤ) = 1 / 18446744073709551616 := by norm_num
  rw [hz] at r1 r2
  have tri : |t - (x + (y - x) / 3)| ≤ |t - s / 3| + |s - (y + 2 * x)| / 3 := by
    have := abs_add_le (t - s / 3) ((s - (y + 2 * x)) / 3)
    rw [abs_div, abs_of_pos (by norm_num : (0 : ℚ) < 3)] at this
    rwa [show t - s / 3 + (s - (y + 2 * x)) / 3 = t - (x + (y - x) / 3) by ring] at this
  norm_num at h
  linarith

/-- A number close to the double `x` is still close to it when it is rounded to 55 bits, and is then rounded to `x`. -/
theorem round_twice {x w : ℚ} (hx : Double.IsFinite x) (h1 : x - 3 / 8 * (x - nextDown x) < w) (h2 : w < x + 3 / 8 * (nextUp x - x)) :
    Double.ofArf (round .near ((54 + 1 : ℕ) : ℤ) w) = .fin x := by
  obtain ⟨u1, u2, u3, u4⟩ := Double.nextUp_spec hx.1
  obtain ⟨d1, d2, d3, d4⟩ := nextDown_spec hx.1
  have l1 := le_round_near_of_lt (p := 54 + 1) (by norm_num) (rep_down hx.1) h1
  have l2 := round_near_le_of_lt (p := 54 + 1) (by norm_num) (rep_up hx.1) h2
  set b := round .near ((54 + 1 : ℕ) : ℤ) w
  refine RandomSpecialLemma.ofArf_near hx fun z hz hne => ?_
  rcases lt_or_gt_of_ne hne with hlt | hgt
  · have := d4 z hz hlt
    rw [abs_sub_comm z, lt_abs]; left
    rw [abs_lt]; constructor <;> linarith
  · have := u4 z hz hgt
    rw [lt_abs]; left
    rw [abs_lt]; constructor <;> linarith

/-- What `RealNumber::random(lower, upper)` builds. -/
theorem randomIn_form {lower upper : ℚ} (hl : Dyadic lower) (hu : Dyadic upper) (h : lower < upper) (h01 : ¬(lower = 0 ∧ upper = 1)) (seed : UInt32) :
    ∃ m e : ℤ, randomIn gen lower upper seed = .ok (.constrained m e (gen.digits seed)) ∧ lower ≤ m * 2 ^ e ∧ ((m : ℚ) + 1) * 2 ^ e ≤ upper := by
  unfold randomIn
  rw [if_neg h01, if_neg (not_le.2 h)]
  have key : ∀ (um lm e : ℤ), (lm : ℚ) * 2 ^ e = lower → (um : ℚ) * 2 ^ e = upper →
      ∃ m e' : ℤ, (Out.ok (Atom.constrained (gen.urandomm seed (um - lm) + lm) e (gen.digits seed)) : Out Atom) =
        .ok (.constrained m e' (gen.digits seed)) ∧ lower ≤ m * 2 ^ e' ∧ ((m : ℚ) + 1) * 2 ^ e' ≤ upper := by
    intro um lm e hlm hum
    have h2 := two_zpow_pos e
    have hlt : lm < um := by
      have : (lm : ℚ) * 2 ^ e < um * 2 ^ e := by rw [hlm, hum]; exact h
      exact_mod_cast lt_of_mul_lt_mul_right this h2.le
    obtain ⟨r0, r1⟩ := gen.urandomm_range seed (um - lm) (by omega)
    refine ⟨_, e, rfl, ?_, ?_⟩
    · rw [← hlm]
      exact mul_le_mul_of_nonneg_right (by exact_mod_cast (by omega)) h2.le
    · rw [← hum]
      exact mul_le_mul_of_nonneg_right (by exact_mod_cast (by omega)) h2.le
  have hlm := mantissa_mul hl
  have hum := mantissa_mul hu
  have shift : ∀ (m a b : ℤ), b < a → ((m * 2 ^ (a - b).toNat : ℤ) : ℚ) * 2 ^ b = m * 2 ^ a := by
    intro m a b hab
    push_cast
    rw [← zpow_natCast, Int.toNat_of_nonneg (by omega), _root_.mul_assoc, ← zadd]; congr 2; ring
  simp only
  rcases lt_trichotomy (exponent lower) (exponent upper) with hlt | heq | hgt
  · rw [if_pos hlt]
    simp only [lt_self_iff_false, if_false]
    exact key _ _ _ hlm (by rw [shift _ _ _ hlt, hum])
  · rw [if_neg (by omega)]
    simp only [heq, lt_self_iff_false, if_false]
    exact key _ _ _ (heq ▸ hlm) hum
  · rw [if_neg (by omega)]
    simp only [hgt, if_true]
    exact key _ _ _ (by rw [shift _ _ _ hgt, hlm]) hum

/-- What `random(x)` builds: a number whose `initial` and, for every number of digits that are read, truncated value are close to `x`. -/
theorem randomDouble_form {x : ℚ} (hx : Double.IsFinite x) (hmax : |x| < 2 ^ 1024 - 2 ^ 971) (seed : UInt32) :
    ∃ m e : ℤ, randomDouble gen (.fin x) seed = .ok (.constrained m e (gen.digits seed)) ∧
      x - 3 / 8 * (x - nextDown x) < m * 2 ^ e ∧ ((m : ℚ) + 1) * 2 ^ e < x + 3 / 8 * (nextUp x - x) := by
  obtain ⟨u1, u2, u3, u4⟩ := Double.nextUp_spec hx.1
  obtain ⟨d1, d2, d3, d4⟩ := nextDown_spec hx.1
  simp only [randomDouble, if_neg (not_le.2 hmax), randomNear]
  have h2x : round .near 64 (2 * x) = 2 * x := by
    refine round_eq_self .near (p := 64) (by norm_num) ?_
    have := (hx.1.rep.mono (show 53 ≤ 64 by norm_num)).mul_zpow 1
    rwa [zpow_one, _root_.mul_comm] at this
  rw [h2x, show 2 * x + nextUp x = nextUp x + 2 * x by ring]
  have bu := bound_closer (x := x) (y := nextUp x) (by rwa [abs_of_pos (sub_pos.2 u2)]) u2.ne'
  have bd := bound_closer (x := x) (y := nextDown x) (by rw [abs_sub_comm (nextDown x), abs_of_pos (sub_pos.2 d2)]; exact d3) d2.ne
  rw [abs_of_pos (sub_pos.2 u2), abs_lt] at bu
  rw [abs_sub_comm (nextDown x) x, abs_of_pos (sub_pos.2 d2), abs_lt] at bd
  have dyl := rep_dyadic (rep_round .near (p := 64) (round .near 64 (nextDown x + 2 * x) / 3))
  have dyu := rep_dyadic (rep_round .near (p := 64) (round .near 64 (nextUp x + 2 * x) / 3))
  simp only [Nat.cast_ofNat] at dyl dyu
  set lower := round .near 64 (round .near 64 (nextDown x + 2 * x) / 3)
  set upper := round .near 64 (round .near 64 (nextUp x + 2 * x) / 3)
  have hlx : lower < x := by linarith
  obtain ⟨m, e, h1, h2, h3⟩ := randomIn_form gen dyl dyu (by linarith) (by
    rintro ⟨h, -⟩
    rw [h] at hlx bd
    have := d4 0 Double.isRep_zero hlx
    linarith) seed
  exact ⟨m, e, h1, by linarith, by linarith⟩

end RandomRoundTrip

open RandomRoundTrip

/-- **C95**, **C52** and **C34**: `double(random(d)) == d` for every double but the largest and the smallest one, whatever the random generators
produce, and also `double(initial)` is `d`, so that the printed form of the number starts with `d` and has no correction `[∼…]`. -/
theorem random_double_round_trip {x : ℚ} (hx : Double.IsFinite x) (hmax : |x| < 2 ^ 1024 - 2 ^ 971) (seed : UInt32) :
    ∃ a, randomDouble gen (.fin x) seed = .ok a ∧
      (∀ (atoms : Atoms) (i : ℕ), atoms i = a → (RN.atom i).toDouble atoms = .fin x) ∧
      ∃ m e d, a = .constrained m e d ∧ Double.ofArf (ofMantissaExponent m e) = .fin x := by
  obtain ⟨m, e, h1, h2, h3⟩ := randomDouble_form gen hx hmax seed
  refine ⟨_, h1, fun atoms i hi => ?_, m, e, _, rfl, ?_⟩
  · have hp := two_zpow_pos e
    have hq := two_zpow_pos (e - 1)
    have hh : (2 : ℚ) ^ e = 2 * 2 ^ (e - 1) := by rw [← zpow_one_add₀ (by norm_num)]; congr 1; ring
    have hlo := Digits.prefixValue_nonneg (gen.digits seed).digit (innerDigits m e (gen.digits seed) 54)
    have hhi : Digits.prefixValue (gen.digits seed).digit (innerDigits m e (gen.digits seed) 54) ≤ 1 := by
      have := ((gen.digits seed).prefixValue_le (innerDigits m e (gen.digits seed) 54)).trans (gen.digits seed).value_le_one
      exact_mod_cast this
    have hlo' := mul_nonneg hlo hq.le
    have hhi' := mul_le_mul_of_nonneg_right hhi hq.le
    show Double.ofArf (Atom.arf (atoms i) 54) = _
    rw [hi]
    show Double.ofArf (Atom.arfConstrained m e (gen.digits seed) 54) = _
    rw [arfConstrained_eq]
    refine round_twice hx ?_ ?_
    · rw [truncated]; linarith
    · rw [truncated]; linarith
  · have hp := two_zpow_pos e
    obtain ⟨u1, u2, u3, u4⟩ := Double.nextUp_spec hx.1
    obtain ⟨d1, d2, d3, d4⟩ := nextDown_spec hx.1
    rw [ofMantissaExponent]
    refine RandomSpecialLemma.ofArf_near hx fun z hz hne => ?_
    rcases lt_or_gt_of_ne hne with hlt | hgt
    · have := d4 z hz hlt
      rw [abs_sub_comm z, lt_abs]; left
      rw [abs_lt]; constructor <;> linarith
    · have := u4 z hz hgt
      rw [lt_abs]; left
      rw [abs_lt]; constructor <;> linarith

/-- For example for `1/4`. -/
example : Double.IsFinite (1 / 4) ∧ |(1 / 4 : ℚ)| < 2 ^ 1024 - 2 ^ 971 ∧
    ∃ a, randomDouble sampleGenerators (.fin (1 / 4)) 7 = .ok a ∧ (RN.atom 0).toDouble (fun _ => a) = .fin (1 / 4) := by
  have h : |(1 / 4 : ℚ)| < 2 ^ 1024 - 2 ^ 971 := by
    obtain ⟨e1, e2, e3⟩ := big_powers (K := ℚ)
    rw [abs_of_pos (by norm_num), e1, e2]; clear e1 e2
    generalize (2 : ℚ) ^ 970 = P at *; linarith
  have hf : Double.IsFinite (1 / 4) := ⟨⟨1, -2, by norm_num, by norm_num, by norm_num⟩, h.trans_le (sub_le_self _ (by positivity))⟩
  obtain ⟨a, h1, h2, -⟩ := random_double_round_trip sampleGenerators hf h 7
  exact ⟨hf, h, a, h1, h2 _ 0 rfl⟩

end ExactReal.Props
