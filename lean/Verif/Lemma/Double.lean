import Verif.Spec.Double
import Verif.Model.Random
import Verif.Lemma.Dyadic

/-! # Doubles -/

namespace ExactReal

open Arf

/-- Distance of the nearest integer. -/
theorem nearInt_le_floor (y : ℚ) : |(nearInt y : ℚ) - y| ≤ y - ⌊y⌋ := by
  have h0 := Int.floor_le y
  have h1 := Int.lt_floor_add_one y
  unfold nearInt
  split_ifs <;> push_cast <;> rw [abs_le] <;> constructor <;> linarith

theorem nearInt_le_ceil (y : ℚ) : |(nearInt y : ℚ) - y| ≤ ⌈y⌉ - y := by
  have h := nearInt_le_floor (-y)
  rw [nearInt_neg, Int.floor_neg] at h
  push_cast at h
  rw [← abs_neg]; convert h using 1
  · congr 1; ring
  · ring

namespace Double

theorem ulp_pos (x : ℚ) : 0 < ulp x := two_zpow_pos _

theorem IsRep.neg {x : ℚ} (h : IsRep x) : IsRep (-x) := by
  obtain ⟨m, e, hm, he, rfl⟩ := h
  exact ⟨-m, e, by rwa [abs_neg], he, by push_cast; ring⟩

theorem IsRep.rep {x : ℚ} (h : IsRep x) : Rep 53 x := by
  obtain ⟨m, e, hm, -, rfl⟩ := h
  exact ⟨m, e, hm, rfl⟩

theorem isRep_zero : IsRep 0 := ⟨0, 0, by simp, by norm_num, by simp⟩

theorem isRep_zpow {k : ℤ} (h : -1074 ≤ k) : IsRep (2 ^ k) := ⟨1, k, by norm_num, h, by simp⟩

/-- Doubles are multiples of the last digit of every number of smaller magnitude. -/
theorem IsRep.multiple {z x : ℚ} (hz : IsRep z) (h : (2 : ℚ) ^ Int.log 2 |x| ≤ |z| ∨ Int.log 2 |x| - 52 ≤ -1074) :
    ∃ n : ℤ, z = n * ulp x := by
  by_cases hs : Int.log 2 |x| - 52 ≤ -1074
  · obtain ⟨m, e, -, he, rfl⟩ := hz
    obtain ⟨n, hn⟩ := int_of_zpow he
    exact ⟨m * n, by rw [ulp, max_eq_right hs, hn]; push_cast; ring⟩
  · have h' := h.resolve_right hs
    obtain ⟨n, hn⟩ := hz.rep.multiple (by norm_num) h'
    refine ⟨n, ?_⟩
    rw [hn, Arf.ulp, ulp, max_eq_left (by omega)]
    congr 2; push_cast; ring

theorem multiple_self {x : ℚ} (hx : IsRep x) : ∃ n : ℤ, x = n * ulp x := by
  by_cases h : x = 0
  · exact ⟨0, by simp [h]⟩
  · exact hx.multiple (Or.inl (zpow_le_abs h))

theorem near_of_ne {x : ℚ} (hx : x ≠ 0) : near x = nearInt (x / ulp x) * ulp x := by simp [near, hx]

@[simp] theorem near_zero : near 0 = 0 := by simp [near]

theorem near_sub_eq {x : ℚ} (hx : x ≠ 0) : near x - x = (nearInt (x / ulp x) - x / ulp x) * ulp x := by
  rw [near_of_ne hx]; have := (ulp_pos x).ne'; field_simp

theorem ulp_neg (x : ℚ) : ulp (-x) = ulp x := by simp [ulp]

theorem near_neg (x : ℚ) : near (-x) = -near x := by
  by_cases hx : x = 0
  · subst hx; simp
  · rw [near_of_ne hx, near_of_ne (neg_ne_zero.2 hx), ulp_neg, neg_div, nearInt_neg]; push_cast; ring

theorem isRep_near (x : ℚ) : IsRep (near x) := by
  by_cases hx : x = 0
  · subst hx; simpa using isRep_zero
  · refine ⟨nearInt (x / ulp x), max (Int.log 2 |x| - 52) (-1074), ?_, le_max_right _ _, near_of_ne hx⟩
    have hu := ulp_pos x
    have hlt : |x / ulp x| ≤ 2 ^ 53 := by
      rw [abs_div, abs_of_pos hu, div_le_iff₀ hu]
      calc |x| ≤ 2 ^ (Int.log 2 |x| + 1) := (abs_lt_zpow x).le
        _ = 2 ^ 53 * 2 ^ (Int.log 2 |x| - 52) := by
            rw [show (2 : ℚ) ^ 53 = 2 ^ (53 : ℤ) by norm_num, ← zadd]; congr 1; ring
        _ ≤ _ := mul_le_mul_of_nonneg_left (zpow_mono (le_max_left _ _)) (by positivity)
    rw [abs_le] at hlt
    have e1 : ((-2 ^ 53 : ℤ) : ℚ) ≤ x / ulp x := by push_cast; exact hlt.1
    have e2 : x / ulp x ≤ ((2 ^ 53 : ℤ) : ℚ) := by push_cast; exact hlt.2
    have f1 := Rnd.toInt_mono .near e1
    have f2 := Rnd.toInt_mono .near e2
    rw [Rnd.toInt_int] at f1 f2
    exact abs_le.2 ⟨f1, f2⟩

/-- Between a double and any larger number there is a multiple of the last digit of that number. -/
theorem exists_between {z x : ℚ} (hz : IsRep z) (hx : x ≠ 0) (h : z ≤ x) : ∃ n : ℤ, z ≤ n * ulp x ∧ n * ulp x ≤ x := by
  by_cases hm : (2 : ℚ) ^ Int.log 2 |x| ≤ |z| ∨ Int.log 2 |x| - 52 ≤ -1074
  · obtain ⟨n, hn⟩ := hz.multiple hm
    exact ⟨n, hn.le, hn ▸ h⟩
  · push Not at hm
    obtain ⟨hm, hs⟩ := hm
    have hxa := zpow_le_abs hx
    have hx0 : 0 < x := by
      by_contra hneg
      push Not at hneg
      rw [abs_of_nonpos hneg] at hxa hm
      rw [abs_of_nonpos (h.trans hneg)] at hm
      linarith
    rw [abs_of_pos hx0] at hxa hm hs
    obtain ⟨n, hn⟩ := int_of_zpow (show max (Int.log 2 x - 52) (-1074) ≤ Int.log 2 x by omega)
    refine ⟨n, ?_, ?_⟩
    · rw [ulp, abs_of_pos hx0, ← hn]; exact (le_abs_self z).trans hm.le
    · rw [ulp, abs_of_pos hx0, ← hn]; exact hxa

/-- No double is closer. -/
theorem near_le_dist {z : ℚ} (hz : IsRep z) (x : ℚ) : |near x - x| ≤ |z - x| := by
  wlog h : z ≤ x generalizing x z
  · have := this hz.neg (-x) (by linarith)
    rw [near_neg] at this
    rw [← abs_neg (near x - x), ← abs_neg (z - x)]
    convert this using 2 <;> ring
  by_cases hx : x = 0
  · subst hx; simp
  obtain ⟨n, h1, h2⟩ := exists_between hz hx h
  have hu := ulp_pos x
  rw [near_sub_eq hx, abs_mul, abs_of_pos hu, abs_of_nonpos (show z - x ≤ 0 by linarith)]
  have h3 : n ≤ ⌊x / ulp x⌋ := Int.le_floor.2 (by rwa [le_div_iff₀ hu])
  have h4 := mul_le_mul_of_nonneg_right (nearInt_le_floor (x / ulp x)) hu.le
  have h5 : (n : ℚ) ≤ (⌊x / ulp x⌋ : ℚ) := by exact_mod_cast h3
  have h6 := mul_le_mul_of_nonneg_right h5 hu.le
  calc _ ≤ (x / ulp x - ⌊x / ulp x⌋) * ulp x := h4
    _ = x - ⌊x / ulp x⌋ * ulp x := by have := hu.ne'; field_simp
    _ ≤ _ := by linarith

theorem le_near {z x : ℚ} (hz : IsRep z) (h : z ≤ x) : z ≤ near x := by
  by_cases hx : x = 0
  · subst hx; simpa using h
  obtain ⟨n, h1, h2⟩ := exists_between hz hx h
  have hu := ulp_pos x
  refine h1.trans ?_
  rw [near_of_ne hx]
  have : (n : ℚ) ≤ x / ulp x := by rwa [le_div_iff₀ hu]
  have := Rnd.toInt_mono .near this
  rw [Rnd.toInt_int] at this
  exact mul_le_mul_of_nonneg_right (by exact_mod_cast this) hu.le

theorem near_le {z x : ℚ} (hz : IsRep z) (h : x ≤ z) : near x ≤ z := by
  have := le_near hz.neg (neg_le_neg h)
  rw [near_neg] at this; linarith

theorem near_eq_self {x : ℚ} (hx : IsRep x) : near x = x := le_antisymm (near_le hx le_rfl) (le_near hx le_rfl)

/-- Rounding to doubles is monotone. -/
theorem near_mono {x y : ℚ} (h : x ≤ y) : near x ≤ near y := by
  by_contra hlt
  push Not at hlt
  have a := near_le_dist (isRep_near y) x
  have b := near_le_dist (isRep_near x) y
  have h1 : y < near x := by
    by_contra h'; push Not at h'
    have := le_near (isRep_near x) h'; linarith
  have h2 : near y < x := by
    by_contra h'; push Not at h'
    have := near_le (isRep_near y) h'; linarith
  rw [abs_of_nonneg (show 0 ≤ near x - x by linarith), abs_of_nonpos (show near y - x ≤ 0 by linarith)] at a
  rw [abs_of_nonpos (show near y - y ≤ 0 by linarith), abs_of_nonneg (show 0 ≤ near x - y by linarith)] at b
  have : x = y := by linarith
  subst this
  exact lt_irrefl _ hlt

/-! ### neighbours -/

theorem ulp_ge (x : ℚ) : |x| ≤ 2 ^ 53 * ulp x := by
  calc |x| ≤ 2 ^ (Int.log 2 |x| + 1) := (abs_lt_zpow x).le
    _ = 2 ^ 53 * 2 ^ (Int.log 2 |x| - 52) := by
        rw [show (2 : ℚ) ^ 53 = 2 ^ (53 : ℤ) by norm_num, ← zadd]; congr 1; ring
    _ ≤ _ := mul_le_mul_of_nonneg_left (zpow_mono (le_max_left _ _)) (by positivity)

theorem ulp_le_abs {x : ℚ} (hx : IsRep x) (h0 : x ≠ 0) : ulp x ≤ |x| := by
  obtain ⟨n, hn⟩ := multiple_self hx
  have hu := ulp_pos x
  have : (1 : ℚ) ≤ |(n : ℚ)| := by
    have : n ≠ 0 := by rintro rfl; simp at hn; exact h0 hn
    exact_mod_cast Int.one_le_abs this
  calc ulp x = 1 * ulp x := by ring
    _ ≤ |(n : ℚ)| * ulp x := mul_le_mul_of_nonneg_right this hu.le
    _ = |x| := by conv_rhs => rw [hn, abs_mul, abs_of_pos hu]

/-- Distance to the next double. -/
theorem nextUp_spec {x : ℚ} (hx : IsRep x) :
    IsRep (nextUp x) ∧ x < nextUp x ∧ |x| ≤ 2 ^ 54 * (nextUp x - x) ∧ ∀ z, IsRep z → x < z → nextUp x ≤ z := by
  have hu := ulp_pos x
  obtain ⟨n, hn⟩ := multiple_self hx
  have hge := ulp_ge x
  have hlt53 : ∀ k : ℤ, x = k * ulp x → |k| ≤ 2 ^ 53 := by
    intro k hk
    have : |(k : ℚ)| ≤ 2 ^ 53 := by
      rw [hk, abs_mul, ← hk, abs_of_pos hu] at hge
      exact le_of_mul_le_mul_right hge hu
    exact_mod_cast this
  have hn53 := hlt53 n hn
  unfold nextUp
  split_ifs with hx0 hxp hpow
  · subst hx0
    refine ⟨isRep_zpow le_rfl, two_zpow_pos _, by simp, ?_⟩
    rintro z ⟨m, e, hm, he, rfl⟩ hlt
    have h2 := two_zpow_pos e
    have hm0 : 0 < m := by
      by_contra hneg; push Not at hneg
      have : (m : ℚ) ≤ 0 := by exact_mod_cast hneg
      have := mul_nonpos_of_nonpos_of_nonneg this h2.le
      linarith
    have hm1 : (1 : ℚ) ≤ m := by exact_mod_cast hm0
    have := mul_le_mul_of_nonneg_right hm1 h2.le
    have := zpow_mono he
    linarith
  · -- x > 0
    have h0 := hxp.le
    have hn0 : 0 ≤ n := by
      by_contra hneg; push Not at hneg
      have : (n : ℚ) < 0 := by exact_mod_cast hneg
      have := mul_neg_of_neg_of_pos this hu
      linarith
    have hn53' : n < 2 ^ 53 := by
      rw [abs_of_nonneg hn0] at hn53
      refine lt_of_le_of_ne hn53 ?_
      rintro rfl
      have h1 := abs_lt_zpow x
      have h2 : (2 : ℚ) ^ (Int.log 2 |x| + 1) ≤ |x| := by
        calc (2 : ℚ) ^ (Int.log 2 |x| + 1) = 2 ^ 53 * 2 ^ (Int.log 2 |x| - 52) := by
              rw [show (2 : ℚ) ^ 53 = 2 ^ (53 : ℤ) by norm_num, ← zadd]; congr 1; ring
          _ ≤ 2 ^ 53 * ulp x := mul_le_mul_of_nonneg_left (zpow_mono (le_max_left _ _)) (by positivity)
          _ = |x| := by rw [abs_of_nonneg h0]; conv_rhs => rw [hn]
                        push_cast; ring
      linarith
    refine ⟨⟨n + 1, max (Int.log 2 |x| - 52) (-1074), ?_, le_max_right _ _, ?_⟩, by linarith, ?_, ?_⟩
    · rw [abs_of_nonneg (by omega)]; omega
    · show x + ulp x = ((n + 1 : ℤ) : ℚ) * ulp x
      push_cast; linarith [hn]
    · rw [add_sub_cancel_left]; linarith
    · intro z hz hlt
      obtain ⟨k, hk⟩ := hz.multiple (x := x) (Or.inl (by
        refine (zpow_le_abs hx0).trans ?_
        rw [abs_of_pos hxp, abs_of_pos (by linarith)]; exact hlt.le))
      have hkn : n < k := by
        have : (n : ℚ) * ulp x < k * ulp x := by rw [← hn, ← hk]; exact hlt
        exact_mod_cast lt_of_mul_lt_mul_right this hu.le
      have : ((n : ℚ) + 1) ≤ k := by exact_mod_cast hkn
      have := mul_le_mul_of_nonneg_right this hu.le
      rw [← hk, add_mul, ← hn] at this; linarith
  · -- x = -2^L in the normal range: the next double is half as far away
    have h0 : x < 0 := lt_of_le_of_ne (not_lt.1 hxp) hx0
    obtain ⟨hP, hbig⟩ := hpow
    set L := Int.log 2 |x| with hL
    have hLb : -1022 < L := by rw [hP] at hbig; exact zpow_lt_iff.1 hbig
    have hul : ulp x = 2 ^ (L - 52) := by rw [ulp, max_eq_left (by omega)]
    have hul2 : ulp x / 2 = 2 ^ (L - 53) := by
      rw [hul, show L - 53 = (L - 52) - 1 by ring, zpow_sub_one₀ (by norm_num)]; ring
    have hxv : x = -2 ^ L := by linarith
    have e53 : (2 : ℚ) ^ L = 2 ^ 53 * 2 ^ (L - 53) := by
      rw [show (2 : ℚ) ^ 53 = 2 ^ (53 : ℤ) by norm_num, ← zadd]; congr 1; ring
    have hq := two_zpow_pos (L - 53)
    rw [hul2]
    refine ⟨⟨-(2 ^ 53 - 1), L - 53, by norm_num, by omega, ?_⟩, by linarith, ?_, ?_⟩
    · rw [hxv, e53]; push_cast; ring
    · rw [add_sub_cancel_left, abs_of_neg h0, hP, e53]
      nlinarith
    · intro z hz hlt
      rcases le_or_gt 0 z with hz0 | hz0
      · rw [hxv, e53]; nlinarith
      by_cases hz1 : (2 : ℚ) ^ (L - 1) ≤ |z|
      · obtain ⟨m, e, hm, he, hzv⟩ := hz
        -- z is a multiple of 2^(L - 53)
        have hzlt : |z| < 2 ^ L := by rw [abs_of_neg hz0]; linarith
        have hlz : Int.log 2 |z| = L - 1 := log_eq hz1 (by rwa [sub_add_cancel])
        obtain ⟨k, hk⟩ := (IsRep.rep ⟨m, e, hm, he, hzv⟩ : Rep 53 z).multiple (by norm_num) (zpow_le_abs (ne_of_lt hz0))
        have hk' : z = k * 2 ^ (L - 53) := by
          rw [hk, Arf.ulp, hlz]
          congr 2; push_cast; ring
        have : -(2 ^ 53 : ℚ) < k := by
          have : -(2 ^ 53 : ℚ) * 2 ^ (L - 53) < k * 2 ^ (L - 53) := by rw [← hk', neg_mul, ← e53, ← hxv]; exact hlt
          exact lt_of_mul_lt_mul_right this hq.le
        have : (-(2 ^ 53) : ℤ) < k := by exact_mod_cast this
        have : ((-(2 ^ 53) + 1 : ℤ) : ℚ) ≤ k := by exact_mod_cast this
        have := mul_le_mul_of_nonneg_right this hq.le
        rw [hk', hxv, e53]
        push_cast at this; linarith
      · push Not at hz1
        rw [abs_of_neg hz0] at hz1
        have e52 : (2 : ℚ) ^ (L - 1) = 2 ^ 52 * 2 ^ (L - 53) := by
          rw [show (2 : ℚ) ^ 52 = 2 ^ (52 : ℤ) by norm_num, ← zadd]; congr 1; ring
        rw [hxv, e53]; rw [e52] at hz1
        nlinarith
  · -- x < 0, not at the border of a binade
    have h0 : x < 0 := lt_of_le_of_ne (not_lt.1 hxp) hx0
    have hul := ulp_le_abs hx hx0
    rw [abs_of_neg h0] at hul
    have hn0 : n < 0 := by
      by_contra hneg; push Not at hneg
      have : (0 : ℚ) ≤ n := by exact_mod_cast hneg
      have := mul_nonneg this hu.le
      linarith
    refine ⟨⟨n + 1, max (Int.log 2 |x| - 52) (-1074), ?_, le_max_right _ _, ?_⟩, by linarith, ?_, ?_⟩
    · rw [abs_of_neg hn0] at hn53; rw [abs_of_nonpos (by omega)]; omega
    · show x + ulp x = ((n + 1 : ℤ) : ℚ) * ulp x
      push_cast; linarith [hn]
    · rw [add_sub_cancel_left]; linarith
    · intro z hz hlt
      rcases le_or_gt 0 z with hz0 | hz0
      · linarith
      by_cases hm : (2 : ℚ) ^ Int.log 2 |x| ≤ |z| ∨ Int.log 2 |x| - 52 ≤ -1074
      · obtain ⟨k, hk⟩ := hz.multiple hm
        have hkn : n < k := by
          have : (n : ℚ) * ulp x < k * ulp x := by rw [← hn, ← hk]; exact hlt
          exact_mod_cast lt_of_mul_lt_mul_right this hu.le
        have : ((n : ℚ) + 1) ≤ k := by exact_mod_cast hkn
        have := mul_le_mul_of_nonneg_right this hu.le
        rw [← hk, add_mul, ← hn] at this; linarith
      · push Not at hm
        obtain ⟨hm, hs⟩ := hm
        rw [abs_of_neg hz0] at hm
        -- -2^L is a multiple of the ulp strictly above x
        set L := Int.log 2 |x| with hL
        have hP := zpow_le_abs hx0
        rw [← hL, abs_of_neg h0] at hP
        have hul' : ulp x = 2 ^ (L - 52) := by rw [ulp, max_eq_left (by omega)]
        have hne : -x ≠ 2 ^ L := by
          intro he
          apply hpow
          refine ⟨he, ?_⟩
          rw [he]; exact zpow_lt_iff.2 (by omega)
        obtain ⟨k, hk⟩ := int_of_zpow (show L - 52 ≤ L by omega)
        rw [← hul'] at hk
        have hkn : n < -k := by
          have h5 : (n : ℚ) * ulp x < (-k : ℤ) * ulp x := by
            push_cast; rw [neg_mul, ← hn, ← hk]
            have := lt_of_le_of_ne hP (Ne.symm hne); linarith
          exact_mod_cast lt_of_mul_lt_mul_right h5 hu.le
        have : ((n : ℚ) + 1) ≤ ((-k : ℤ) : ℚ) := by exact_mod_cast hkn
        have := mul_le_mul_of_nonneg_right this hu.le
        push_cast at this
        rw [add_mul, ← hn, neg_mul, ← hk] at this
        linarith

end Double

end ExactReal
