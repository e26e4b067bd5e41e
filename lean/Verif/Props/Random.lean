import Verif.Lemma.Double
import Verif.Props.Approx

/-!
# C41, C52: random numbers in an interval and close to a double
# C34: conversion of real numbers to `double`
-/

namespace ExactReal.Props

open Arf

variable (gen : Generators)

/-! ### C41 -/

/-- **C41**: for all finite bounds `lower < upper` and whatever the random generators produce, `RealNumber::random(lower, upper)` returns
a number in `(lower, upper]`, and in `(lower, upper)` unless the interval is `[0, 1]`. -/
theorem randomIn_mem {lower upper : ℚ} (hl : Dyadic lower) (hu : Dyadic upper) (h : lower < upper) (seed : UInt32) :
    ∃ a, randomIn gen lower upper seed = .ok a ∧ (lower : ℝ) < a.value ∧ a.value ≤ upper ∧
      (¬(lower = 0 ∧ upper = 1) → a.value < upper) := by
  unfold randomIn
  split_ifs with h01 hle
  · obtain ⟨rfl, rfl⟩ := h01
    refine ⟨_, rfl, ?_, ?_, fun h => absurd ⟨rfl, rfl⟩ h⟩
    · rw [Atom.value]; exact_mod_cast (gen.digits seed).value_pos
    · rw [Atom.value]; simpa using (gen.digits seed).value_le_one
  · exact absurd h (not_lt.2 hle)
  · -- common exponent
    have key : ∀ (um lm e : ℤ), (lm : ℚ) * 2 ^ e = lower → (um : ℚ) * 2 ^ e = upper →
        ∃ a, (Out.ok (Atom.constrained (gen.urandomm seed (um - lm) + lm) e (gen.digits seed)) : Out Atom) = .ok a ∧
          (lower : ℝ) < a.value ∧ a.value ≤ upper ∧ (¬(lower = 0 ∧ upper = 1) → a.value < upper) := by
      intro um lm e hlm hum
      have h2 := two_zpow_pos e
      have hlt : lm < um := by
        have : (lm : ℚ) * 2 ^ e < um * 2 ^ e := by rw [hlm, hum]; exact h
        exact_mod_cast lt_of_mul_lt_mul_right this h2.le
      obtain ⟨r0, r1⟩ := gen.urandomm_range seed (um - lm) (by omega)
      set r := gen.urandomm seed (um - lm)
      refine ⟨_, rfl, ?_⟩
      have hv0 := (gen.digits seed).value_pos
      have hv1 := (gen.digits seed).value_le_one
      have hlm' : (lm : ℝ) * 2 ^ e = lower := by rw [← hlm]; push_cast; rfl
      have hum' : (um : ℝ) * 2 ^ e = upper := by rw [← hum]; push_cast; rfl
      have hp := zposR e
      have hq := zposR (e - 1)
      have hh := two_halves e
      have e0 : (lm : ℝ) ≤ ((r + lm : ℤ) : ℝ) := by exact_mod_cast (by omega : lm ≤ r + lm)
      have e1 : ((r + lm : ℤ) : ℝ) + 1 ≤ (um : ℝ) := by exact_mod_cast (by omega : r + lm + 1 ≤ um)
      have f0 := mul_le_mul_of_nonneg_right e0 hp.le
      have f1 := mul_le_mul_of_nonneg_right e1 hp.le
      have g0 := mul_pos hv0 hq
      have g1 := mul_le_mul_of_nonneg_right hv1 hq.le
      rw [Atom.value]
      refine ⟨?_, ?_, fun _ => ?_⟩ <;> linarith
    have hlm := mantissa_mul hl
    have hum := mantissa_mul hu
    have shift : ∀ (m a b : ℤ), b < a → ((m * 2 ^ (a - b).toNat : ℤ) : ℚ) * 2 ^ b = m * 2 ^ a := by
      intro m a b hab
      push_cast
      rw [← zpow_natCast, Int.toNat_of_nonneg (by omega), _root_.mul_assoc, ← zadd]; congr 2; ring
    simp only
    rcases lt_trichotomy (exponent lower) (exponent upper) with hlt | heq | hgt
    · rw [if_pos hlt]
      simp only [lt_self_iff_false, if_false]
      exact key _ _ _ hlm (by rw [shift _ _ _ hlt, hum])
    · rw [if_neg (by omega)]
      simp only [heq, lt_self_iff_false, if_false]
      exact key _ _ _ (heq ▸ hlm) hum
    · rw [if_neg (by omega)]
      simp only [hgt, if_true]
      exact key _ _ _ (by rw [shift _ _ _ hgt, hlm]) hum

/-- **C41** (errors): an empty interval is rejected, and only an empty interval. -/
theorem randomIn_throws_iff {lower upper : ℚ} (hl : Dyadic lower) (hu : Dyadic upper) (seed : UInt32) :
    randomIn gen lower upper seed = .throws .logicError ↔ upper ≤ lower := by
  constructor
  · intro h
    by_contra hlt
    obtain ⟨a, ha, -⟩ := randomIn_mem gen hl hu (not_le.1 hlt) seed
    rw [h] at ha; cases ha
  · intro h
    unfold randomIn
    rw [if_neg (by rintro ⟨rfl, rfl⟩; norm_num at h), if_pos h]

/-- A generator for the examples. -/
def sampleGenerators : Generators where
  digits _ := ⟨fun _ => true, 0, rfl⟩
  urandomm _ n := n - 1
  urandomm_range _ n hn := by constructor <;> omega

example : ∃ a, randomIn sampleGenerators (-3 / 4) (5 / 2) 7 = .ok a ∧ ((-3 / 4 : ℚ) : ℝ) < a.value ∧ a.value ≤ ((5 / 2 : ℚ) : ℝ) := by
  obtain ⟨a, h1, h2, h3, -⟩ := randomIn_mem sampleGenerators (lower := -3 / 4) (upper := 5 / 2) ⟨-3, -2, by norm_num⟩ ⟨5, -1, by norm_num⟩
    (by norm_num) 7
  exact ⟨a, h1, h2, h3⟩

/-! ### C52 -/

theorem rep_dyadic {p : ℕ} {x : ℚ} (h : Rep p x) : Dyadic x := by
  obtain ⟨m, k, -, h⟩ := h; exact ⟨m, k, h⟩

theorem nextDown_spec {x : ℚ} (hx : Double.IsRep x) :
    Double.IsRep (nextDown x) ∧ nextDown x < x ∧ |x| ≤ 2 ^ 54 * (x - nextDown x) ∧ ∀ z, Double.IsRep z → z < x → z ≤ nextDown x := by
  obtain ⟨h1, h2, h3, h4⟩ := Double.nextUp_spec hx.neg
  unfold nextDown
  refine ⟨h1.neg, by linarith, ?_, fun z hz hlt => ?_⟩
  · rw [abs_neg] at h3; convert h3 using 2; ring
  · have := h4 (-z) hz.neg (by linarith); linarith

/-- The bounds that are computed in 64 bits are strictly closer to `x` than to its neighbours. -/
theorem bound_close {x y : ℚ} (h : |x| ≤ 2 ^ 54 * |y - x|) (hne : y ≠ x) :
    |round .near 64 (round .near 64 (y + 2 * x) / 3) - (x + (y - x) / 3)| < |y - x| / 6 := by
  have hg : 0 < |y - x| := abs_pos.2 (sub_ne_zero.2 hne)
  have hs : |y + 2 * x| ≤ 3 * |x| + |y - x| := by
    have := abs_add_le (3 * x) (y - x)
    rw [show y + 2 * x = 3 * x + (y - x) by ring]
    rwa [abs_mul, abs_of_pos (by norm_num : (0 : ℚ) < 3)] at this
  have r1 := abs_round_near_sub_le_rel 64 (y + 2 * x)
  set s := round .near 64 (y + 2 * x)
  have r2 := abs_round_near_sub_le_rel 64 (s / 3)
  set t := round .near 64 (s / 3)
  have hs' : |s| ≤ |y + 2 * x| + |s - (y + 2 * x)| := by
    have := abs_add_le (y + 2 * x) (s - (y + 2 * x)); rwa [add_sub_cancel] at this
  rw [abs_div, abs_of_pos (by norm_num : (0 : ℚ) < 3)] at r2
  have hz : (2 : ℚ) ^ (-64 : ℤ) = 1 / 18446744073709551616 := by norm_num
  rw [hz] at r1 r2
  have tri : |t - (x + (y - x) / 3)| ≤ |t - s / 3| + |s - (y + 2 * x)| / 3 := by
    have := abs_add_le (t - s / 3) ((s - (y + 2 * x)) / 3)
    rw [abs_div, abs_of_pos (by norm_num : (0 : ℚ) < 3)] at this
    rwa [show t - s / 3 + (s - (y + 2 * x)) / 3 = t - (x + (y - x) / 3) by ring] at this
  norm_num at h
  linarith

/-- The powers of two at the upper end of the range of doubles. -/
theorem big_powers {K : Type*} [Field K] [LinearOrder K] [IsStrictOrderedRing K] : (2 : K) ^ 1024 = 2 ^ 54 * 2 ^ 970 ∧ (2 : K) ^ 971 = 2 * 2 ^ 970 ∧ (1 : K) ≤ 2 ^ 970 :=
  ⟨by rw [← pow_add], by rw [← pow_succ'], one_le_pow₀ (by norm_num)⟩

/-- **C52** for every double but the largest and the smallest one: the random number close to the double `x` is rounded to `x`: every
other double is further away, whatever the random generators produce. -/
theorem randomNear_partial {x : ℚ} (hx : Double.IsFinite x) (hmax : |x| < 2 ^ 1024 - 2 ^ 971) (seed : UInt32) :
    ∃ a, randomDouble gen (.fin x) seed = .ok a ∧ Double.IsUniqueNearest x a.value := by
  obtain ⟨u1, u2, u3, u4⟩ := Double.nextUp_spec hx.1
  obtain ⟨d1, d2, d3, d4⟩ := nextDown_spec hx.1
  simp only [randomDouble, if_neg (not_le.2 hmax), randomNear]
  have h2x : round .near 64 (2 * x) = 2 * x := by
    refine round_eq_self .near (p := 64) (by norm_num) ?_
    have := (hx.1.rep.mono (show 53 ≤ 64 by norm_num)).mul_zpow 1
    rwa [zpow_one, _root_.mul_comm] at this
  rw [h2x, show 2 * x + nextUp x = nextUp x + 2 * x by ring]
  have bu := bound_close (x := x) (y := nextUp x) (by rwa [abs_of_pos (sub_pos.2 u2)]) u2.ne'
  have bd := bound_close (x := x) (y := nextDown x) (by rw [abs_sub_comm (nextDown x), abs_of_pos (sub_pos.2 d2)]; exact d3) d2.ne
  rw [abs_of_pos (sub_pos.2 u2), abs_lt] at bu
  rw [abs_sub_comm (nextDown x) x, abs_of_pos (sub_pos.2 d2), abs_lt] at bd
  have dyl := rep_dyadic (rep_round .near (p := 64) (round .near 64 (nextDown x + 2 * x) / 3))
  have dyu := rep_dyadic (rep_round .near (p := 64) (round .near 64 (nextUp x + 2 * x) / 3))
  simp only [Nat.cast_ofNat] at dyl dyu
  set lower := round .near 64 (round .near 64 (nextDown x + 2 * x) / 3)
  set upper := round .near 64 (round .near 64 (nextUp x + 2 * x) / 3)
  obtain ⟨a, ha, hal, hau, -⟩ := randomIn_mem gen dyl dyu (by linarith) seed
  refine ⟨a, ha, hx, fun z hz hne => ?_⟩
  have l1 : (x - nextDown x) / 2 > x - lower := by linarith
  have l2 : (nextUp x - x) / 2 > upper - x := by linarith
  have l1' : ((x : ℝ) - nextDown x) / 2 > x - lower := by exact_mod_cast l1
  have l2' : ((nextUp x : ℝ) - x) / 2 > upper - x := by exact_mod_cast l2
  have u2' : (x : ℝ) < nextUp x := by exact_mod_cast u2
  have d2' : (nextDown x : ℝ) < x := by exact_mod_cast d2
  rcases lt_or_gt_of_ne hne with hlt | hgt
  · have := d4 z hz.1 hlt
    have h' : (z : ℝ) ≤ nextDown x := by exact_mod_cast this
    rw [abs_sub_comm (z : ℝ), lt_abs]; left
    rw [abs_lt]; constructor <;> linarith
  · have := u4 z hz.1 hgt
    have h' : (nextUp x : ℝ) ≤ z := by exact_mod_cast this
    rw [lt_abs]; left
    rw [abs_lt]; constructor <;> linarith

/-- **C52** (errors): infinities are rejected. -/
theorem randomDouble_infinite (seed : UInt32) :
    randomDouble gen .posInf seed = .throws .logicError ∧ randomDouble gen .negInf seed = .throws .logicError := ⟨rfl, rfl⟩

example : Double.IsFinite (1 / 4) ∧ |(1 / 4 : ℚ)| < 2 ^ 1024 - 2 ^ 971 :=
  have h : |(1 / 4 : ℚ)| < 2 ^ 1024 - 2 ^ 971 := by
    obtain ⟨e1, e2, e3⟩ := big_powers (K := ℚ)
    rw [abs_of_pos (by norm_num), e1, e2]; clear e1 e2
    generalize (2 : ℚ) ^ 970 = P at *; linarith
  ⟨⟨⟨1, -2, by norm_num, by norm_num, by norm_num⟩, h.trans_le (sub_le_self _ (by positivity))⟩, h⟩

/-! ### C34 -/

/-- **C34**, as far as it holds: the result of `double(x)` is as close to `x` as any other double, up to `2^-53·|x|` (up to `3·2^-54·|x|` for
a product of random numbers).  So it is the nearest double unless `x` is within that distance of the midpoint between two doubles.  An
infinite result appears only if `x` is, up to the same error, beyond the point from which numbers are rounded to infinity. -/
theorem toDouble_partial (atoms : Atoms) (x : RN) (hx : x.WF) :
    (∀ d, x.toDouble atoms = .fin d → Double.IsFinite d ∧ ∀ z, Double.IsRep z →
      ((∀ m, x ≠ .prod m) → |(d : ℝ) - x.real atoms| ≤ |(z : ℝ) - x.real atoms| + 2 ^ (-53 : ℤ) * |x.real atoms|) ∧
        |(d : ℝ) - x.real atoms| ≤ |(z : ℝ) - x.real atoms| + 3 * 2 ^ (-54 : ℤ) * |x.real atoms|) ∧
    (x.toDouble atoms = .posInf → (2 : ℝ) ^ 1024 - 2 ^ 970 ≤ x.real atoms + 3 * 2 ^ (-55 : ℤ) * |x.real atoms|) ∧
    (x.toDouble atoms = .negInf → x.real atoms - 3 * 2 ^ (-55 : ℤ) * |x.real atoms| ≤ -((2 : ℝ) ^ 1024 - 2 ^ 970)) := by
  have h54 : |(x.arf atoms 54 : ℝ) - x.real atoms| ≤ 3 * 2 ^ (-55 : ℤ) * |x.real atoms| := by
    have := (arf_relative_error_product_partial atoms x hx 54).1 (by norm_num)
    refine this.trans (le_of_eq ?_)
    norm_num
  have hnear : ∀ z, Double.IsRep z → |(Double.near (x.arf atoms 54) : ℝ) - x.real atoms| ≤
      |(z : ℝ) - x.real atoms| + 2 * |(x.arf atoms 54 : ℝ) - x.real atoms| := by
    intro z hz
    have h1 := Double.near_le_dist hz (x.arf atoms 54)
    have h1' : |(Double.near (x.arf atoms 54) : ℝ) - x.arf atoms 54| ≤ |(z : ℝ) - x.arf atoms 54| := by exact_mod_cast h1
    have h2 := abs_sub_le (Double.near (x.arf atoms 54) : ℝ) (x.arf atoms 54) (x.real atoms)
    have h3 := abs_sub_le (z : ℝ) (x.real atoms) (x.arf atoms 54)
    rw [abs_sub_comm (x.real atoms)] at h3
    linarith
  have hmaxd : Double.IsRep (2 ^ 1024 - 2 ^ 971) := ⟨2 ^ 53 - 1, 971, by norm_num, by norm_num, by
    rw [show ((2 : ℚ) ^ (971 : ℤ)) = 2 ^ 971 from zpow_natCast 2 971]
    obtain ⟨e1, e2, -⟩ := big_powers (K := ℚ)
    rw [e1, e2]; push_cast; ring⟩
  have hinf : ∀ a : ℚ, 2 ^ 1024 ≤ Double.near a → 2 ^ 1024 - 2 ^ 970 ≤ a := by
    intro a ha
    by_contra hlt
    push Not at hlt
    obtain ⟨e1, e2, e3⟩ := big_powers (K := ℚ)
    rw [e1] at ha hlt
    rw [e1, e2] at hmaxd
    clear e1 e2
    generalize (2 : ℚ) ^ 970 = P at *
    rcases le_total a (2 ^ 54 * P - 2 * P) with h | h
    · have := Double.near_le hmaxd h
      linarith
    · have := Double.near_le_dist hmaxd a
      rw [abs_of_nonneg (show 0 ≤ Double.near a - a by linarith), abs_of_nonpos (by linarith)] at this
      linarith
  rw [abs_le] at h54
  refine ⟨fun d hd => ?_, fun h => ?_, fun h => ?_⟩
  · unfold RN.toDouble Double.ofArf at hd
    by_cases c1 : 2 ^ 1024 ≤ Double.near (x.arf atoms 54)
    · rw [if_pos c1] at hd; cases hd
    rw [if_neg c1] at hd
    by_cases c2 : Double.near (x.arf atoms 54) ≤ -2 ^ 1024
    · rw [if_pos c2] at hd; cases hd
    rw [if_neg c2] at hd
    have hd' := Double.fin.inj hd
    subst hd'
    refine ⟨⟨Double.isRep_near _, abs_lt.2 ⟨not_le.1 c2, not_le.1 c1⟩⟩, fun z hz => ⟨fun hp => ?_, ?_⟩⟩
    · have := arf_relative_error_partial atoms x hp 54
      have := hnear z hz
      norm_num at *; linarith
    · have := hnear z hz
      have := abs_le.2 h54
      norm_num at *; linarith
  · unfold RN.toDouble Double.ofArf at h
    split_ifs at h with c1
    have := hinf _ c1
    have h' : ((2 ^ 1024 - 2 ^ 970 : ℚ) : ℝ) ≤ x.arf atoms 54 := by exact_mod_cast this
    push_cast at h'
    linarith [h54.2]
  · unfold RN.toDouble Double.ofArf at h
    split_ifs at h with c1 c2
    have := hinf (-x.arf atoms 54) (by rw [Double.near_neg]; linarith)
    have h' : ((2 ^ 1024 - 2 ^ 970 : ℚ) : ℝ) ≤ ((-x.arf atoms 54 : ℚ) : ℝ) := by exact_mod_cast this
    push_cast at h'
    linarith [h54.1]

/-- **C34** fails: the conversion rounds twice, first to 54 bits.  The rational `1 + 2^-53 + 2^-80` is converted to `1`, although `1 + 2^-52` is
closer. -/
theorem toDouble_not_nearest (atoms : Atoms) :
    ∃ x : RN, x.WF ∧ ∃ d, x.toDouble atoms = .fin d ∧ ¬Double.IsNearest d (x.real atoms) := by
  refine ⟨.rat (1 + 2 ^ (-53 : ℤ) + 2 ^ (-80 : ℤ)), trivial, 1, ?_, fun h => ?_⟩
  · show Double.ofArf (Arf.round .near 54 (((1 + 2 ^ (-53 : ℤ) + 2 ^ (-80 : ℤ) : ℚ).num : ℚ) / (1 + 2 ^ (-53 : ℤ) + 2 ^ (-80 : ℤ) : ℚ).den)) = .fin 1
    decide +kernel
  have := h.2 (1 + 2 ^ (-52 : ℤ)) ⟨⟨2 ^ 52 + 1, -52, by norm_num, by norm_num, by norm_num⟩, by
    have := (big_powers (K := ℚ)).2.2
    rw [abs_of_pos (by norm_num), (big_powers (K := ℚ)).1]
    generalize (2 : ℚ) ^ 970 = P at *; norm_num; linarith⟩
  rw [RN.real_rat] at this
  push_cast at this
  rw [abs_of_nonpos (by norm_num), abs_of_nonneg (by norm_num)] at this
  norm_num at this

/-- **C34** holds where no rounding happens: doubles survive the round trip through `RealNumber::rational`. -/
theorem toDouble_rational_double (atoms : Atoms) {d : ℚ} (hd : Double.IsFinite d) : (RN.rat d).toDouble atoms = .fin d := by
  have h1 : (RN.rat d).arf atoms 54 = d := by
    have := Arf.round_eq_self .near (p := 54) (by norm_num) (hd.1.rep.mono (show 53 ≤ 54 by norm_num))
    rw [← Rat.num_div_den d] at this
    simpa [RN.arf, RN.arf_, Rat.num_div_den] using this
  have h2 := abs_lt.1 hd.2
  rw [RN.toDouble, Double.ofArf, h1, Double.near_eq_self hd.1, if_neg (not_le.2 h2.2), if_neg (not_le.2 h2.1)]

example (atoms : Atoms) : (RN.rat (3 / 8)).WF ∧ (RN.rat (3 / 8)).toDouble atoms = .fin (3 / 8) :=
  ⟨trivial, toDouble_rational_double atoms ⟨⟨3, -3, by norm_num, by norm_num, by norm_num⟩, by
    have := (big_powers (K := ℚ)).2.2
    rw [abs_of_pos (by norm_num), (big_powers (K := ℚ)).1]
    generalize (2 : ℚ) ^ 970 = P at *; linarith⟩⟩

end ExactReal.Props
