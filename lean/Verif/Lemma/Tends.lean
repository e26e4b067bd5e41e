import Verif.Lemma.Ball
import Mathlib.Analysis.SpecificLimits.Basic

/-! # Convergence of refined balls -/

namespace ExactReal

open Arf Filter Topology Ball

/-- Transfer an inequality of rationals to the reals. -/
local macro "rcast" t:term : tactic =>
  `(tactic| (have hh := (Rat.cast_le (K := ℝ)).2 $t; push_cast at hh; first | exact hh | (simp only [Rat.cast_abs] at hh ⊢; exact hh)))

theorem zpow_neg_tendsto (k : ℤ) : Tendsto (fun n : ℕ => (2 : ℝ) ^ (k - (n : ℤ))) atTop (𝓝 0) := by
  have h : (fun n : ℕ => (2 : ℝ) ^ (k - (n : ℤ))) = fun n : ℕ => 2 ^ k * (1 / 2 : ℝ) ^ n := by
    funext n
    rw [sub_eq_add_neg, zaddR, zpow_neg, zpow_natCast, one_div, inv_pow]
  rw [h]
  have := (tendsto_pow_atTop_nhds_zero_of_lt_one (r := (1 / 2 : ℝ)) (by norm_num) (by norm_num)).const_mul ((2 : ℝ) ^ k)
  simpa using this

/-- The radius is eventually non-negative. -/
theorem Ball.Finite.radius_nonneg {b : Ball} (h : b.Finite) : 0 ≤ b.radius := by
  obtain ⟨r, h1, h2⟩ := h; rw [radius_eq h1]; exact h2

theorem Ball.Tends.mk' {b : ℕ → Ball} {x : ℝ} {f g : ℕ → ℝ} (hf : ∀ᶠ n in atTop, (b n).Finite)
    (hr : ∀ᶠ n in atTop, ((b n).radius : ℝ) ≤ f n) (hf0 : Tendsto f atTop (𝓝 0))
    (hm : ∀ᶠ n in atTop, |((b n).mid : ℝ) - x| ≤ g n) (hg0 : Tendsto g atTop (𝓝 0)) : Tends b x := by
  refine ⟨hf, ?_, ?_⟩
  · refine squeeze_zero' ?_ hr hf0
    filter_upwards [hf] with n hn
    exact_mod_cast hn.radius_nonneg
  · rw [tendsto_iff_dist_tendsto_zero]
    refine squeeze_zero' (Eventually.of_forall fun n => dist_nonneg) ?_ hg0
    filter_upwards [hm] with n hn
    rwa [Real.dist_eq]

theorem Ball.tends_exact (q : ℚ) : Tends (fun _ => exact q) (q : ℝ) :=
  ⟨Eventually.of_forall fun _ => finite_exact q, by simp [radius, exact], by simp [exact]⟩

variable {F : Arith}

theorem Arith.Lawful.mul_tends (hF : F.Lawful) {a b : ℕ → Ball} {x y : ℝ} (ha : Tends a x) (hb : Tends b y) :
    Tends (fun n => F.mul n (a n) (b n)) (x * y) := by
  have hab := ha.mid.mul hb.mid
  refine ⟨?_, ?_, ?_⟩
  · filter_upwards [ha.finite, hb.finite] with n h1 h2 using hF.mul_finite n _ _ h1 h2
  · refine squeeze_zero' (g := fun n : ℕ => 2 * (|((a n).mid : ℝ)| * (b n).radius + |((b n).mid : ℝ)| * (a n).radius + (a n).radius * (b n).radius) +
      2 ^ (2 - (n : ℤ)) * |((a n).mid : ℝ) * (b n).mid|) ?_ ?_ ?_
    · filter_upwards [ha.finite, hb.finite] with n h1 h2
      exact_mod_cast (hF.mul_finite n _ _ h1 h2).radius_nonneg
    · filter_upwards [ha.finite, hb.finite, eventually_ge_atTop 2] with n h1 h2 hn
      have := hF.mul_radius n (a n) (b n) hn h1 h2
      rcast this
    · have h1 := ((ha.mid.abs.mul hb.radius).add (hb.mid.abs.mul ha.radius)).add (ha.radius.mul hb.radius)
      have h2 := (h1.const_mul 2).add ((zpow_neg_tendsto 2).mul hab.abs)
      simpa using h2
  · have key : Tendsto (fun n => ((F.mul n (a n) (b n)).mid : ℝ) - (a n).mid * (b n).mid) atTop (𝓝 0) := by
      rw [tendsto_zero_iff_abs_tendsto_zero]
      refine squeeze_zero' (g := fun n : ℕ => 2 ^ (1 - (n : ℤ)) * |((a n).mid : ℝ) * (b n).mid|) (Eventually.of_forall fun n => abs_nonneg _) ?_ ?_
      · filter_upwards [eventually_ge_atTop 2] with n hn
        have := hF.mul_mid n (a n) (b n) hn
        rcast this
      · simpa using (zpow_neg_tendsto 1).mul hab.abs
    simpa using key.add hab

theorem Arith.Lawful.add_tends (hF : F.Lawful) {a b : ℕ → Ball} {x y : ℝ} (ha : Tends a x) (hb : Tends b y) :
    Tends (fun n => F.add n (a n) (b n)) (x + y) := by
  have hab := ha.mid.add hb.mid
  refine ⟨?_, ?_, ?_⟩
  · filter_upwards [ha.finite, hb.finite] with n h1 h2 using hF.add_finite n _ _ h1 h2
  · refine squeeze_zero' (g := fun n : ℕ => 2 * (((a n).radius : ℝ) + (b n).radius) + 2 ^ (2 - (n : ℤ)) * |((a n).mid : ℝ) + (b n).mid|) ?_ ?_ ?_
    · filter_upwards [ha.finite, hb.finite] with n h1 h2
      exact_mod_cast (hF.add_finite n _ _ h1 h2).radius_nonneg
    · filter_upwards [ha.finite, hb.finite, eventually_ge_atTop 2] with n h1 h2 hn
      have := hF.add_radius n (a n) (b n) hn h1 h2
      rcast this
    · have h2 := ((ha.radius.add hb.radius).const_mul 2).add ((zpow_neg_tendsto 2).mul hab.abs)
      simpa using h2
  · have key : Tendsto (fun n => ((F.add n (a n) (b n)).mid : ℝ) - ((a n).mid + (b n).mid)) atTop (𝓝 0) := by
      rw [tendsto_zero_iff_abs_tendsto_zero]
      refine squeeze_zero' (g := fun n : ℕ => 2 ^ (1 - (n : ℤ)) * |((a n).mid : ℝ) + (b n).mid|) (Eventually.of_forall fun n => abs_nonneg _) ?_ ?_
      · filter_upwards [eventually_ge_atTop 2] with n hn
        have := hF.add_mid n (a n) (b n) hn
        rcast this
      · simpa using (zpow_neg_tendsto 1).mul hab.abs
    simpa using key.add hab

/-- Eventually a ball that shrinks to a non-zero number does not contain zero. -/
theorem Ball.Tends.ne_zero {b : ℕ → Ball} {y : ℝ} (hb : Tends b y) (hy : y ≠ 0) : ∀ᶠ n in atTop, ¬ (b n).Contains 0 ∧
    ((b n).radius : ℝ) ≤ |((b n).mid : ℝ)| / 2 ∧ (b n).mid ≠ 0 := by
  have h1 := hb.mid.abs
  have hpos := abs_pos.2 hy
  filter_upwards [hb.finite, h1.eventually (lt_mem_nhds (show |y| / 2 < |y| by linarith)),
    hb.radius.eventually (gt_mem_nhds (show (0 : ℝ) < |y| / 4 by linarith))] with n hf h2 h3
  obtain ⟨r, hr, hr0⟩ := hf
  rw [radius_eq hr] at h3 ⊢
  refine ⟨?_, by linarith, ?_⟩
  · rw [contains_iff hr, zero_sub, abs_neg]; linarith
  · intro h0; rw [h0] at h2; simp at h2; linarith

theorem Arith.Lawful.div_tends (hF : F.Lawful) {a b : ℕ → Ball} {x y : ℝ} (ha : Tends a x) (hb : Tends b y) (hy : y ≠ 0) :
    Tends (fun n => F.div n (a n) (b n)) (x / y) := by
  have hab : Tendsto (fun n => ((a n).mid : ℝ) / (b n).mid) atTop (𝓝 (x / y)) := ha.mid.div hb.mid hy
  have hbz := hb.ne_zero hy
  have hE : Tendsto (fun n => (|((a n).mid : ℝ)| * (b n).radius + |((b n).mid : ℝ)| * (a n).radius) /
      (|((b n).mid : ℝ)| * (|((b n).mid : ℝ)| - (b n).radius))) atTop (𝓝 0) := by
    have h1 := (ha.mid.abs.mul hb.radius).add (hb.mid.abs.mul ha.radius)
    have h2 := hb.mid.abs.mul (hb.mid.abs.sub hb.radius)
    have h3 := h1.div h2 (by simp [hy])
    simp only [zero_mul, mul_zero, add_zero, zero_div] at h3
    exact h3
  refine ⟨?_, ?_, ?_⟩
  · filter_upwards [ha.finite, hb.finite, hbz] with n h1 h2 h3 using hF.div_finite n _ _ h1 h2 h3.1
  · refine squeeze_zero' (g := fun n : ℕ => 2 ^ (2 - (n : ℤ)) * |((a n).mid : ℝ) / (b n).mid| +
      4 * (|((a n).mid : ℝ)| * (b n).radius + |((b n).mid : ℝ)| * (a n).radius) /
      (|((b n).mid : ℝ)| * (|((b n).mid : ℝ)| - (b n).radius))) ?_ ?_ ?_
    · filter_upwards [ha.finite, hb.finite, hbz] with n h1 h2 h3
      exact_mod_cast (hF.div_finite n _ _ h1 h2 h3.1).radius_nonneg
    · filter_upwards [ha.finite, hb.finite, hbz, eventually_ge_atTop 2] with n h1 h2 h3 hn
      have := hF.div_radius n (a n) (b n) hn h1 h2 h3.1
      rcast this
    · have h2 := ((zpow_neg_tendsto 2).mul hab.abs).add (hE.const_mul 4)
      simp only [zero_mul, mul_zero, add_zero] at h2
      refine h2.congr fun n => ?_
      ring
  · have key : Tendsto (fun n => ((F.div n (a n) (b n)).mid : ℝ) - (a n).mid / (b n).mid) atTop (𝓝 0) := by
      rw [tendsto_zero_iff_abs_tendsto_zero]
      refine squeeze_zero' (g := fun n : ℕ => 2 ^ (1 - (n : ℤ)) * |((a n).mid : ℝ) / (b n).mid| +
        2 * (|((a n).mid : ℝ)| * (b n).radius + |((b n).mid : ℝ)| * (a n).radius) /
        (|((b n).mid : ℝ)| * (|((b n).mid : ℝ)| - (b n).radius))) (Eventually.of_forall fun n => abs_nonneg _) ?_ ?_
      · filter_upwards [ha.finite, hb.finite, hbz, eventually_ge_atTop 2] with n h1 h2 h3 hn
        have := hF.div_mid n (a n) (b n) hn h3.1 h1 h2
        rcast this
      · have h2 := ((zpow_neg_tendsto 1).mul hab.abs).add (hE.const_mul 2)
        simp only [zero_mul, mul_zero, add_zero] at h2
        refine h2.congr fun n => ?_
        ring
    have := key.add hab
    simpa using this

theorem Arith.Lawful.ofRat_tends (hF : F.Lawful) (q : ℚ) : Tends (fun n => F.ofRat n q) q := by
  refine Tends.mk' (f := fun n : ℕ => 2 ^ (2 - (n : ℤ)) * |(q : ℝ)|) (g := fun n : ℕ => 2 ^ (1 - (n : ℤ)) * |(q : ℝ)|)
    (Eventually.of_forall fun n => hF.ofRat_finite n q) ?_ ?_ ?_ ?_
  · filter_upwards [eventually_ge_atTop 2] with n hn
    have := hF.ofRat_radius n q hn
    rcast this
  · simpa using (zpow_neg_tendsto 2).mul_const |(q : ℝ)|
  · filter_upwards [eventually_ge_atTop 2] with n hn
    have := hF.ofRat_mid n q hn
    rcast this
  · simpa using (zpow_neg_tendsto 1).mul_const |(q : ℝ)|

/-- Scaling with exact precision. -/
theorem Arith.Lawful.mul_exact_tends (hF : F.Lawful) {a : ℕ → Ball} {x : ℝ} (ha : Tends a x) (q : ℚ) :
    Tends (fun n => F.mul ARF_PREC_EXACT (a n) (exact q)) (x * q) := by
  refine ⟨?_, ?_, ?_⟩
  · filter_upwards [ha.finite] with n h1 using hF.mul_finite _ _ _ h1 (finite_exact q)
  · refine squeeze_zero' (g := fun n : ℕ => 2 * (|(q : ℝ)| * (a n).radius)) ?_ ?_ ?_
    · filter_upwards [ha.finite] with n h1
      exact_mod_cast (hF.mul_finite ARF_PREC_EXACT _ _ h1 (finite_exact q)).radius_nonneg
    · filter_upwards [ha.finite] with n h1
      have := hF.mul_exact_radius (a n) (exact q) h1 (finite_exact q)
      rw [radius_eq (b := exact q) rfl] at this
      simp only [mul_zero, zero_add, add_zero, exact] at this
      rcast this
    · simpa using (ha.radius.const_mul |(q : ℝ)|).const_mul 2
  · have : (fun n => ((F.mul ARF_PREC_EXACT (a n) (exact q)).mid : ℝ)) = fun n => ((a n).mid : ℝ) * q := by
      funext n; rw [hF.mul_exact_mid]; push_cast; rfl
    rw [this]
    exact ha.mid.mul_const _

namespace RN
variable (atoms : Atoms)

/-- The balls of a real number shrink to it. -/
theorem arb_tends {x : RN} (hx : x.WF) : Tends (fun n => x.arb atoms n) (x.real atoms) := by
  by_cases h0 : x.real atoms = 0
  · have := real_eq_zero atoms hx h0
    subst this
    rw [h0]
    refine Tends.mk' (f := fun n : ℕ => 2 ^ (-2 - (n : ℤ))) (g := fun n => 0) (Eventually.of_forall fun n => ?_)
      (Eventually.of_forall fun n => ?_) (zpow_neg_tendsto _) (Eventually.of_forall fun n => ?_) tendsto_const_nhds
    · rw [arb_eq]; exact ⟨_, rfl, (two_zpow_pos _).le⟩
    · rw [arb_eq, arf_nat, arf_rat_zero]
      simp only [radius, Option.getD_some, logb, if_true]
      push_cast
      apply zmonoR; omega
    · rw [arb_eq, arf_nat, arf_rat_zero]; simp
  · have hb : ∀ᶠ n : ℕ in atTop, x.arf atoms n ≠ 0 ∧ |(x.arf atoms n : ℝ)| ≤ 2 * |x.real atoms| ∧
        |(x.arf atoms n : ℝ) - x.real atoms| ≤ 5 * (2 ^ (-1 - (n : ℤ)) * (2 * |x.real atoms|)) := by
      filter_upwards [eventually_ge_atTop 4] with n hn
      obtain ⟨h1, h2⟩ := arf_error atoms hx h0 n (by omega)
      rw [arf_nat]
      refine ⟨h1, ?_⟩
      have h3 : (2 : ℝ) ^ (Int.log 2 |x.arf_ atoms n| - ((n : ℤ) + 1)) ≤ 2 ^ (-1 - (n : ℤ)) * |(x.arf_ atoms n : ℝ)| := by
        have := mul_le_mul_of_nonneg_left (zpow_le_abs h1) (two_zpow_pos (-1 - (n : ℤ))).le
        rw [← zadd] at this
        have h' : (2 : ℚ) ^ (Int.log 2 |x.arf_ atoms n| - ((n : ℤ) + 1)) ≤ 2 ^ (-1 - (n : ℤ)) * |x.arf_ atoms n| := by
          refine le_trans (le_of_eq ?_) this
          congr 1; ring
        rcast h'
      have h4 : (2 : ℝ) ^ (-1 - (n : ℤ)) ≤ 1 / 32 := by
        have := zmonoR (show -1 - (n : ℤ) ≤ -5 by omega)
        norm_num at this ⊢; exact this
      have h5 := abs_sub_abs_le_abs_sub (x.arf_ atoms n : ℝ) (x.real atoms)
      rw [abs_sub_comm] at h5
      have hn0 := abs_nonneg (x.arf_ atoms n : ℝ)
      have h6 := mul_le_mul_of_nonneg_right h4 hn0
      have h7 : |(x.arf_ atoms n : ℝ)| ≤ 2 * |x.real atoms| := by linarith [abs_nonneg (x.real atoms)]
      refine ⟨h7, ?_⟩
      rw [abs_sub_comm]
      have := mul_le_mul_of_nonneg_left h7 (zposR (-1 - (n : ℤ))).le
      linarith
    refine Tends.mk' (f := fun n : ℕ => 2 ^ (-1 - (n : ℤ)) * (2 * |x.real atoms|)) (g := fun n : ℕ => 5 * (2 ^ (-1 - (n : ℤ)) * (2 * |x.real atoms|)))
      (Eventually.of_forall fun n => ?_) ?_ ?_ ?_ ?_
    · rw [arb_eq]; exact ⟨_, rfl, (two_zpow_pos _).le⟩
    · filter_upwards [hb] with n hn
      have h1 := arb_radius atoms x n hn.1
      have h1' : ((x.arb atoms n).radius : ℝ) ≤ 2 ^ (-((n : ℤ) + 1)) * |(x.arf atoms n : ℝ)| := by rcast h1
      rw [show -((n : ℤ) + 1) = -1 - (n : ℤ) by ring] at h1'
      exact h1'.trans (mul_le_mul_of_nonneg_left hn.2.1 (zposR _).le)
    · simpa using (zpow_neg_tendsto (-1)).mul_const (2 * |x.real atoms|)
    · filter_upwards [hb] with n hn
      rw [arb_eq]; exact hn.2.2
    · simpa using ((zpow_neg_tendsto (-1)).mul_const (2 * |x.real atoms|)).const_mul 5

end RN

/-- Balls that shrink to a non-zero number eventually reach every accuracy. -/
theorem Ball.Tends.accuracy {b : ℕ → Ball} {x : ℝ} (h : Tends b x) (hx : x ≠ 0) (p : ℤ) :
    ∀ᶠ n in atTop, (b n).hasAccuracy p = true := by
  have hpos := abs_pos.2 hx
  have h2 := zposR (-p - 2)
  filter_upwards [h.finite, h.ne_zero hx, h.mid.abs.eventually (lt_mem_nhds (show |x| / 2 < |x| by linarith)),
    h.radius.eventually (gt_mem_nhds (show (0 : ℝ) < 2 ^ (-p - 2) * (|x| / 2) by positivity))] with n hf hz h3 h4
  obtain ⟨r, hr, hr0⟩ := hf
  refine le_accuracy hr hr0 hz.2.2 ?_
  rw [radius_eq hr] at h4
  have : (r : ℝ) ≤ 2 ^ (-p - 2) * |((b n).mid : ℝ)| :=
    h4.le.trans (mul_le_mul_of_nonneg_left h3.le h2.le)
  rw [← Rat.cast_le (K := ℝ)]; push_cast; exact this

/-- Balls that shrink to different numbers are eventually separated. -/
theorem Ball.Tends.lt {a b : ℕ → Ball} {x y : ℝ} (ha : Tends a x) (hb : Tends b y) (h : x < y) :
    ∀ᶠ n in atTop, (a n).allLt (b n) = true := by
  have h1 := (ha.mid.add ha.radius)
  have h2 := (hb.mid.sub hb.radius)
  rw [add_zero] at h1
  rw [sub_zero] at h2
  have hm : x < (x + y) / 2 := by linarith
  have hm' : (x + y) / 2 < y := by linarith
  filter_upwards [ha.finite, hb.finite, h1.eventually (gt_mem_nhds hm), h2.eventually (lt_mem_nhds hm')] with n fa fb e1 e2
  obtain ⟨r, hr, -⟩ := fa
  obtain ⟨s, hs, -⟩ := fb
  rw [radius_eq hr] at e1
  rw [radius_eq hs] at e2
  simp only [allLt, hr, hs, decide_eq_true_eq]
  have : ((a n).mid : ℝ) + r < (b n).mid - s := by linarith
  exact_mod_cast this

end ExactReal
