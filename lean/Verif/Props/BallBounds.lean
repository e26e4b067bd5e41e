import Verif.Model.BallBounds
import Verif.Lemma.Interval

/-!
# C76: balls and their bounds

The pair of bounds that a ball is converted to enclose the ball, and a ball that is made from a pair of bounds contains everything in between.  The bounds are
not much further apart than necessary.
-/

namespace ExactReal.Props

open Ball Arf

/-- **C76.**  The bounds of a ball enclose all of its points, and are at most 17 radii away from its midpoint, provided that the ball has at least two accurate bits. -/
theorem bounds_enclose_partial {b : Ball} {r : ℚ} (hr : b.rad = some r) (h0 : 0 ≤ r) (ha : b.hasAccuracy 2 = true) :
    ∃ lower upper, b.interval = .ok (lower, upper) ∧ (∀ x : ℝ, b.Contains x → (lower : ℝ) ≤ x ∧ x ≤ upper) ∧
      b.mid - 17 * r ≤ lower ∧ upper ≤ b.mid + 17 * r ∧ (r = 0 → lower = b.mid ∧ upper = b.mid) := by
  obtain ⟨lo, hi, h1, h2, h3, h4, h5⟩ := interval_near hr h0 ha
  refine ⟨lo, hi, h1, fun x hx => ?_, h2, h5, fun hz => ?_⟩
  · rw [contains_iff hr, abs_le] at hx
    have h3 : ((lo : ℚ) : ℝ) ≤ ((b.mid - r : ℚ) : ℝ) := by exact_mod_cast h3
    have h4 : ((b.mid + r : ℚ) : ℝ) ≤ ((hi : ℚ) : ℝ) := by exact_mod_cast h4
    push_cast at h3 h4
    constructor <;> linarith [hx.1, hx.2]
  · subst hz
    constructor <;> linarith

/-- **C76, finding F18.**  The conversion of a ball with less than two accurate bits, such as `[0 ± 1]`, asks FLINT to round to a precision that is
not positive, which is outside of its contract. -/
theorem bounds_undefined {b : Ball} (ha : b.hasAccuracy 2 = false) : b.interval = .ub := by
  unfold interval
  cases hr : b.rad with
  | none => rfl
  | some r =>
    have : r ≠ 0 := by rintro rfl; simp [hasAccuracy, hr] at ha
    simp [this, ha]

example : (⟨0, some 1⟩ : Ball).hasAccuracy 2 = false ∧ (⟨0, some 1⟩ : Ball).Contains 1 := by
  refine ⟨by simp [hasAccuracy], ?_⟩
  rw [contains_iff (r := 1) rfl]; simp

/-- **C76.**  A ball that is made from two bounds contains all numbers between them, whatever the precision. -/
theorem ofBounds_contains {lower upper : ℚ} (h : lower ≤ upper) (prec : ℕ) :
    ∃ b, Ball.ofBounds lower upper prec = .ok b ∧ ∀ x : ℝ, (lower : ℝ) ≤ x → x ≤ upper → b.Contains x := by
  refine ⟨_, if_neg (not_lt.2 h), fun x h1 h2 => ?_⟩
  have hu : upper - lower ≤ round .up 30 (upper - lower) := by
    have := abs_round_up 30 (upper - lower)
    rw [abs_of_nonneg (sub_nonneg.2 h)] at this
    by_contra hlt
    have hneg : round .up 30 (upper - lower) < 0 := by
      by_contra h0
      rw [abs_of_nonneg (not_lt.1 h0)] at this
      exact hlt this
    have h0 : (0 : ℚ) ≤ round .up 30 (upper - lower) := le_round .up (p := 30) (by norm_num) (z := 0) ⟨0, 0, by simp, by simp⟩ (sub_nonneg.2 h)
    exact absurd h0 (not_le.2 hneg)
  set s := lower + upper with hs
  set m := round .down prec s with hm
  have he : |m - s| ≤ if m = s then 0 else ulp prec s := by
    split_ifs with hms
    · rw [hms]; simp
    · have hs0 : s ≠ 0 := by rintro h0; apply hms; rw [hm, h0, round_zero]
      exact (abs_round_sub_lt .down prec hs0).le
  rw [contains_iff rfl]
  set E := (if m = s then 0 else ulp prec s) with hE
  set U := round .up 30 (upper - lower) with hU
  have he' : |(m : ℝ) - s| ≤ (E : ℝ) := by exact_mod_cast he
  have hu' : (upper : ℝ) - lower ≤ (U : ℝ) := by exact_mod_cast hu
  have hs' : (s : ℝ) = lower + upper := by rw [hs]; push_cast; ring
  rw [abs_le] at he' ⊢
  push_cast
  constructor <;> linarith [he'.1, he'.2]

/-- **C76.**  If nothing needs to be rounded then the ball has exactly the given bounds. -/
theorem ofBounds_tight {lower upper : ℚ} (h : lower ≤ upper) {prec : ℕ} (hp : 1 ≤ prec) (hs : Rep prec (lower + upper)) (hd : Rep 30 (upper - lower)) :
    Ball.ofBounds lower upper prec = .ok ⟨(lower + upper) / 2, some ((upper - lower) / 2)⟩ := by
  unfold ofBounds
  rw [if_neg (not_lt.2 h)]
  simp only
  rw [round_eq_self .down hp hs, show round .up (30 : ℤ) (upper - lower) = upper - lower from round_eq_self .up (p := 30) (by norm_num) hd]
  simp

/-- **C76.**  A ball is contained in the ball that is made from its bounds. -/
theorem bounds_round_trip_partial {b : Ball} {r : ℚ} (hr : b.rad = some r) (h0 : 0 ≤ r) (ha : b.hasAccuracy 2 = true) (prec : ℕ) :
    ∃ lower upper b', b.interval = .ok (lower, upper) ∧ Ball.ofBounds lower upper prec = .ok b' ∧ ∀ x : ℝ, b.Contains x → b'.Contains x := by
  obtain ⟨lo, hi, h1, h2, h3, h4, h5⟩ := interval_near hr h0 ha
  obtain ⟨lo', hi', h1', h6, -⟩ := bounds_enclose_partial hr h0 ha
  rw [h1] at h1'; cases h1'
  obtain ⟨b', hb, hc⟩ := ofBounds_contains (show lo ≤ hi by linarith) prec
  exact ⟨lo, hi, b', h1, hb, fun x hx => hc x (h6 x hx).1 (h6 x hx).2⟩

/-- A ball around 100 of radius 1 has bounds of five bits, the ball made from 1 and 2 has bounds 1 and 2. -/
example : (⟨100, some 1⟩ : Ball).interval = .ok (96, 104) ∧ Ball.ofBounds 1 2 53 = .ok ⟨3 / 2, some (1 / 2)⟩ := by
  refine ⟨by decide +kernel, ?_⟩
  rw [ofBounds_tight (by norm_num) (by norm_num) ⟨3, 0, by norm_num, by norm_num⟩ ⟨1, 0, by norm_num, by norm_num⟩]
  norm_num

end ExactReal.Props
