import Verif.Lemma.ElementOrder
import Verif.Props.Ball

/-! # The bounds of balls, and the loops that compare them -/

namespace ExactReal

open Arf Ball Filter Topology

/-- The bounds of a ball of accuracy at least two exist and are close to it. -/
theorem interval_near {b : Ball} {r : ℚ} (hr : b.rad = some r) (h0 : 0 ≤ r) (ha : b.hasAccuracy 2 = true) :
    ∃ lo hi, b.interval = .ok (lo, hi) ∧ b.mid - 17 * r ≤ lo ∧ lo ≤ b.mid - r ∧ b.mid + r ≤ hi ∧ hi ≤ b.mid + 17 * r := by
  by_cases hz : r = 0
  · subst hz
    exact ⟨b.mid, b.mid, by rw [interval, hr]; simp, by simp, by simp, by simp, by simp⟩
  have hpos : 0 < r := lt_of_le_of_ne h0 (Ne.symm hz)
  have ha' := ha
  rw [hasAccuracy, hr] at ha'
  simp only [Bool.or_eq_true, Bool.and_eq_true, decide_eq_true_eq, hz, false_or, ne_eq] at ha'
  obtain ⟨hm, hacc⟩ := ha'
  set a := Int.log 2 |b.mid| - Int.log 2 r - 1 with hadef
  have hi : b.interval = .ok (round .floor a (b.mid - r), round .ceil a (b.mid + r)) := by
    rw [interval, hr]
    simp only [if_neg hz]
    rw [if_neg (by rw [ha]; simp)]
  have e1 : (2 : ℚ) ^ (1 - a) = 4 * (2 ^ Int.log 2 r / 2 ^ Int.log 2 |b.mid|) := by
    rw [hadef, show 1 - (Int.log 2 |b.mid| - Int.log 2 r - 1) = 2 + (Int.log 2 r - Int.log 2 |b.mid|) by ring, zadd,
      zpow_sub₀ (by norm_num : (2 : ℚ) ≠ 0)]
    norm_num
  have e2 : (2 : ℚ) ^ Int.log 2 r ≤ r := by have := zpow_le_abs hz; rwa [abs_of_pos hpos] at this
  have e3 : |b.mid| < 2 * 2 ^ Int.log 2 |b.mid| := by have := abs_lt_zpow b.mid; rw [zadd, zpow_one] at this; linarith
  have hml := zpow_le_abs hm
  have hmid : 0 < |b.mid| := abs_pos.2 hm
  have e4 : r ≤ |b.mid| := by
    have h1 : r < 2 ^ (Int.log 2 r + 1) := by have := abs_lt_zpow r; rwa [abs_of_pos hpos] at this
    have h2 : (2 : ℚ) ^ (Int.log 2 r + 1) ≤ 2 ^ Int.log 2 |b.mid| := zpow_mono (by omega)
    linarith
  have e5 : (2 : ℚ) ^ (1 - a) * |b.mid| ≤ 8 * r := by
    rw [e1]
    have hp := two_zpow_pos (Int.log 2 |b.mid|)
    rw [mul_assoc, div_mul_eq_mul_div, mul_div_assoc]
    have : |b.mid| / 2 ^ Int.log 2 |b.mid| ≤ 2 := by rw [div_le_iff₀ hp]; linarith
    have := mul_le_mul e2 this (by positivity) h0
    linarith
  have key : ∀ (m : Rnd) (y : ℚ), |y| ≤ 2 * |b.mid| → |round m a y - y| ≤ 16 * r := fun m y hy => by
    refine (abs_round_sub_le_rel m a y).trans ?_
    have := mul_le_mul_of_nonneg_right hy (two_zpow_pos (1 - a)).le
    linarith
  have k1 := key .floor (b.mid - r) (by have := abs_sub b.mid r; rw [abs_of_pos hpos] at this; linarith)
  have k2 := key .ceil (b.mid + r) (by have := abs_add_le b.mid r; rw [abs_of_pos hpos] at this; linarith)
  rw [abs_le] at k1 k2
  exact ⟨_, _, hi, by linarith [k1.1], round_floor_le _ _, le_round_ceil _ _, by linarith [k2.2]⟩

/-- The body of the loops of `floor`, `ceil` and the conversion to `double`: do both bounds give the same result? -/
def boundsBody {α : Type} [DecidableEq α] (g : ℚ → α) (self : ℕ → Out Ball) (p : ℕ) : Out (Option α) := do
  let s ← self p
  let i ← s.interval
  .ok (if g i.1 = g i.2 then some (g i.1) else none)

theorem boundsBody_ok {α : Type} [DecidableEq α] {g : ℚ → α} {self : ℕ → Out Ball} {fuel start : ℕ} {n : α}
    (h : search (boundsBody g self) fuel start = .ok n) : ∃ k s lo hi r, self (start * 2 ^ k) = .ok s ∧ s.interval = .ok (lo, hi) ∧ s.rad = some r ∧
      lo ≤ s.mid - r ∧ s.mid + r ≤ hi ∧ g lo = n ∧ g hi = n := by
  obtain ⟨k, hk⟩ := search_ok h
  obtain ⟨s, h1, h2⟩ := Out.bind_eq_ok.1 hk
  obtain ⟨⟨lo, hi⟩, h3, h4⟩ := Out.bind_eq_ok.1 h2
  obtain ⟨r, r1, r2, r3, -⟩ := Props.interval_spec h3
  simp only [Out.ok.injEq] at h4
  split_ifs at h4 with h5
  cases h4
  exact ⟨k, s, lo, hi, r, h1, h3, r1, r2, r3, rfl, h5.symm⟩

/-- The bounds of balls that shrink to `x ≠ 0` tend to `x`. -/
theorem interval_tends {B : ℕ → Ball} {x : ℝ} (hB : Tends B x) (hx : x ≠ 0) {ε : ℝ} (hε : 0 < ε) :
    ∀ᶠ n in atTop, ∃ lo hi, (B n).interval = .ok (lo, hi) ∧ |(lo : ℝ) - x| < ε ∧ |(hi : ℝ) - x| < ε := by
  have h2 := hB.accuracy hx 2
  have h3 := (hB.radius.eventually (gt_mem_nhds (show (0 : ℝ) < ε / 34 by positivity)))
  have h4 := (Metric.tendsto_nhds.1 hB.mid (ε / 2) (by positivity))
  filter_upwards [hB.finite, h2, h3, h4] with n hn hacc hrad hmid
  obtain ⟨r, hr, hr0⟩ := hn
  obtain ⟨lo, hi, h, l1, l2, u1, u2⟩ := interval_near hr hr0 hacc
  rw [radius_eq hr] at hrad
  rw [Real.dist_eq, abs_lt] at hmid
  have l1' := (Rat.cast_le (K := ℝ)).2 l1
  have l2' := (Rat.cast_le (K := ℝ)).2 l2
  have u1' := (Rat.cast_le (K := ℝ)).2 u1
  have u2' := (Rat.cast_le (K := ℝ)).2 u2
  have h0' : (0 : ℝ) ≤ r := by exact_mod_cast hr0
  push_cast at l1' l2' u1' u2'
  exact ⟨lo, hi, h, abs_lt.2 ⟨by linarith [hmid.1], by linarith [hmid.2]⟩, abs_lt.2 ⟨by linarith [hmid.1], by linarith [hmid.2]⟩⟩

namespace Elt
variable {P : Type} [DecidableEq P] {R : Type} [CommRing R] [DecidableEq R] [CRing P R] [LawfulCRing P]
variable (atoms : Atoms) {F : Arith} {coeff : ℕ → R → Ball}

/-- The loops return if the function of the bounds is constant near the value of the element. -/
theorem bounds_terminates {α : Type} [DecidableEq α] {g : ℚ → α} (hF : F.Lawful) (hco : CoeffLawful P coeff) {x : Elt P R} (hx : x.WF)
    (h0 : x.real atoms.vals ≠ 0) {start : ℕ} (hs : 4 ≤ start) {ε : ℝ} (hε : 0 < ε) {c : α} (hg : ∀ q : ℚ, |(q : ℝ) - x.real atoms.vals| < ε → g q = c) :
    ∃ n N, ∀ fuel, N ≤ fuel → search (boundsBody g fun p => x.arb atoms F coeff fuel p) fuel start = .ok n := by
  obtain ⟨B, hB, hBt⟩ := arb_family atoms hF hco hx (.inr h0)
  have hint := interval_tends hBt h0 hε
  -- every ball has bounds
  have hall : ∀ A, 4 ≤ A → ∃ lo hi, (B A).interval = .ok (lo, hi) := by
    intro A hA
    obtain ⟨N, hN⟩ := hB A (by omega)
    obtain ⟨h1, h2⟩ := arb_near_five atoms hF hco (by omega) hx (hN N le_rfl)
    obtain ⟨r, hr, hr0⟩ := h1.finite
    obtain ⟨lo, hi, h, -⟩ := interval_near hr hr0 (hasAccuracy_mono (by omega) h2)
    exact ⟨lo, hi, h⟩
  have hstart : ∀ k, 4 ≤ start * 2 ^ k := fun k => hs.trans (Nat.le_mul_of_pos_right _ (by positivity))
  choose lo hi hlh using fun k => hall (start * 2 ^ k) (hstart k)
  refine search_terminates (g := fun k => if g (lo k) = g (hi k) then some (g (lo k)) else none) (fun k => ?_) ?_
  · obtain ⟨N, hN⟩ := hB (start * 2 ^ k) (by have := hstart k; omega)
    refine ⟨N, fun fuel hf => ?_⟩
    rw [boundsBody, hN fuel hf, Out.ok_bind, hlh k, Out.ok_bind]
  · obtain ⟨k, lo', hi', h1, h2, h3⟩ := ((tendsto_prec (show 0 < start by omega)).eventually hint).exists
    rw [hlh k] at h1
    cases h1
    exact ⟨k, by rw [hg _ h2, hg _ h3, if_pos rfl]; rfl⟩

end Elt

end ExactReal
