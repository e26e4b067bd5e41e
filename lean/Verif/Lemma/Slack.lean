import Verif.Lemma.Search
import Verif.Lemma.Tends

/-! # Comparisons with balls that miss their number by a bounded amount -/

namespace ExactReal

open Arf Ball

/-- `x` is at most `s` outside of the ball. -/
def Ball.Slack (s : ℝ) (b : Ball) (x : ℝ) : Prop := ∃ r : ℚ, b.rad = some r ∧ 0 ≤ r ∧ |x - b.mid| ≤ r + s

theorem Ball.Near.slack {c : ℝ} {b : Ball} {x : ℝ} (h : Near c b x) : Slack ((c - 1) * b.radius) b x := by
  obtain ⟨r, h1, h2, h3⟩ := h
  refine ⟨r, h1, h2, ?_⟩
  rw [radius_eq h1]; linarith

theorem Ball.Slack.mono {s t : ℝ} {b : Ball} {x : ℝ} (h : Slack s b x) (hst : s ≤ t) : Slack t b x := by
  obtain ⟨r, h1, h2, h3⟩ := h
  exact ⟨r, h1, h2, by linarith⟩

theorem Ball.Slack.contains {b : Ball} {x : ℝ} (h : Slack 0 b x) : b.Contains x := by
  obtain ⟨r, h1, h2, h3⟩ := h
  rw [contains_iff h1]; linarith

theorem Ball.slack_exact (q : ℚ) : Slack 0 (exact q) q := ⟨0, rfl, le_rfl, by simp [exact]⟩

/-- A definite answer is right up to the slack. -/
theorem Ball.lt_slack {a b : Ball} {x y s t : ℝ} (ha : Slack s a x) (hb : Slack t b y) {r : Bool} (h : a.lt b = some r) :
    (r = true → x < y + (s + t)) ∧ (r = false → y ≤ x + (s + t)) := by
  obtain ⟨ra, a1, a2, a3⟩ := ha
  obtain ⟨rb, b1, b2, b3⟩ := hb
  rw [abs_le] at a3 b3
  unfold Ball.lt at h
  split_ifs at h with h1 h2
  · cases h
    refine ⟨fun _ => ?_, fun h => by simp at h⟩
    rw [allLt, a1, b1] at h1
    simp only [decide_eq_true_eq] at h1
    have : (a.mid : ℝ) + ra < b.mid - rb := by exact_mod_cast h1
    linarith
  · cases h
    refine ⟨fun h => by simp at h, fun _ => ?_⟩
    rw [allLe, a1, b1] at h2
    simp only [decide_eq_true_eq] at h2
    have : (b.mid : ℝ) + rb ≤ a.mid - ra := by exact_mod_cast h2
    linarith

theorem Ball.lt_of_gap {a b : Ball} {x y s t : ℝ} (ha : Slack s a x) (hb : Slack t b y) {r : Bool} (h : a.lt b = some r)
    (hg : s + t < |x - y|) : r = true ↔ x < y := by
  obtain ⟨h1, h2⟩ := lt_slack ha hb h
  rcases abs_cases (x - y) with ⟨e, h0⟩ | ⟨e, h0⟩ <;> rw [e] at hg
  · constructor
    · intro hr; have := h1 hr; linarith
    · intro hlt; linarith
  · constructor
    · intro _; linarith
    · intro _
      cases r with
      | true => rfl
      | false => have := h2 rfl; linarith

theorem Ball.Tends.lt_isSome {a b : ℕ → Ball} {x y : ℝ} (ha : Tends a x) (hb : Tends b y) (h : x ≠ y) :
    ∀ᶠ n in Filter.atTop, ((a n).lt (b n)).isSome := by
  rcases lt_or_gt_of_ne h with h | h
  · filter_upwards [ha.lt hb h] with n hn
    simp [Ball.lt, hn]
  · filter_upwards [hb.lt ha h] with n hn
    have : (b n).allLe (a n) = true := by
      unfold allLt at hn; unfold allLe
      split at hn
      · next r s h1 h2 =>
        simp only [decide_eq_true_eq] at hn ⊢
        exact hn.le
      · cases hn
    unfold Ball.lt
    split_ifs <;> rfl

namespace RN
variable (atoms : Atoms)

/-- How far a number can be outside of its ball. -/
theorem arb_slack {x : RN} (hx : x.WF) {prec : ℕ} (hp : 2 ≤ prec) :
    Slack (11 / 4 * 2 ^ (-(prec : ℤ)) * |x.real atoms|) (x.arb atoms prec) (x.real atoms) ∧
      ((∀ m, x ≠ .prod m) → Slack (5 / 8 * 2 ^ (-(prec : ℤ)) * |x.real atoms|) (x.arb atoms prec) (x.real atoms)) := by
  have h4 := two_pow_neg_le prec hp
  have hp0 := zposR (-(prec : ℤ))
  by_cases h0 : x.real atoms = 0
  · have := real_eq_zero atoms hx h0
    subst this
    have : Slack 0 ((RN.rat 0).arb atoms prec) ((RN.rat 0).real atoms) := by
      rw [arb_eq, arf_nat, arf_rat_zero]
      refine ⟨_, rfl, (two_zpow_pos _).le, ?_⟩
      rw [real_rat]
      simp only [Rat.cast_zero, sub_zero, abs_zero, add_zero]
      push_cast; positivity
    exact ⟨this.mono (by positivity), fun _ => this.mono (by positivity)⟩
  · have hne : x.arf atoms prec ≠ 0 := by rw [arf_nat]; exact (arf_error atoms hx h0 prec hp).1
    have hr := arb_radius atoms x prec hne
    have hr' : ((x.arb atoms prec).radius : ℝ) ≤ 2 ^ (-(prec : ℤ)) / 2 * |(x.arf atoms prec : ℝ)| := by
      have := (Rat.cast_le (K := ℝ)).2 hr
      push_cast at this
      rw [show -((prec : ℤ) + 1) = -(prec : ℤ) + (-1) by ring, zaddR] at this
      refine this.trans (le_of_eq ?_)
      rw [show (2 : ℝ) ^ (-1 : ℤ) = 1 / 2 by norm_num]; ring
    obtain ⟨n1, n2⟩ := arb_near atoms hx hp
    have hpx := abs_nonneg (x.real atoms)
    constructor
    · refine n1.slack.mono ?_
      have hb : |(x.arf atoms prec : ℝ)| ≤ 11 / 8 * |x.real atoms| := by
        by_cases hprod : ∃ m, x = .prod m
        · obtain ⟨m, rfl⟩ := hprod
          have := prod_rel atoms m prec hp (by have := hx.2; omega)
          rw [arf_nat]
          have h3 := abs_sub_abs_le_abs_sub ((arf_ atoms prec (prod m) : ℚ) : ℝ) ((prod m).real atoms)
          nlinarith
        · have hg : GoodApprox (x.real atoms) (x.arf_ atoms prec) prec := by
            cases x with
            | rat q => exact goodApprox_rat atoms (by rintro rfl; simp [real_rat] at h0) prec
            | atom i => exact (atoms i).goodApprox prec
            | prod m => exact absurd ⟨m, rfl⟩ hprod
          have := hg.rel
          rw [arf_nat]
          have h3 := abs_sub_abs_le_abs_sub ((x.arf_ atoms prec : ℚ) : ℝ) (x.real atoms)
          nlinarith
      nlinarith
    · intro hnp
      refine (n2 hnp).slack.mono ?_
      have hb : |(x.arf atoms prec : ℝ)| ≤ 5 / 4 * |x.real atoms| := by
        have hg : GoodApprox (x.real atoms) (x.arf_ atoms prec) prec := by
          cases x with
          | rat q => exact goodApprox_rat atoms (by rintro rfl; simp [real_rat] at h0) prec
          | atom i => exact (atoms i).goodApprox prec
          | prod m => exact absurd rfl (hnp m)
        have := hg.rel
        rw [arf_nat]
        have h3 := abs_sub_abs_le_abs_sub ((x.arf_ atoms prec : ℚ) : ℝ) (x.real atoms)
        nlinarith
      nlinarith

theorem accuracy_arb_lt (x : RN) {prec : ℕ} {p : ℤ} (hp : prec < p) : (x.arb atoms prec).hasAccuracy p = false := by
  by_cases h : x.arf atoms prec = 0
  · rw [arb_eq, h, Ball.hasAccuracy]
    have := (two_zpow_pos (logb 0 - ((prec : ℤ) + 1))).ne'
    simp [this]
  · rw [← Bool.not_eq_true, arb_accuracy atoms h]; omega

theorem refine_eq_arb (x : RN) {b : Ball} {prec : ℕ} (h : b.hasAccuracy prec = false) : x.refine atoms b prec = x.arb atoms prec := by
  rw [arb_eq, refine, if_neg (by rw [h]; simp)]

/-- The loop of `<` recomputes both balls in each iteration. -/
theorem ltLoop_eq_search (x y : RN) : ∀ (fuel prec : ℕ) (self other : Ball), 2 ≤ prec → self.hasAccuracy prec = false → other.hasAccuracy prec = false →
    ltLoop atoms x y fuel prec self other = search (fun p => .ok ((x.arb atoms p).lt (y.arb atoms p))) fuel prec
  | 0, _, _, _, _, _, _ => rfl
  | fuel + 1, prec, self, other, hp, h1, h2 => by
    rw [ltLoop, search, refine_eq_arb atoms x h1, refine_eq_arb atoms y h2]
    split
    · next r hr => rw [hr]
    · next hr =>
      rw [hr]
      exact ltLoop_eq_search x y fuel (prec * 2) _ _ (by omega) (accuracy_arb_lt atoms x (by push_cast; omega))
        (accuracy_arb_lt atoms y (by push_cast; omega))

theorem ltArfLoop_eq_search (x : RN) (other : Ball) : ∀ (fuel prec : ℕ) (self : Ball), 2 ≤ prec → self.hasAccuracy prec = false →
    ltArfLoop atoms x other fuel prec self = search (fun p => .ok ((x.arb atoms p).lt other)) fuel prec
  | 0, _, _, _, _ => rfl
  | fuel + 1, prec, self, hp, h1 => by
    rw [ltArfLoop, search, refine_eq_arb atoms x h1]
    split
    · next r hr => rw [hr]
    · next hr =>
      rw [hr]
      exact ltArfLoop_eq_search x other fuel (prec * 2) _ (by omega) (accuracy_arb_lt atoms x (by push_cast; omega))

theorem cmpQLoop_eq_search (x : RN) (op : Ball → Option Bool) : ∀ fuel prec : ℕ,
    cmpQLoop atoms x op fuel prec = search (fun p => .ok (op (x.arb atoms p))) fuel prec
  | 0, _ => rfl
  | fuel + 1, prec => by
    rw [cmpQLoop, search]
    split
    · next r hr => rw [hr]
    · next hr => rw [hr]; exact cmpQLoop_eq_search x op fuel (prec * 2)

end RN

end ExactReal
