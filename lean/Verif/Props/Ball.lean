import Verif.Lemma.Coeff
import Verif.Lemma.FlintLike
import Verif.Lemma.Dyadic
import Verif.Props.Approx

/-!
# C28, C29: comparisons of balls
# C25: the balls of real numbers
# C27: `cmp`
-/

namespace ExactReal.Props

open Arf Ball

/-! ### C28 -/

/-- The radius of a ball is not negative. -/
def Valid (b : Ball) : Prop := ∀ r, b.rad = some r → 0 ≤ r

/-- `rel` holds for all points of two balls. -/
def All (rel : ℝ → ℝ → Prop) (a b : Ball) : Prop := ∀ x y, a.Contains x → b.Contains y → rel x y

theorem exists_point {b : Ball} (h : Valid b) : b.Contains b.mid := by
  rw [Contains]
  cases hr : b.rad with
  | none => trivial
  | some r => simpa using h r hr

theorem upper_point {b : Ball} {r : ℚ} (h : Valid b) (hr : b.rad = some r) : b.Contains (b.mid + r) := by
  rw [contains_iff hr, add_sub_cancel_left, abs_of_nonneg (by exact_mod_cast h r hr)]

theorem lower_point {b : Ball} {r : ℚ} (h : Valid b) (hr : b.rad = some r) : b.Contains (b.mid - r) := by
  rw [contains_iff hr, sub_sub_cancel_left, abs_neg, abs_of_nonneg (by exact_mod_cast h r hr)]

theorem allLt_iff {a b : Ball} (ha : Valid a) (hb : Valid b) : a.allLt b = true ↔ All (· < ·) a b := by
  unfold allLt
  cases hr : a.rad with
  | none =>
    refine ⟨fun h => by simp at h, fun h => ?_⟩
    have := h (b.mid + 1) b.mid (by rw [Contains, hr]; trivial) (exists_point hb)
    norm_num at this
  | some r =>
    cases hs : b.rad with
    | none =>
      refine ⟨fun h => by simp at h, fun h => ?_⟩
      have this : (a.mid : ℝ) < a.mid - 1 := h a.mid (a.mid - 1) (exists_point ha) (by rw [Contains, hs]; trivial)
      linarith
    | some s =>
      simp only [decide_eq_true_eq]
      constructor
      · intro h x y hx hy
        rw [contains_iff hr, abs_le] at hx
        rw [contains_iff hs, abs_le] at hy
        have : (a.mid : ℝ) + r < b.mid - s := by exact_mod_cast h
        show x < y
        linarith
      · intro h
        have this : (a.mid : ℝ) + r < b.mid - s := h _ _ (upper_point ha hr) (lower_point hb hs)
        exact_mod_cast this

theorem allLe_iff {a b : Ball} (ha : Valid a) (hb : Valid b) : a.allLe b = true ↔ All (· ≤ ·) a b := by
  unfold allLe
  cases hr : a.rad with
  | none =>
    refine ⟨fun h => by simp at h, fun h => ?_⟩
    have := h (b.mid + 1) b.mid (by rw [Contains, hr]; trivial) (exists_point hb)
    norm_num at this
  | some r =>
    cases hs : b.rad with
    | none =>
      refine ⟨fun h => by simp at h, fun h => ?_⟩
      have := h a.mid (a.mid - 1) (exists_point ha) (by rw [Contains, hs]; trivial)
      norm_num at this
    | some s =>
      simp only [decide_eq_true_eq]
      constructor
      · intro h x y hx hy
        rw [contains_iff hr, abs_le] at hx
        rw [contains_iff hs, abs_le] at hy
        have : (a.mid : ℝ) + r ≤ b.mid - s := by exact_mod_cast h
        show x ≤ y
        linarith
      · intro h
        have this : (a.mid : ℝ) + r ≤ b.mid - s := h _ _ (upper_point ha hr) (lower_point hb hs)
        exact_mod_cast this

/-- **C28** for `<`: the answer is `true` (`false`) exactly if the relation holds (fails) for all pairs of points. -/
theorem ball_lt {a b : Ball} (ha : Valid a) (hb : Valid b) :
    (a.lt b = some true ↔ All (· < ·) a b) ∧ (a.lt b = some false ↔ All (fun x y => ¬ x < y) a b) := by
  have e1 := allLt_iff ha hb
  have e2 : b.allLe a = true ↔ All (fun x y => ¬ x < y) a b := by
    rw [allLe_iff hb ha]
    exact ⟨fun h x y hx hy => not_lt.2 (h y x hy hx), fun h x y hx hy => not_lt.1 (h y x hy hx)⟩
  have excl : ¬ (All (· < ·) a b ∧ All (fun x y => ¬ x < y) a b) := fun ⟨h1, h2⟩ =>
    h2 _ _ (exists_point ha) (exists_point hb) (h1 _ _ (exists_point ha) (exists_point hb))
  rw [← e1, ← e2] at *
  unfold Ball.lt
  by_cases h1 : a.allLt b = true <;> by_cases h2 : b.allLe a = true <;> simp_all

/-- **C28** for `>`. -/
theorem ball_gt {a b : Ball} (ha : Valid a) (hb : Valid b) :
    (a.gt b = some true ↔ All (· > ·) a b) ∧ (a.gt b = some false ↔ All (fun x y => ¬ x > y) a b) := by
  have h : a.gt b = b.lt a := rfl
  obtain ⟨h1, h2⟩ := ball_lt hb ha
  rw [h, h1, h2]
  exact ⟨⟨fun h x y hx hy => h y x hy hx, fun h x y hx hy => h y x hy hx⟩,
    ⟨fun h x y hx hy => h y x hy hx, fun h x y hx hy => h y x hy hx⟩⟩

/-- **C28** for `<=`. -/
theorem ball_le {a b : Ball} (ha : Valid a) (hb : Valid b) :
    (a.le b = some true ↔ All (· ≤ ·) a b) ∧ (a.le b = some false ↔ All (fun x y => ¬ x ≤ y) a b) := by
  obtain ⟨h1, h2⟩ := ball_gt ha hb
  have e1 : All (· ≤ ·) a b ↔ All (fun x y => ¬ x > y) a b := by simp only [All, gt_iff_lt, not_lt]
  have e2 : All (fun x y => ¬ x ≤ y) a b ↔ All (· > ·) a b := by simp only [All, gt_iff_lt, not_le]
  rw [e1, e2, ← h1, ← h2]
  unfold Ball.le
  cases a.gt b with
  | none => simp
  | some r => cases r <;> simp

/-- **C28** for `>=`. -/
theorem ball_ge {a b : Ball} (ha : Valid a) (hb : Valid b) :
    (a.ge b = some true ↔ All (· ≥ ·) a b) ∧ (a.ge b = some false ↔ All (fun x y => ¬ x ≥ y) a b) := by
  obtain ⟨h1, h2⟩ := ball_lt ha hb
  have e1 : All (· ≥ ·) a b ↔ All (fun x y => ¬ x < y) a b := by simp only [All, ge_iff_le, not_lt]
  have e2 : All (fun x y => ¬ x ≥ y) a b ↔ All (· < ·) a b := by simp only [All, ge_iff_le, not_le]
  rw [e1, e2, ← h1, ← h2]
  unfold Ball.ge
  cases a.lt b with
  | none => simp
  | some r => cases r <;> simp

theorem allEq_iff {a b : Ball} (ha : Valid a) (hb : Valid b) : a.allEq b = true ↔ All (· = ·) a b := by
  simp only [allEq, Bool.and_eq_true, decide_eq_true_eq]
  constructor
  · rintro ⟨⟨h1, h2⟩, h3⟩ x y hx hy
    rw [contains_iff h1] at hx
    rw [contains_iff h2] at hy
    simp only [Rat.cast_zero, abs_nonpos_iff, sub_eq_zero] at hx hy
    show x = y
    rw [hx, hy, h3]
  · intro h
    have hm : (a.mid : ℝ) = b.mid := h _ _ (exists_point ha) (exists_point hb)
    refine ⟨⟨?_, ?_⟩, by exact_mod_cast hm⟩
    · cases hr : a.rad with
      | none =>
        have := h (b.mid + 1) b.mid (by rw [Contains, hr]; trivial) (exists_point hb)
        norm_num at this
      | some r =>
        have := h _ _ (upper_point ha hr) (exists_point hb)
        have : (r : ℝ) = 0 := by linarith
        rw [show r = 0 by exact_mod_cast this]
    · cases hs : b.rad with
      | none =>
        have := h a.mid (a.mid + 1) (exists_point ha) (by rw [Contains, hs]; trivial)
        norm_num at this
      | some s =>
        have := h _ _ (exists_point ha) (upper_point hb hs)
        have : (s : ℝ) = 0 := by linarith
        rw [show s = 0 by exact_mod_cast this]

theorem allNe_iff {a b : Ball} (ha : Valid a) (hb : Valid b) : a.allNe b = true ↔ All (· ≠ ·) a b := by
  simp only [allNe, Bool.or_eq_true, allLt_iff ha hb, allLt_iff hb ha]
  constructor
  · rintro (h | h) x y hx hy
    · exact (h x y hx hy).ne
    · exact (h y x hy hx).ne'
  · intro h
    cases hr : a.rad with
    | none => exact absurd rfl (h b.mid b.mid (by rw [Contains, hr]; trivial) (exists_point hb))
    | some r =>
      cases hs : b.rad with
      | none => exact absurd rfl (h a.mid a.mid (exists_point ha) (by rw [Contains, hs]; trivial))
      | some s =>
        have hr0 : (0 : ℝ) ≤ r := by exact_mod_cast ha r hr
        have hs0 : (0 : ℝ) ≤ s := by exact_mod_cast hb s hs
        -- the balls do not overlap
        by_contra hno
        push Not at hno
        obtain ⟨hn1, hn2⟩ := hno
        have l1 : (b.mid : ℝ) - s ≤ a.mid + r := by
          by_contra hlt
          push Not at hlt
          refine hn1 fun x y hx hy => ?_
          rw [contains_iff hr, abs_le] at hx
          rw [contains_iff hs, abs_le] at hy
          show x < y
          linarith
        have l2 : (a.mid : ℝ) - r ≤ b.mid + s := by
          by_contra hlt
          push Not at hlt
          refine hn2 fun x y hx hy => ?_
          rw [contains_iff hs, abs_le] at hx
          rw [contains_iff hr, abs_le] at hy
          show x < y
          linarith
        refine h (max ((a.mid : ℝ) - r) (b.mid - s)) _ ?_ ?_ rfl
        · rw [contains_iff hr, abs_le]
          constructor
          · linarith [le_max_left ((a.mid : ℝ) - r) (b.mid - s)]
          · have : max ((a.mid : ℝ) - r) (b.mid - s) ≤ a.mid + r := max_le (by linarith) l1
            linarith
        · rw [contains_iff hs, abs_le]
          constructor
          · linarith [le_max_right ((a.mid : ℝ) - r) (b.mid - s)]
          · have : max ((a.mid : ℝ) - r) (b.mid - s) ≤ b.mid + s := max_le l2 (by linarith)
            linarith

/-- **C28** for `==`. -/
theorem ball_eq {a b : Ball} (ha : Valid a) (hb : Valid b) :
    (a.eq b = some true ↔ All (· = ·) a b) ∧ (a.eq b = some false ↔ All (fun x y => ¬ x = y) a b) := by
  have e1 := allEq_iff ha hb
  have e2 : a.allNe b = true ↔ All (fun x y => ¬ x = y) a b := allNe_iff ha hb
  have excl : ¬ (All (· = ·) a b ∧ All (fun x y => ¬ x = y) a b) := fun ⟨h1, h2⟩ =>
    h2 _ _ (exists_point ha) (exists_point hb) (h1 _ _ (exists_point ha) (exists_point hb))
  rw [← e1, ← e2] at *
  unfold Ball.eq
  by_cases h1 : a.allEq b = true <;> by_cases h2 : a.allNe b = true <;> simp_all

/-- **C28**: `==` and `!=` are negations of each other, and both are undetermined at the same time. -/
theorem ball_ne_eq (a b : Ball) : a.ne b = (a.eq b).map (! ·) ∧ a.eq b = (a.ne b).map (! ·) := by
  unfold Ball.ne
  cases a.eq b with
  | none => exact ⟨rfl, rfl⟩
  | some r => cases r <;> exact ⟨rfl, rfl⟩

/-- **C28** for `!=`. -/
theorem ball_ne {a b : Ball} (ha : Valid a) (hb : Valid b) :
    (a.ne b = some true ↔ All (· ≠ ·) a b) ∧ (a.ne b = some false ↔ All (fun x y => ¬ x ≠ y) a b) := by
  obtain ⟨h1, h2⟩ := ball_eq ha hb
  have e1 : All (fun x y => ¬ x ≠ y) a b ↔ All (· = ·) a b := by simp only [All, not_not, ne_eq]
  have e2 : All (· ≠ ·) a b ↔ All (fun x y => ¬ x = y) a b := Iff.rfl
  rw [e1, e2, ← h1, ← h2]
  unfold Ball.ne
  cases a.eq b with
  | none => simp
  | some r => cases r <;> simp

/-- Two balls that overlap in a point, two that are apart: all answers occur. -/
example : (exact 1).lt (exact 2) = some true ∧ (⟨1, some 1⟩ : Ball).lt ⟨2, some 1⟩ = none ∧ (⟨2, some 1⟩ : Ball).lt ⟨0, some 1⟩ = some false ∧
    (⟨2, some 1⟩ : Ball).ne ⟨0, some 1⟩ = none ∧ (⟨2, some 1⟩ : Ball).ne ⟨0, some (1 / 2)⟩ = some true ∧
    (⟨1, some 1⟩ : Ball).le zeroPmInf = none := by
  decide +kernel

/-! ### C29 -/

theorem ball_lt_sound {a b : Ball} {r : Bool} (h : a.lt b = some r) {x y : ℝ} (hx : a.Contains x) (hy : b.Contains y) : r = true ↔ x < y := by
  unfold Ball.lt at h
  split_ifs at h with h1 h2
  · cases h
    unfold allLt at h1
    cases hr : a.rad with
    | none => rw [hr] at h1; cases h1
    | some r =>
      cases hs : b.rad with
      | none => rw [hr, hs] at h1; cases h1
      | some s =>
        rw [hr, hs] at h1
        simp only [decide_eq_true_eq] at h1
        rw [contains_iff hr, abs_le] at hx
        rw [contains_iff hs, abs_le] at hy
        have : (a.mid : ℝ) + r < b.mid - s := by exact_mod_cast h1
        simp only [true_iff]; linarith
  · cases h
    unfold allLe at h2
    cases hr : b.rad with
    | none => rw [hr] at h2; cases h2
    | some r =>
      cases hs : a.rad with
      | none => rw [hr, hs] at h2; cases h2
      | some s =>
        rw [hr, hs] at h2
        simp only [decide_eq_true_eq] at h2
        rw [contains_iff hs, abs_le] at hx
        rw [contains_iff hr, abs_le] at hy
        have : (b.mid : ℝ) + r ≤ a.mid - s := by exact_mod_cast h2
        simp only [Bool.false_eq_true, false_iff, not_lt]; linarith

theorem ball_gt_sound {a b : Ball} {r : Bool} (h : a.gt b = some r) {x y : ℝ} (hx : a.Contains x) (hy : b.Contains y) : r = true ↔ x > y :=
  ball_lt_sound (a := b) (b := a) h hy hx

theorem ball_le_sound {a b : Ball} {r : Bool} (h : a.le b = some r) {x y : ℝ} (hx : a.Contains x) (hy : b.Contains y) : r = true ↔ x ≤ y := by
  unfold Ball.le at h
  split at h
  · next s hs => cases h; have := ball_gt_sound hs hx hy; rw [← not_lt, ← gt_iff_lt, ← this]; cases s <;> simp
  · cases h

theorem ball_ge_sound {a b : Ball} {r : Bool} (h : a.ge b = some r) {x y : ℝ} (hx : a.Contains x) (hy : b.Contains y) : r = true ↔ x ≥ y := by
  unfold Ball.ge at h
  split at h
  · next s hs => cases h; have := ball_lt_sound hs hx hy; rw [ge_iff_le, ← not_lt, ← this]; cases s <;> simp
  · cases h

theorem ball_eq_sound {a b : Ball} {r : Bool} (h : a.eq b = some r) {x y : ℝ} (hx : a.Contains x) (hy : b.Contains y) : r = true ↔ x = y := by
  unfold Ball.eq at h
  split_ifs at h with h1 h2
  · cases h
    simp only [allEq, Bool.and_eq_true, decide_eq_true_eq] at h1
    obtain ⟨⟨h1, h2⟩, h3⟩ := h1
    rw [contains_iff h1] at hx
    rw [contains_iff h2] at hy
    simp only [Rat.cast_zero, abs_nonpos_iff, sub_eq_zero] at hx hy
    simp [hx, hy, h3]
  · cases h
    simp only [allNe, Bool.or_eq_true] at h2
    simp only [Bool.false_eq_true, false_iff]
    rcases h2 with h2 | h2
    · have := (ball_lt_sound (a := a) (b := b) (r := true) (by simp [Ball.lt, h2]) hx hy).1 rfl
      exact this.ne
    · have := (ball_lt_sound (a := b) (b := a) (r := true) (by simp [Ball.lt, h2]) hy hx).1 rfl
      exact this.ne'

theorem scaled_contains {F : Arith} (hF : F.Lawful) {a : Ball} {x : ℝ} (hx : a.Contains x) (q : ℚ) :
    (a.scaled F q).Contains (x * q.den) :=
  hF.mul_contains _ _ _ _ _ hx ((contains_exact _ _).2 (by simp))

theorem num_contains (q : ℚ) : (exact q.num).Contains ((q : ℝ) * q.den) := by
  rw [contains_exact]
  have : (q : ℚ) * q.den = q.num := Rat.mul_den_eq_num q
  exact_mod_cast this

theorem den_pos' (q : ℚ) : (0 : ℝ) < q.den := by exact_mod_cast q.den_pos

/-- **C29** for `<`, `>`, `<=`, `>=`, `==` between a ball and a rational: a definite answer is right for every point of the ball. -/
theorem ball_rational_partial {F : Arith} (hF : F.Lawful) (a : Ball) (q : ℚ) (r : Bool) (x : ℝ) (hx : a.Contains x) :
    (a.ltQ F q = some r → (r = true ↔ x < q)) ∧ (a.gtQ F q = some r → (r = true ↔ x > q)) ∧
    (a.leQ F q = some r → (r = true ↔ x ≤ q)) ∧ (a.geQ F q = some r → (r = true ↔ x ≥ q)) ∧
    (a.eqQ F q = some r → (r = true ↔ x = q)) := by
  have h1 := scaled_contains hF hx q
  have h2 := num_contains q
  have hd := den_pos' q
  refine ⟨fun h => ?_, fun h => ?_, fun h => ?_, fun h => ?_, fun h => ?_⟩
  · rw [ball_lt_sound h h1 h2, mul_lt_mul_iff_left₀ hd]
  · rw [ball_gt_sound h h1 h2, gt_iff_lt, mul_lt_mul_iff_left₀ hd]
  · rw [ball_le_sound h h1 h2, mul_le_mul_iff_left₀ hd]
  · rw [ball_ge_sound h h1 h2, ge_iff_le, mul_le_mul_iff_left₀ hd]
  · rw [ball_eq_sound h h1 h2, mul_left_inj' hd.ne']

/-- **C29 is false for `!=`**: it answers as `==` does, so every definite answer is wrong for every point of the ball. -/
theorem ball_rational_ne_wrong {F : Arith} (hF : F.Lawful) (a : Ball) (q : ℚ) (r : Bool) (x : ℝ) (hx : a.Contains x) :
    a.neQ F q = a.eqQ F q ∧ (a.neQ F q = some r → (r = true ↔ ¬ x ≠ q)) := by
  refine ⟨rfl, fun h => ?_⟩
  rw [not_not]
  exact (ball_rational_partial hF a q r x hx).2.2.2.2 h

/-- **C29 is false for `!=`**: with any lawful arithmetic there is a ball with a definite (and wrong) answer:
`Arb(1) != 1/2` is false. -/
theorem ball_rational_ne_fails {F : Arith} (hF : F.Lawful) : (exact 1).neQ F (1 / 2) = some false := by
  have hm := hF.mul_exact_mid (exact 1) (exact (2 : ℚ))
  have hr := hF.mul_exact_radius (exact 1) (exact 2) (finite_exact 1) (finite_exact 2)
  obtain ⟨r, h1, h2⟩ := hF.mul_finite ARF_PREC_EXACT (exact 1) (exact (2 : ℚ)) (finite_exact 1) (finite_exact 2)
  rw [radius_eq h1] at hr
  simp [exact, radius] at hr
  have hr0 : r = 0 := le_antisymm hr h2
  subst hr0
  have e : F.mul ARF_PREC_EXACT (exact 1) (exact 2) = exact 2 := by
    cases hb : F.mul ARF_PREC_EXACT (exact 1) (exact (2 : ℚ)) with
    | mk m rad =>
      rw [hb] at hm h1
      simp only [exact, one_mul] at hm h1 ⊢
      rw [hm, h1]
  have hd : ((1 / 2 : ℚ).den : ℚ) = 2 := by norm_num
  have hn : ((1 / 2 : ℚ).num : ℚ) = 1 := by norm_num
  rw [neQ, scaled, hd, hn, e]
  decide +kernel

/-! ### C25 -/

/-- **C25**: `arb(prec)` has exactly `prec` bits of relative accuracy (`prec ≥ 2`, number not zero), its midpoint is `arf(prec)`, and the
number is at most five radii (two, unless it is a product) away from the midpoint.  The documented containment (one radius) fails, see
`arb_contains_fails`. -/
theorem arb_partial (atoms : Atoms) {x : RN} (hx : x.WF) (hx0 : x.real atoms ≠ 0) {prec : ℕ} (hp : 2 ≤ prec) :
    (∀ p : ℤ, (x.arb atoms prec).hasAccuracy p = true ↔ p ≤ prec) ∧ (x.arb atoms prec).mid = x.arf atoms prec ∧
    ∃ r : ℚ, (x.arb atoms prec).rad = some r ∧ 0 < r ∧ r ≤ 2 ^ (-((prec : ℤ) + 1)) * |x.arf atoms prec| ∧
      |x.real atoms - x.arf atoms prec| ≤ 5 * r ∧ ((∀ m, x ≠ .prod m) → |x.real atoms - x.arf atoms prec| ≤ 2 * r) := by
  have hne : x.arf atoms prec ≠ 0 := by rw [RN.arf_nat]; exact (RN.arf_error atoms hx hx0 prec hp).1
  obtain ⟨⟨r, h1, h2, h3⟩, h4⟩ := RN.arb_near atoms hx hp
  have hr := RN.arb_radius atoms x prec hne
  rw [radius_eq h1] at hr
  have hpos : 0 < r := by
    have e := h1
    rw [RN.arb_eq] at e
    cases e
    exact two_zpow_pos _
  have hmid : (x.arb atoms prec).mid = x.arf atoms prec := by rw [RN.arb_eq]
  rw [hmid] at h3
  refine ⟨RN.arb_accuracy atoms hne, hmid, r, h1, hpos, hr, h3, fun hnp => ?_⟩
  obtain ⟨r', h1', -, h3'⟩ := h4 hnp
  rw [h1] at h1'
  cases h1'
  rwa [hmid] at h3'

/-- **C25** for `refine`: afterwards the ball has at least the accuracy asked for (nothing happens if it already has it), and a number that
was within `c ≥ 5` radii of the midpoint still is. -/
theorem refine_partial (atoms : Atoms) {x : RN} (hx : x.WF) (hx0 : x.real atoms ≠ 0) (b : Ball) {prec : ℕ} (hp : 2 ≤ prec) :
    (x.refine atoms b prec).hasAccuracy prec = true ∧ (b.hasAccuracy prec = true → x.refine atoms b prec = b) ∧
    (b.hasAccuracy prec = false → x.refine atoms b prec = x.arb atoms prec) ∧
    ∀ c : ℝ, 5 ≤ c → Near c b (x.real atoms) ∨ b.rad = none → Near c (x.refine atoms b prec) (x.real atoms) := by
  have e : b.hasAccuracy prec = false → x.refine atoms b prec = x.arb atoms prec := by
    intro h
    rw [RN.arb_eq, RN.refine, if_neg (by rw [h]; simp)]
  have e2 : b.hasAccuracy prec = true → x.refine atoms b prec = b := fun h => by rw [RN.refine, if_pos h]
  refine ⟨?_, e2, e, fun c hc h => ?_⟩
  · rcases hacc : b.hasAccuracy prec with _ | _
    · rw [e hacc, (arb_partial atoms hx hx0 hp).1]
    · rw [e2 hacc]; exact hacc
  · rcases hacc : b.hasAccuracy prec with _ | _
    · rw [e hacc]; exact (RN.arb_near atoms hx hp).1.mono hc
    · rw [e2 hacc]
      rcases h with h | h
      · exact h
      · exfalso
        rw [hasAccuracy, h] at hacc
        cases hacc

/-- **C25 is false** at every precision: `rational(1/3).arb(prec)` never contains `1/3`. -/
theorem arb_contains_fails (atoms : Atoms) {prec : ℕ} (hp : 2 ≤ prec) :
    ¬ ((RN.rat (1 / 3)).arb atoms prec).Contains ((RN.rat (1 / 3)).real atoms) := by
  set a := (RN.rat (1 / 3)).arf atoms prec with ha
  have hlog : Int.log 2 |(1 / 3 : ℚ)| = -2 := log_eq (by norm_num [abs_of_pos]) (by norm_num [abs_of_pos])
  have haround : a = round .near prec (1 / 3) := by
    rw [ha, RN.arf_nat, RN.arf_, if_neg (by omega), Rat.num_div_den]
  have hu : ulp prec (1 / 3) = 2 ^ (-1 - (prec : ℤ)) := by rw [ulp, hlog]; congr 1
  have hup := two_zpow_pos (-1 - (prec : ℤ))
  have hule : (2 : ℚ) ^ (-1 - (prec : ℤ)) ≤ 1 / 8 := by
    refine (zpow_mono (show -1 - (prec : ℤ) ≤ -3 by omega)).trans ?_; norm_num
  have herr := abs_round_near_sub_le prec (show (1 / 3 : ℚ) ≠ 0 by norm_num)
  rw [← haround, hu, abs_le] at herr
  have hloga : Int.log 2 |a| = -2 := by
    have hapos : 0 < a := by linarith [herr.1]
    apply log_eq <;> rw [abs_of_pos hapos]
    · norm_num; linarith [herr.1]
    · norm_num; linarith [herr.2]
  have ha0 : a ≠ 0 := by intro h; rw [h] at hloga; norm_num at hloga
  rw [RN.arb_eq, contains_iff rfl, ← ha, RN.real_rat, Arf.logb, if_neg ha0, hloga, not_le]
  -- `a` is a multiple of the last place, `1/3` is at least a third of that away from all of them
  obtain ⟨k, hk⟩ : ∃ k : ℤ, a = k * 2 ^ (-1 - (prec : ℤ)) := ⟨_, by rw [haround, round_of_ne _ _ (by norm_num), hu]⟩
  have hn : (2 : ℚ) ^ ((prec : ℤ) + 1) = ((2 ^ (prec + 1) : ℤ) : ℚ) := by push_cast; rw [← zpow_natCast]; push_cast; rfl
  have h13 : (1 / 3 : ℚ) = ((2 ^ (prec + 1) : ℤ) : ℚ) / 3 * 2 ^ (-1 - (prec : ℤ)) := by
    rw [← hn, div_mul_eq_mul_div, ← zadd]
    rw [show (prec : ℤ) + 1 + (-1 - prec) = 0 by ring]; norm_num
  have hne : (2 ^ (prec + 1) : ℤ) ≠ 3 * k := by
    intro h
    have h3 : (3 : ℤ) ∣ 2 ^ (prec + 1) := ⟨k, h⟩
    have h4 : (3 : ℕ) ∣ 2 ^ (prec + 1) := by exact_mod_cast h3
    have := Nat.prime_three.dvd_of_dvd_pow h4
    norm_num at this
  have hge : (1 : ℚ) ≤ |((2 ^ (prec + 1) : ℤ) : ℚ) - 3 * k| := by
    have : (1 : ℤ) ≤ |2 ^ (prec + 1) - 3 * k| := Int.one_le_abs (sub_ne_zero.2 hne)
    exact_mod_cast this
  have hdist : 2 ^ (-1 - (prec : ℤ)) / 3 ≤ |1 / 3 - a| := by
    rw [hk, h13, show ((2 ^ (prec + 1) : ℤ) : ℚ) / 3 * 2 ^ (-1 - (prec : ℤ)) - k * 2 ^ (-1 - (prec : ℤ)) =
      (((2 ^ (prec + 1) : ℤ) : ℚ) - 3 * k) * (2 ^ (-1 - (prec : ℤ)) / 3) by ring, abs_mul, abs_of_pos (by positivity : (0 : ℚ) < 2 ^ (-1 - (prec : ℤ)) / 3)]
    exact le_mul_of_one_le_left (by positivity) hge
  have hrad : (2 : ℚ) ^ (-2 - ((prec : ℤ) + 1)) = 2 ^ (-1 - (prec : ℤ)) / 4 := by
    rw [show -2 - ((prec : ℤ) + 1) = (-1 - (prec : ℤ)) + (-2) by ring, zadd]; norm_num; ring
  have : (2 : ℚ) ^ (-2 - ((prec : ℤ) + 1)) < |1 / 3 - a| := by rw [hrad]; linarith
  have := (Rat.cast_lt (K := ℝ)).2 this
  push_cast at this ⊢
  exact this

/-! ### C27 -/

theorem rep_of_bits {z : ℚ} (hz : Dyadic z) {p : ℕ} (h : bits z ≤ p) : Rep p z := by
  refine ⟨mantissa z, exponent z, ?_, (mantissa_mul hz).symm⟩
  by_cases h0 : z = 0
  · subst h0; rw [mantissa_zero]; simp
  · rw [bits, if_neg h0] at h
    have := Nat.lt_pow_succ_log_self (b := 2) (by norm_num) (mantissa z).natAbs
    have h2 : (mantissa z).natAbs ≤ 2 ^ p := this.le.trans (Nat.pow_le_pow_right (by norm_num) h)
    rw [Int.abs_eq_natAbs]; exact_mod_cast h2

theorem dyadic_round (r : Rnd) (p : ℕ) (x : ℚ) : Dyadic (round r p x) := by
  obtain ⟨m, k, -, h⟩ := rep_round r (p := p) x
  exact ⟨m, k, h⟩

/-- The interval that `cmp` compares with: it contains the ball. -/
theorem interval_spec {b : Ball} {lo hi : ℚ} (h : b.interval = .ok (lo, hi)) :
    ∃ r, b.rad = some r ∧ lo ≤ b.mid - r ∧ b.mid + r ≤ hi ∧ (Dyadic b.mid → Dyadic lo ∧ Dyadic hi) := by
  unfold interval at h
  cases hr : b.rad with
  | none => rw [hr] at h; cases h
  | some r =>
    rw [hr] at h
    simp only at h
    split_ifs at h with h0 ha
    · cases h
      subst h0
      exact ⟨0, rfl, by simp, by simp, fun h => ⟨h, h⟩⟩
    · cases h
      have ha' : b.hasAccuracy 2 = true := by simpa using ha
      rw [hasAccuracy, hr] at ha'
      simp only [Bool.or_eq_true, Bool.and_eq_true, decide_eq_true_eq, h0, false_or] at ha'
      obtain ⟨n, hn⟩ : ∃ n : ℕ, Int.log 2 |b.mid| - Int.log 2 r - 1 = n := ⟨(Int.log 2 |b.mid| - Int.log 2 r - 1).toNat, by omega⟩
      rw [hn]
      exact ⟨r, rfl, round_floor_le _ _, le_round_ceil _ _, fun _ => ⟨dyadic_round _ _ _, dyadic_round _ _ _⟩⟩

/-- What `cmp` returns. -/
theorem cmp_eq {atoms : Atoms} {x : RN} {b : Ball} {c : ℤ} (h : x.cmp atoms b = .ok c) :
    ∃ lo hi, b.interval = .ok (lo, hi) ∧
      c = if x.arf atoms (max (bits lo) (bits hi) + 1) < lo then -1 else if hi < x.arf atoms (max (bits lo) (bits hi) + 1) then 1 else 0 := by
  rw [RN.cmp] at h
  obtain ⟨⟨lo, hi⟩, h1, h2⟩ := Out.bind_eq_ok.1 h
  cases h2
  exact ⟨lo, hi, h1, rfl⟩

/-- **C27** for rationals (the midpoint of a ball is a floating point number, i.e. dyadic): `-1` only if the number is below the ball, `1` only if it is above (i.e. `0` whenever the number is in the
ball). -/
theorem cmp_rational_partial (atoms : Atoms) (q : ℚ) (b : Ball) (hb : Dyadic b.mid) (c : ℤ) (h : (RN.rat q).cmp atoms b = .ok c) :
    (c = -1 → ∀ y, b.Contains y → ((q : ℚ) : ℝ) < y) ∧ (c = 1 → ∀ y, b.Contains y → y < q) ∧ (c = -1 ∨ c = 0 ∨ c = 1) := by
  obtain ⟨lo, hi, h1, h2⟩ := cmp_eq h
  obtain ⟨r, hr, hlo, hhi, hdy⟩ := interval_spec h1
  obtain ⟨dlo, dhi⟩ := hdy hb
  set p := max (bits lo) (bits hi) + 1 with hp
  have harf : (RN.rat q).arf atoms p = round .near p q := by
    rw [RN.arf_nat, RN.arf_, if_neg (by omega), Rat.num_div_den]
  have hcast : ((max (bits lo) (bits hi) : ℕ) : ℤ) + 1 = (p : ℤ) := by rw [hp]; push_cast; rfl
  have replo : Rep p lo := rep_of_bits dlo (by omega)
  have rephi : Rep p hi := rep_of_bits dhi (by omega)
  rw [hcast, harf] at h2
  have hlo' : (lo : ℝ) ≤ b.mid - r := by exact_mod_cast hlo
  have hhi' : (b.mid : ℝ) + r ≤ hi := by exact_mod_cast hhi
  refine ⟨fun hc y hy => ?_, fun hc y hy => ?_, ?_⟩
  · have hlt : q < lo := by
      by_contra hge
      push Not at hge
      have := le_round .near (by omega) replo hge
      rw [hc, if_neg (not_lt.2 this)] at h2
      split_ifs at h2
    rw [contains_iff hr, abs_le] at hy
    have : ((q : ℚ) : ℝ) < lo := by exact_mod_cast hlt
    linarith
  · have hlt : hi < q := by
      by_contra hge
      push Not at hge
      have := round_le .near (by omega) rephi hge
      rw [hc] at h2
      split_ifs at h2 with h3 h4
      · linarith
      · omega
    rw [contains_iff hr, abs_le] at hy
    have : (hi : ℝ) < q := by exact_mod_cast hlt
    linarith
  · rw [h2]; split_ifs <;> simp

/-- **C27** for all numbers, quantitatively: `-1` only if the number is below the ball up to a relative error of `2^-p`
(`7/2·2^-p` for products), where `p` exceeds the number of bits of the end points of the interval; similarly for `1`. -/
theorem cmp_error_partial (atoms : Atoms) {x : RN} (hx : x.WF) (b : Ball) (c : ℤ) (h : x.cmp atoms b = .ok c) :
    ∃ lo hi, b.interval = .ok (lo, hi) ∧ ∃ ε : ℝ, 0 ≤ ε ∧ ε ≤ 7 / 2 * 2 ^ (-(((max (bits lo) (bits hi) : ℕ) : ℤ) + 1)) ∧
      ((∀ m, x ≠ .prod m) → ε ≤ 2 ^ (-(((max (bits lo) (bits hi) : ℕ) : ℤ) + 1))) ∧
      (c = -1 → ∀ y, b.Contains y → x.real atoms < y + ε * |x.real atoms|) ∧
      (c = 1 → ∀ y, b.Contains y → y - ε * |x.real atoms| < x.real atoms) := by
  obtain ⟨lo, hi, h1, h2⟩ := cmp_eq h
  obtain ⟨r, hr, hlo, hhi, -⟩ := interval_spec h1
  have hlo' : (lo : ℝ) ≤ b.mid - r := by exact_mod_cast hlo
  have hhi' : (b.mid : ℝ) + r ≤ hi := by exact_mod_cast hhi
  obtain ⟨ε, e0, e1, e2, e3⟩ : ∃ ε : ℝ, 0 ≤ ε ∧ ε ≤ 7 / 2 * 2 ^ (-(((max (bits lo) (bits hi) : ℕ) : ℤ) + 1)) ∧
      ((∀ m, x ≠ .prod m) → ε ≤ 2 ^ (-(((max (bits lo) (bits hi) : ℕ) : ℤ) + 1))) ∧
      |(x.arf atoms (max (bits lo) (bits hi) + 1) : ℝ) - x.real atoms| ≤ ε * |x.real atoms| := by
    have hp := zposR (-(((max (bits lo) (bits hi) : ℕ) : ℤ) + 1))
    by_cases hnp : ∀ m, x ≠ .prod m
    · exact ⟨_, hp.le, by linarith, fun _ => le_rfl, arf_relative_error_partial atoms x hnp _⟩
    · refine ⟨_, by positivity, le_rfl, fun h => absurd h hnp, ?_⟩
      have := (arf_relative_error_product_partial atoms x hx (max (bits lo) (bits hi) + 1)).2
      rw [Nat.cast_succ] at this
      exact this
  refine ⟨lo, hi, h1, ε, e0, e1, e2, fun hc y hy => ?_, fun hc y hy => ?_⟩
  · rw [hc] at h2
    have h3 : x.arf atoms (max (bits lo) (bits hi) + 1) < lo := by
      by_contra h3
      rw [if_neg h3] at h2
      split_ifs at h2
    have h4 : (x.arf atoms (max (bits lo) (bits hi) + 1) : ℝ) < lo := by exact_mod_cast h3
    rw [contains_iff hr, abs_le] at hy
    rw [abs_le] at e3
    linarith
  · rw [hc] at h2
    have h3 : hi < x.arf atoms (max (bits lo) (bits hi) + 1) := by
      by_contra h3
      rw [if_neg h3] at h2
      split_ifs at h2; omega
    have h4 : (hi : ℝ) < x.arf atoms (max (bits lo) (bits hi) + 1) := by exact_mod_cast h3
    rw [contains_iff hr, abs_le] at hy
    rw [abs_le] at e3
    linarith

theorem cmp_of {atoms : Atoms} {x : RN} {b : Ball} {lo hi : ℚ} {n : ℕ} {a : ℚ} (h : b.interval = .ok (lo, hi)) (hn : max (bits lo) (bits hi) + 1 = n)
    (ha : x.arf atoms n = a) : x.cmp atoms b = .ok (if a < lo then -1 else if hi < a then 1 else 0) := by
  rw [RN.cmp, h, Out.ok_bind]
  simp only
  rw [show ((max (bits lo) (bits hi) : ℕ) : ℤ) + 1 = n by rw [← hn]; push_cast; rfl, ha]

theorem interval_one : (exact 1).interval = .ok (1, 1) := by
  decide +kernel

theorem interval_sample : (⟨1, some (1 / 16)⟩ : Ball).interval = .ok (7 / 8, 5 / 4) := by decide +kernel

/-- **C27 is false** for the answer `0`: `1 + 2^-100` is not in the ball `[1, 1]` and `5/4` is not in the ball `[15/16, 17/16]`, but `cmp`
returns 0. -/
theorem cmp_fails (atoms : Atoms) :
    ((RN.rat (1 + 1 / 2 ^ 100)).cmp atoms (exact 1) = .ok 0 ∧ ¬ (exact 1).Contains ((RN.rat (1 + 1 / 2 ^ 100)).real atoms)) ∧
    ((RN.rat (5 / 4)).cmp atoms ⟨1, some (1 / 16)⟩ = .ok 0 ∧ ¬ (⟨1, some (1 / 16)⟩ : Ball).Contains ((RN.rat (5 / 4)).real atoms)) := by
  refine ⟨⟨?_, ?_⟩, ?_, ?_⟩
  · rw [cmp_of (n := 2) (a := 1) interval_one (by decide +kernel)]
    · decide +kernel
    · rw [RN.arf_nat, RN.arf_, if_neg (by norm_num)]; decide +kernel
  · rw [contains_exact, RN.real_rat]; norm_num
  · rw [cmp_of (n := 4) (a := 5 / 4) interval_sample (by decide +kernel)]
    · decide +kernel
    · rw [RN.arf_nat, RN.arf_, if_neg (by norm_num)]; decide +kernel
  · rw [contains_iff rfl, RN.real_rat]; norm_num [abs_of_pos]

/-- `-1` and `1` occur. -/
example (atoms : Atoms) : (RN.rat (3 / 4)).cmp atoms ⟨1, some (1 / 16)⟩ = .ok (-1) ∧ (RN.rat 2).cmp atoms ⟨1, some (1 / 16)⟩ = .ok 1 := by
  constructor
  · rw [cmp_of (n := 4) (a := 3 / 4) interval_sample (by decide +kernel)]
    · decide +kernel
    · rw [RN.arf_nat, RN.arf_, if_neg (by norm_num)]; decide +kernel
  · rw [cmp_of (n := 4) (a := 2) interval_sample (by decide +kernel)]
    · decide +kernel
    · rw [RN.arf_nat, RN.arf_, if_neg (by norm_num)]; decide +kernel

/-- The contract of FLINT is satisfiable. -/
example : FlintLike.arith.Lawful := FlintLike.lawful

end ExactReal.Props
