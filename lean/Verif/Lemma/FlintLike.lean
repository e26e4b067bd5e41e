import Verif.Lemma.Tends

/-!
# The contract of the ball arithmetic can be met

An implementation of `Arith.Lawful` that rounds midpoints like FLINT does (`ARF_RND_DOWN` to `prec` bits) and has exact radii.  It only
serves to show that the hypothesis `F.Lawful` of the theorems can be satisfied.
-/

namespace ExactReal

open Arf Ball

namespace FlintLike

/-- Round to `prec` bits unless exact results are asked for. -/
def rnd (prec : ℕ) (x : ℚ) : ℚ := if prec = ARF_PREC_EXACT then x else round .down prec x

/-- A ball with rounded midpoint. -/
def pack (prec : ℕ) (mid : ℚ) (rad : ℚ) : Ball := ⟨rnd prec mid, some (rad + |rnd prec mid - mid|)⟩

/-- Arithmetic with exact radii. -/
def arith : Arith where
  add prec a b :=
    match a.rad, b.rad with
    | some r, some s => pack prec (a.mid + b.mid) (r + s)
    | _, _ => ⟨rnd prec (a.mid + b.mid), none⟩
  mul prec a b :=
    match a.rad, b.rad with
    | some r, some s => pack prec (a.mid * b.mid) (|a.mid| * s + |b.mid| * r + r * s)
    | _, _ => ⟨rnd prec (a.mid * b.mid), none⟩
  div prec a b :=
    match a.rad, b.rad with
    | some r, some s =>
      if s < |b.mid| then pack prec (a.mid / b.mid) ((|a.mid| * s + |b.mid| * r) / (|b.mid| * (|b.mid| - s)))
      else ⟨rnd prec (a.mid / b.mid), none⟩
    | _, _ => ⟨rnd prec (a.mid / b.mid), none⟩
  ofRat prec q := pack prec q 0

theorem rnd_close (prec : ℕ) (x : ℚ) : |rnd prec x - x| ≤ 2 ^ (1 - (prec : ℤ)) * |x| := by
  unfold rnd
  split_ifs
  · rw [sub_self, abs_zero]; positivity
  · rw [mul_comm]; exact abs_round_sub_le_rel .down prec x

theorem pack_contains {prec : ℕ} {mid rad : ℚ} {x : ℝ} (h : |x - mid| ≤ rad) : (pack prec mid rad).Contains x := by
  rw [contains_iff rfl]
  show |x - (rnd prec mid : ℚ)| ≤ ((rad + |rnd prec mid - mid| : ℚ) : ℝ)
  have := abs_sub_le x mid (rnd prec mid : ℝ)
  rw [abs_sub_comm (mid : ℝ)] at this
  push_cast; linarith

theorem pack_finite {prec : ℕ} {mid rad : ℚ} (h : 0 ≤ rad) : (pack prec mid rad).Finite :=
  ⟨_, rfl, add_nonneg h (abs_nonneg _)⟩

theorem pack_radius {prec : ℕ} {mid rad : ℚ} : (pack prec mid rad).radius ≤ rad + 2 ^ (1 - (prec : ℤ)) * |mid| :=
  add_le_add_right (rnd_close prec mid) rad

theorem pow_twice (prec : ℕ) : (2 : ℚ) ^ (2 - (prec : ℤ)) = 2 * 2 ^ (1 - (prec : ℤ)) := by
  rw [show (2 : ℤ) - prec = 1 + (1 - prec) by ring, zadd, zpow_one]

theorem not_contains_zero {b : Ball} {s : ℚ} (h : b.rad = some s) (h0 : ¬ b.Contains 0) : s < |b.mid| := by
  rw [contains_iff h, zero_sub, abs_neg, not_le] at h0
  exact_mod_cast h0

theorem rnd_exact (x : ℚ) : rnd ARF_PREC_EXACT x = x := if_pos rfl

theorem lawful : arith.Lawful where
  add_contains prec a b x y ha hb := by
    show Ball.Contains (match a.rad, b.rad with | some r, some s => _ | _, _ => _) _
    cases hr : a.rad with
    | none => trivial
    | some r =>
      cases hs : b.rad with
      | none => trivial
      | some s =>
        rw [contains_iff hr] at ha
        rw [contains_iff hs] at hb
        apply pack_contains
        have := abs_add_le (x - a.mid) (y - b.mid)
        rw [show x - a.mid + (y - b.mid) = x + y - ((a.mid + b.mid : ℚ) : ℝ) by push_cast; ring] at this
        push_cast at this ⊢; linarith
  mul_contains prec a b x y ha hb := by
    show Ball.Contains (match a.rad, b.rad with | some r, some s => _ | _, _ => _) _
    cases hr : a.rad with
    | none => trivial
    | some r =>
      cases hs : b.rad with
      | none => trivial
      | some s =>
        rw [contains_iff hr] at ha
        rw [contains_iff hs] at hb
        apply pack_contains
        have e : x * y - ((a.mid * b.mid : ℚ) : ℝ) = a.mid * (y - b.mid) + b.mid * (x - a.mid) + (x - a.mid) * (y - b.mid) := by
          push_cast; ring
        rw [e]
        have h1 := abs_add_le ((a.mid : ℝ) * (y - b.mid) + b.mid * (x - a.mid)) ((x - a.mid) * (y - b.mid))
        have h2 := abs_add_le ((a.mid : ℝ) * (y - b.mid)) (b.mid * (x - a.mid))
        rw [abs_mul, abs_mul] at h2
        rw [abs_mul (x - (a.mid : ℝ))] at h1
        have h3 := mul_le_mul_of_nonneg_left hb (abs_nonneg (a.mid : ℝ))
        have h4 := mul_le_mul_of_nonneg_left ha (abs_nonneg (b.mid : ℝ))
        have h5 := mul_le_mul ha hb (abs_nonneg _) ((abs_nonneg _).trans ha)
        push_cast; linarith
  div_contains prec a b x y ha hb h0 := by
    show Ball.Contains (match a.rad, b.rad with | some r, some s => _ | _, _ => _) _
    cases hr : a.rad with
    | none => trivial
    | some r =>
      cases hs : b.rad with
      | none => trivial
      | some s =>
        have hlt := not_contains_zero hs h0
        simp only [if_pos hlt]
        rw [contains_iff hr] at ha
        rw [contains_iff hs] at hb
        apply pack_contains
        have hlt' : (s : ℝ) < |(b.mid : ℝ)| := by exact_mod_cast hlt
        have hs0 : (0 : ℝ) ≤ s := (abs_nonneg _).trans hb
        have hbm : (b.mid : ℝ) ≠ 0 := by intro h; rw [h, abs_zero] at hlt'; linarith
        have hyl : |(b.mid : ℝ)| - s ≤ |y| := by
          have := abs_sub_abs_le_abs_sub (b.mid : ℝ) y
          rw [abs_sub_comm] at this; linarith
        have hy : y ≠ 0 := by intro h; rw [h, abs_zero] at hyl; linarith
        have e : x / y - ((a.mid / b.mid : ℚ) : ℝ) = (b.mid * (x - a.mid) - a.mid * (y - b.mid)) / (b.mid * y) := by
          push_cast; field_simp; ring
        rw [e, abs_div, abs_mul (b.mid : ℝ) y]
        push_cast
        have hnum : |(b.mid : ℝ) * (x - a.mid) - a.mid * (y - b.mid)| ≤ |(a.mid : ℝ)| * s + |(b.mid : ℝ)| * r := by
          have h1 := abs_sub ((b.mid : ℝ) * (x - a.mid)) (a.mid * (y - b.mid))
          rw [abs_mul, abs_mul] at h1
          have h3 := mul_le_mul_of_nonneg_left hb (abs_nonneg (a.mid : ℝ))
          have h4 := mul_le_mul_of_nonneg_left ha (abs_nonneg (b.mid : ℝ))
          linarith
        have hbp := abs_pos.2 hbm
        exact div_le_div₀ ((abs_nonneg _).trans hnum) hnum (mul_pos hbp (by linarith)) (mul_le_mul_of_nonneg_left hyl hbp.le)
  ofRat_contains prec q := pack_contains (by simp)
  add_finite prec a b ha hb := by
    obtain ⟨r, hr, hr0⟩ := ha
    obtain ⟨s, hs, hs0⟩ := hb
    simp only [arith, hr, hs]
    exact pack_finite (add_nonneg hr0 hs0)
  mul_finite prec a b ha hb := by
    obtain ⟨r, hr, hr0⟩ := ha
    obtain ⟨s, hs, hs0⟩ := hb
    simp only [arith, hr, hs]
    exact pack_finite (by positivity)
  div_finite prec a b ha hb h0 := by
    obtain ⟨r, hr, hr0⟩ := ha
    obtain ⟨s, hs, hs0⟩ := hb
    have hlt := not_contains_zero hs h0
    simp only [arith, hr, hs, if_pos hlt]
    have : 0 < |b.mid| - s := by linarith
    exact pack_finite (by positivity)
  ofRat_finite prec q := pack_finite le_rfl
  add_mid prec a b _ := by
    have h := rnd_close prec (a.mid + b.mid)
    simp only [arith]
    split <;> exact h
  mul_mid prec a b _ := by
    have h := rnd_close prec (a.mid * b.mid)
    simp only [arith]
    split <;> exact h
  div_mid prec a b _ h0 ha hb := by
    obtain ⟨r, hr, hr0⟩ := ha
    obtain ⟨s, hs, hs0⟩ := hb
    have hlt := not_contains_zero hs h0
    have h := rnd_close prec (a.mid / b.mid)
    rw [radius_eq hr, radius_eq hs]
    simp only [arith, hr, hs, if_pos hlt]
    refine h.trans (le_add_of_nonneg_right ?_)
    have : 0 < |b.mid| - s := by linarith
    positivity
  ofRat_mid prec q _ := rnd_close prec q
  add_radius prec a b _ ha hb := by
    obtain ⟨r, hr, hr0⟩ := ha
    obtain ⟨s, hs, hs0⟩ := hb
    rw [radius_eq hr, radius_eq hs]
    simp only [arith, hr, hs]
    have h := pack_radius (prec := prec) (mid := a.mid + b.mid) (rad := r + s)
    have : 0 ≤ (2 : ℚ) ^ (1 - (prec : ℤ)) * |a.mid + b.mid| := by positivity
    rw [pow_twice]; linarith
  mul_radius prec a b _ ha hb := by
    obtain ⟨r, hr, hr0⟩ := ha
    obtain ⟨s, hs, hs0⟩ := hb
    rw [radius_eq hr, radius_eq hs]
    simp only [arith, hr, hs]
    have h := pack_radius (prec := prec) (mid := a.mid * b.mid) (rad := |a.mid| * s + |b.mid| * r + r * s)
    have : 0 ≤ (2 : ℚ) ^ (1 - (prec : ℤ)) * |a.mid * b.mid| := by positivity
    have : 0 ≤ |a.mid| * s + |b.mid| * r + r * s := by positivity
    rw [pow_twice]; linarith
  div_radius prec a b _ ha hb h0 := by
    obtain ⟨r, hr, hr0⟩ := ha
    obtain ⟨s, hs, hs0⟩ := hb
    have hlt := not_contains_zero hs h0
    rw [radius_eq hr, radius_eq hs]
    simp only [arith, hr, hs, if_pos hlt]
    have h := pack_radius (prec := prec) (mid := a.mid / b.mid) (rad := (|a.mid| * s + |b.mid| * r) / (|b.mid| * (|b.mid| - s)))
    have : 0 < |b.mid| - s := by linarith
    have : 0 ≤ (2 : ℚ) ^ (1 - (prec : ℤ)) * |a.mid / b.mid| := by positivity
    have : 0 ≤ (|a.mid| * s + |b.mid| * r) / (|b.mid| * (|b.mid| - s)) := by positivity
    rw [pow_twice, mul_div_assoc]; linarith
  ofRat_radius prec q _ := by
    have h := pack_radius (prec := prec) (mid := q) (rad := 0)
    have : 0 ≤ (2 : ℚ) ^ (1 - (prec : ℤ)) * |q| := by positivity
    simp only [arith]
    rw [pow_twice]; linarith
  mul_exact_mid a b := by
    simp only [arith]
    split <;> exact rnd_exact _
  mul_exact_radius a b ha hb := by
    obtain ⟨r, hr, hr0⟩ := ha
    obtain ⟨s, hs, hs0⟩ := hb
    rw [radius_eq hr, radius_eq hs]
    simp only [arith, hr, hs]
    show (|a.mid| * s + |b.mid| * r + r * s) + |rnd ARF_PREC_EXACT (a.mid * b.mid) - a.mid * b.mid| ≤ _
    rw [rnd_exact, sub_self, abs_zero]
    have : 0 ≤ |a.mid| * s + |b.mid| * r + r * s := by positivity
    linarith

end FlintLike

end ExactReal
