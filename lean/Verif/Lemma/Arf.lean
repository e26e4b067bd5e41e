import Verif.Model.Arf
import Mathlib.Tactic.Linarith
import Mathlib.Tactic.Positivity
import Mathlib.Tactic.FieldSimp
import Mathlib.Tactic.Ring
import Mathlib.Tactic.NormNum
import Mathlib.Tactic.Push
import Mathlib.Algebra.Order.Floor.Ring
import Mathlib.Algebra.Order.Field.Power

/-! # Rounding -/

namespace ExactReal

theorem nearInt_int (n : ℤ) : nearInt (n : ℚ) = n := by
  unfold nearInt; simp

theorem abs_nearInt_sub (y : ℚ) : |(nearInt y : ℚ) - y| ≤ 1 / 2 := by
  have h0 := Int.floor_le y
  have h1 := Int.lt_floor_add_one y
  unfold nearInt
  split_ifs <;> push_cast <;> rw [abs_le] <;> constructor <;> linarith

namespace Rnd

theorem toInt_int (r : Rnd) (n : ℤ) : r.toInt (n : ℚ) = n := by
  cases r <;> simp [toInt, nearInt_int]

theorem abs_toInt_sub (r : Rnd) (y : ℚ) : |(r.toInt y : ℚ) - y| < 1 := by
  have h0 := Int.floor_le y
  have h1 := Int.lt_floor_add_one y
  have h2 := Int.le_ceil y
  have h3 := Int.ceil_lt_add_one y
  cases r
  · simp only [toInt]; split_ifs <;> rw [abs_lt] <;> constructor <;> linarith
  · simp only [toInt]; split_ifs <;> rw [abs_lt] <;> constructor <;> linarith
  · simp only [toInt]; rw [abs_lt]; constructor <;> linarith
  · simp only [toInt]; rw [abs_lt]; constructor <;> linarith
  · exact lt_of_le_of_lt (abs_nearInt_sub y) (by norm_num)

theorem toInt_mono (r : Rnd) {y z : ℚ} (h : y ≤ z) : r.toInt y ≤ r.toInt z := by
  have hf : ⌊y⌋ ≤ ⌊z⌋ := Int.floor_mono h
  have hc : ⌈y⌉ ≤ ⌈z⌉ := Int.ceil_mono h
  cases r
  · simp only [toInt]; split_ifs with h1 h2 h2
    · exact hf
    · linarith
    · exact le_trans (Int.ceil_le.2 (by push_cast; linarith) : ⌈y⌉ ≤ 0) (Int.floor_nonneg.2 h2)
    · exact hc
  · simp only [toInt]; split_ifs with h1 h2 h2
    · exact hc
    · linarith
    · have : ⌊y⌋ ≤ 0 := by
        have : (⌊y⌋ : ℚ) < 0 := lt_of_le_of_lt (Int.floor_le y) (by linarith)
        exact_mod_cast this.le
      exact this.trans (Int.ceil_nonneg h2)
    · exact hf
  · exact hf
  · exact hc
  · show nearInt y ≤ nearInt z
    rcases eq_or_lt_of_le hf with he | hl
    · unfold nearInt
      rw [← he]
      split_ifs <;> first | omega | (exfalso; linarith) | skip
    · have a : nearInt y ≤ ⌊y⌋ + 1 := by unfold nearInt; split_ifs <;> omega
      have b : ⌊z⌋ ≤ nearInt z := by unfold nearInt; split_ifs <;> omega
      omega

end Rnd

namespace Arf

theorem two_zpow_pos (k : ℤ) : (0 : ℚ) < 2 ^ k := by positivity

theorem zpow_le_abs {x : ℚ} (h : x ≠ 0) : (2 : ℚ) ^ Int.log 2 |x| ≤ |x| := by
  exact_mod_cast Int.zpow_log_le_self (b := 2) (by norm_num) (abs_pos.2 h)

theorem abs_lt_zpow (x : ℚ) : |x| < (2 : ℚ) ^ (Int.log 2 |x| + 1) := by
  exact_mod_cast Int.lt_zpow_succ_log_self (b := 2) (by norm_num) |x|

theorem zpow_mono {a b : ℤ} (h : a ≤ b) : (2 : ℚ) ^ a ≤ 2 ^ b := zpow_le_zpow_right₀ (by norm_num) h

theorem zpow_lt_iff {a b : ℤ} : (2 : ℚ) ^ a < 2 ^ b ↔ a < b := zpow_lt_zpow_iff_right₀ (by norm_num)

theorem zpow_le_iff {a b : ℤ} : (2 : ℚ) ^ a ≤ 2 ^ b ↔ a ≤ b := zpow_le_zpow_iff_right₀ (by norm_num)

theorem zadd (a b : ℤ) : (2 : ℚ) ^ (a + b) = 2 ^ a * 2 ^ b := zpow_add₀ (by norm_num) a b

theorem log_eq {x : ℚ} {k : ℤ} (h1 : (2 : ℚ) ^ k ≤ |x|) (h2 : |x| < 2 ^ (k + 1)) : Int.log 2 |x| = k := by
  have hx : x ≠ 0 := by
    rintro rfl; simp at h1; exact absurd h1 (not_le.2 (two_zpow_pos k))
  have a := zpow_le_abs hx
  have b := abs_lt_zpow x
  have c := zpow_lt_iff.1 (lt_of_le_of_lt a h2)
  have d := zpow_lt_iff.1 (lt_of_le_of_lt h1 b)
  omega

theorem le_log {x : ℚ} {k : ℤ} (h1 : (2 : ℚ) ^ k ≤ |x|) : k ≤ Int.log 2 |x| := by
  have := zpow_lt_iff.1 (lt_of_le_of_lt h1 (abs_lt_zpow x)); omega

theorem log_lt {x : ℚ} (hx : x ≠ 0) {k : ℤ} (h1 : |x| < 2 ^ k) : Int.log 2 |x| < k :=
  zpow_lt_iff.1 (lt_of_le_of_lt (zpow_le_abs hx) h1)

theorem log_mono {x y : ℚ} (hx : x ≠ 0) (h : |x| ≤ |y|) : Int.log 2 |x| ≤ Int.log 2 |y| :=
  le_log ((zpow_le_abs hx).trans h)

theorem ulp_pos (p : ℤ) (x : ℚ) : 0 < ulp p x := two_zpow_pos _

theorem ulp_eq (p : ℤ) (x : ℚ) : ulp p x = 2 ^ (Int.log 2 |x|) * 2 ^ (1 - p) := by
  rw [ulp, ← zadd]; congr 1; ring

theorem ulp_le {p : ℤ} {x : ℚ} (hx : x ≠ 0) : ulp p x ≤ |x| * 2 ^ (1 - p) := by
  rw [ulp_eq]; exact mul_le_mul_of_nonneg_right (zpow_le_abs hx) (two_zpow_pos _).le

@[simp] theorem round_zero (r : Rnd) (p : ℤ) : round r p 0 = 0 := by simp [round]

theorem round_of_ne (r : Rnd) (p : ℤ) {x : ℚ} (hx : x ≠ 0) :
    round r p x = r.toInt (x / ulp p x) * ulp p x := by simp [round, hx]

theorem round_sub_eq (r : Rnd) (p : ℤ) {x : ℚ} (hx : x ≠ 0) :
    round r p x - x = (r.toInt (x / ulp p x) - x / ulp p x) * ulp p x := by
  rw [round_of_ne r p hx]; have := (ulp_pos p x).ne'; field_simp

/-- Any rounding is off by less than one ulp. -/
theorem abs_round_sub_lt (r : Rnd) (p : ℤ) {x : ℚ} (hx : x ≠ 0) : |round r p x - x| < ulp p x := by
  rw [round_sub_eq r p hx, abs_mul, abs_of_pos (ulp_pos p x)]
  have := Rnd.abs_toInt_sub r (x / ulp p x)
  exact mul_lt_of_lt_one_left (ulp_pos p x) this

/-- Rounding to nearest is off by at most half an ulp. -/
theorem abs_round_near_sub_le (p : ℤ) {x : ℚ} (hx : x ≠ 0) : |round .near p x - x| ≤ ulp p x / 2 := by
  rw [round_sub_eq .near p hx, abs_mul, abs_of_pos (ulp_pos p x)]
  have := abs_nearInt_sub (x / ulp p x)
  have h2 := mul_le_mul_of_nonneg_right this (ulp_pos p x).le
  calc _ ≤ 1 / 2 * ulp p x := h2
    _ = _ := by ring

theorem half_ulp_le (p : ℤ) {x : ℚ} (hx : x ≠ 0) : ulp p x / 2 ≤ |x| * 2 ^ (-p) := by
  have := ulp_le (p := p) hx
  have h : (2 : ℚ) ^ (1 - p) = 2 * 2 ^ (-p) := by rw [sub_eq_add_neg, zadd]; norm_num
  rw [h] at this; linarith

/-- Relative error of rounding to nearest. -/
theorem abs_round_near_sub_le_rel (p : ℤ) (x : ℚ) : |round .near p x - x| ≤ |x| * 2 ^ (-p) := by
  by_cases hx : x = 0
  · subst hx; simp
  · exact (abs_round_near_sub_le p hx).trans (half_ulp_le p hx)

/-- Relative error of any rounding. -/
theorem abs_round_sub_le_rel (r : Rnd) (p : ℤ) (x : ℚ) : |round r p x - x| ≤ |x| * 2 ^ (1 - p) := by
  by_cases hx : x = 0
  · subst hx; simp
  · exact ((abs_round_sub_lt r p hx).trans_le (ulp_le hx)).le

/-- `x` can be written with `p` binary digits. -/
def Rep (p : ℕ) (x : ℚ) : Prop := ∃ m k : ℤ, |m| ≤ 2 ^ p ∧ x = m * 2 ^ k

theorem rep_zero (p : ℕ) : Rep p 0 := ⟨0, 0, by simp, by simp⟩

theorem Rep.neg {p : ℕ} {x : ℚ} (h : Rep p x) : Rep p (-x) := by
  obtain ⟨m, k, hm, rfl⟩ := h
  exact ⟨-m, k, by rwa [abs_neg], by push_cast; ring⟩

theorem Rep.mul_zpow {p : ℕ} {x : ℚ} (h : Rep p x) (e : ℤ) : Rep p (x * 2 ^ e) := by
  obtain ⟨m, k, hm, rfl⟩ := h
  exact ⟨m, k + e, hm, by rw [zadd]; ring⟩

theorem Rep.mono {p q : ℕ} (hpq : p ≤ q) {x : ℚ} (h : Rep p x) : Rep q x := by
  obtain ⟨m, k, hm, rfl⟩ := h
  exact ⟨m, k, hm.trans (pow_le_pow_right₀ (by norm_num) hpq), rfl⟩

theorem rep_zpow {p : ℕ} (k : ℤ) : Rep p (2 ^ k) :=
  ⟨1, k, by rw [abs_one]; exact one_le_pow₀ (by norm_num), by simp⟩

theorem int_of_zpow {a b : ℤ} (h : a ≤ b) : ∃ n : ℤ, (2 : ℚ) ^ b = n * 2 ^ a := by
  refine ⟨2 ^ (b - a).toNat, ?_⟩
  push_cast
  rw [← zpow_natCast, ← zadd]; congr 1; omega

/-- A number with `p` digits is a multiple of the ulp of every number that is not of larger magnitude. -/
theorem Rep.multiple {p : ℕ} (hp : 1 ≤ p) {z x : ℚ} (hz : Rep p z) (h : (2 : ℚ) ^ Int.log 2 |x| ≤ |z|) :
    ∃ n : ℤ, z = n * ulp p x := by
  obtain ⟨m, k, hm, rfl⟩ := hz
  have h2k := two_zpow_pos k
  rw [abs_mul, abs_of_pos h2k] at h
  have hmq : |(m : ℚ)| ≤ 2 ^ (p : ℤ) := by rw [zpow_natCast]; exact_mod_cast hm
  rcases lt_or_eq_of_le hm with hlt | heq
  · have hmq' : |(m : ℚ)| < 2 ^ (p : ℤ) := by rw [zpow_natCast]; exact_mod_cast hlt
    have : (2 : ℚ) ^ Int.log 2 |x| < 2 ^ ((p : ℤ) + k) := by
      rw [zadd]; exact lt_of_le_of_lt h (mul_lt_mul_of_pos_right hmq' h2k)
    have := zpow_lt_iff.1 this
    obtain ⟨n, hn⟩ := int_of_zpow (show Int.log 2 |x| + 1 - p ≤ k by omega)
    exact ⟨m * n, by rw [hn, ulp]; push_cast; ring⟩
  · have : (2 : ℚ) ^ Int.log 2 |x| ≤ 2 ^ ((p : ℤ) + k) := by
      rw [zadd]; exact h.trans (mul_le_mul_of_nonneg_right hmq h2k.le)
    have := zpow_le_iff.1 this
    obtain ⟨n, hn⟩ := int_of_zpow (show Int.log 2 |x| + 1 - p ≤ p + k by omega)
    have hm' : (m : ℚ) * 2 ^ k = (m.sign : ℚ) * 2 ^ ((p : ℤ) + k) := by
      have e1 : m = m.sign * |m| := (Int.sign_mul_abs m).symm
      rw [heq] at e1
      rw [zadd, zpow_natCast]
      calc (m : ℚ) * 2 ^ k = ((m.sign * 2 ^ p : ℤ) : ℚ) * 2 ^ k := by rw [← e1]
        _ = _ := by push_cast; ring
    exact ⟨m.sign * n, by rw [hm', hn, ulp]; push_cast; ring⟩

theorem round_eq_self (r : Rnd) {p : ℕ} (hp : 1 ≤ p) {x : ℚ} (h : Rep p x) : round r p x = x := by
  by_cases hx : x = 0
  · subst hx; simp
  · obtain ⟨n, hn⟩ := h.multiple hp (zpow_le_abs hx)
    rw [round_of_ne r p hx]
    have hu := (ulp_pos p x).ne'
    have : x / ulp p x = n := by rw [div_eq_iff hu]; exact hn
    rw [this, Rnd.toInt_int]; exact hn.symm

theorem rep_round (r : Rnd) {p : ℕ} (x : ℚ) : Rep p (round r p x) := by
  by_cases hx : x = 0
  · subst hx; simpa using rep_zero p
  · refine ⟨r.toInt (x / ulp p x), Int.log 2 |x| + 1 - p, ?_, round_of_ne r p hx⟩
    have hu := ulp_pos p x
    have hlt : |x / ulp p x| < 2 ^ p := by
      rw [abs_div, abs_of_pos hu, div_lt_iff₀ hu]
      calc |x| < 2 ^ (Int.log 2 |x| + 1) := abs_lt_zpow x
        _ = 2 ^ p * ulp p x := by rw [ulp, ← zpow_natCast, ← zadd]; congr 1; ring
    rw [abs_lt] at hlt
    have e1 : ((-2 ^ p : ℤ) : ℚ) ≤ x / ulp p x := by push_cast; exact hlt.1.le
    have e2 : x / ulp p x ≤ ((2 ^ p : ℤ) : ℚ) := by push_cast; exact hlt.2.le
    have f1 := Rnd.toInt_mono r e1
    have f2 := Rnd.toInt_mono r e2
    rw [Rnd.toInt_int] at f1 f2
    exact abs_le.2 ⟨f1, f2⟩

/-- Numbers with `p` digits are never crossed by rounding. -/
theorem le_round (r : Rnd) {p : ℕ} (hp : 1 ≤ p) {z x : ℚ} (hz : Rep p z) (h : z ≤ x) : z ≤ round r p x := by
  by_cases hx : x = 0
  · subst hx; simpa using h
  have hu := ulp_pos (p : ℤ) x
  -- it suffices to find a multiple of the ulp between
  suffices ∃ n : ℤ, z ≤ n * ulp p x ∧ n * ulp p x ≤ x by
    obtain ⟨n, h1, h2⟩ := this
    refine h1.trans ?_
    rw [round_of_ne r p hx]
    have : (n : ℚ) ≤ x / ulp p x := by rwa [le_div_iff₀ hu]
    have := Rnd.toInt_mono r this
    rw [Rnd.toInt_int] at this
    exact mul_le_mul_of_nonneg_right (by exact_mod_cast this) hu.le
  by_cases hm : (2 : ℚ) ^ Int.log 2 |x| ≤ |z|
  · obtain ⟨n, hn⟩ := hz.multiple hp hm
    exact ⟨n, hn.le, hn ▸ h⟩
  · push Not at hm
    have hxa := zpow_le_abs hx
    have hx0 : 0 < x := by
      by_contra hneg
      push Not at hneg
      rw [abs_of_nonpos hneg] at hxa hm
      rw [abs_of_nonpos (h.trans hneg)] at hm
      linarith
    rw [abs_of_pos hx0] at hxa hm
    obtain ⟨n, hn⟩ := int_of_zpow (show Int.log 2 |x| + 1 - p ≤ Int.log 2 |x| by omega)
    rw [abs_of_pos hx0] at hn
    refine ⟨n, ?_, ?_⟩
    · rw [ulp, abs_of_pos hx0, ← hn]; exact (le_abs_self z).trans hm.le
    · rw [ulp, abs_of_pos hx0, ← hn]; exact hxa

end Arf

/-- The rounding direction seen from the other side of zero. -/
def Rnd.mirror : Rnd → Rnd
  | .floor => .ceil
  | .ceil => .floor
  | r => r

theorem nearInt_neg (y : ℚ) : nearInt (-y) = - nearInt y := by
  by_cases hi : ∃ n : ℤ, y = n
  · obtain ⟨n, rfl⟩ := hi
    rw [← Int.cast_neg, nearInt_int, nearInt_int]
  · have hne : (⌊y⌋ : ℚ) ≠ y := fun h => hi ⟨_, h.symm⟩
    have h0 : (⌊y⌋ : ℚ) < y := lt_of_le_of_ne (Int.floor_le y) hne
    have h1 := Int.lt_floor_add_one y
    have hf : ⌊-y⌋ = -⌊y⌋ - 1 := by
      rw [Int.floor_eq_iff]; push_cast; constructor <;> linarith
    unfold nearInt
    rw [hf]; push_cast
    split_ifs <;> first | omega | (exfalso; linarith) | skip

theorem Rnd.toInt_neg (r : Rnd) {y : ℚ} : r.toInt (-y) = - r.mirror.toInt y := by
  cases r
  · by_cases h : y = 0
    · subst h; simp [toInt, mirror]
    rcases lt_or_gt_of_ne h with h | h
    · simp [toInt, mirror, h.le, h.not_ge, Int.floor_neg]
    · simp [toInt, mirror, h.le, h.not_ge, Int.ceil_neg]
  · by_cases h : y = 0
    · subst h; simp [toInt, mirror]
    rcases lt_or_gt_of_ne h with h | h
    · simp [toInt, mirror, h.le, h.not_ge, Int.ceil_neg]
    · simp [toInt, mirror, h.le, h.not_ge, Int.floor_neg]
  · simp [toInt, mirror, Int.floor_neg]
  · simp [toInt, mirror, Int.ceil_neg]
  · exact nearInt_neg y

namespace Arf

theorem ulp_neg (p : ℤ) (x : ℚ) : ulp p (-x) = ulp p x := by simp [ulp]

theorem round_neg (r : Rnd) (p : ℤ) (x : ℚ) : round r p (-x) = - round r.mirror p x := by
  by_cases hx : x = 0
  · subst hx; simp
  · rw [round_of_ne _ _ (neg_ne_zero.2 hx), round_of_ne _ _ hx, ulp_neg, neg_div, Rnd.toInt_neg]
    push_cast; ring

theorem round_le (r : Rnd) {p : ℕ} (hp : 1 ≤ p) {z x : ℚ} (hz : Rep p z) (h : x ≤ z) : round r p x ≤ z := by
  have := le_round r.mirror hp hz.neg (neg_le_neg h)
  rw [round_neg] at this
  have e : r.mirror.mirror = r := by cases r <;> rfl
  rw [e] at this; linarith

theorem round_mono (r : Rnd) {p : ℕ} (hp : 1 ≤ p) {x y : ℚ} (h : x ≤ y) : round r p x ≤ round r p y := by
  by_cases hx : x = 0
  · subst hx; rw [round_zero]; exact le_round r hp (rep_zero p) h
  by_cases hy : y = 0
  · subst hy; rw [round_zero]; exact round_le r hp (rep_zero p) h
  by_cases hl : Int.log 2 |x| = Int.log 2 |y|
  · rw [round_of_ne _ _ hx, round_of_ne _ _ hy]
    have : ulp p x = ulp p y := by rw [ulp, ulp, hl]
    rw [this]
    have hu := ulp_pos (p : ℤ) y
    refine mul_le_mul_of_nonneg_right ?_ hu.le
    exact_mod_cast Rnd.toInt_mono r (div_le_div_of_nonneg_right h hu.le)
  · -- a power of two with sign lies between
    rcases lt_or_gt_of_ne hx with hx0 | hx0
    · rcases lt_or_gt_of_ne hy with hy0 | hy0
      · have hlt : Int.log 2 |y| < Int.log 2 |x| := by
          refine lt_of_le_of_ne (log_mono hy ?_) (Ne.symm hl)
          rw [abs_of_neg hx0, abs_of_neg hy0]; linarith
        have hz : Rep p (-(2 : ℚ) ^ (Int.log 2 |x|)) := (rep_zpow _).neg
        refine (round_le r hp hz ?_).trans (le_round r hp hz ?_)
        · have := zpow_le_abs hx; nth_rewrite 2 [abs_of_neg hx0] at this; linarith
        · have := (abs_lt_zpow y).trans_le (zpow_mono hlt)
          rw [abs_of_neg hy0] at this
          rw [← abs_of_neg hy0] at this
          have h3 := neg_abs_le y
          linarith
      · exact (round_le r hp (rep_zero p) hx0.le).trans (le_round r hp (rep_zero p) hy0.le)
    · have hy0 : 0 < y := lt_of_lt_of_le hx0 h
      have hlt : Int.log 2 |x| < Int.log 2 |y| := by
        refine lt_of_le_of_ne (log_mono hx ?_) hl
        rw [abs_of_pos hx0, abs_of_pos hy0]; linarith
      have hz : Rep p ((2 : ℚ) ^ (Int.log 2 |y|)) := rep_zpow _
      refine (round_le r hp hz ?_).trans (le_round r hp hz ?_)
      · exact ((le_abs_self x).trans (abs_lt_zpow x).le).trans (zpow_mono hlt)
      · have := zpow_le_abs hy; rwa [abs_of_pos hy0] at this ⊢

theorem round_floor_le (p : ℤ) (x : ℚ) : round .floor p x ≤ x := by
  by_cases hx : x = 0
  · subst hx; simp
  · have h := round_sub_eq .floor p hx
    have h1 : ((Rnd.toInt .floor (x / ulp p x) : ℤ) : ℚ) - x / ulp p x ≤ 0 := by
      have := Int.floor_le (x / ulp p x); simp only [Rnd.toInt]; linarith
    have h2 := mul_nonpos_of_nonpos_of_nonneg h1 (ulp_pos p x).le
    linarith

theorem le_round_ceil (p : ℤ) (x : ℚ) : x ≤ round .ceil p x := by
  have := round_floor_le p (-x)
  rw [round_neg] at this
  simp only [Rnd.mirror] at this; linarith

theorem abs_round_down (p : ℤ) (x : ℚ) : |round .down p x| ≤ |x| := by
  by_cases hx : x = 0
  · subst hx; simp
  have hu := ulp_pos p x
  have key : ∀ y : ℚ, |((Rnd.toInt .down y : ℤ) : ℚ)| ≤ |y| := by
    intro y
    simp only [Rnd.toInt]
    split_ifs with h
    · rw [abs_of_nonneg h, abs_of_nonneg (by exact_mod_cast Int.floor_nonneg.2 h)]; exact Int.floor_le y
    · push Not at h
      rw [abs_of_neg h, abs_of_nonpos (by exact_mod_cast (Int.ceil_le.2 (by push_cast; linarith) : ⌈y⌉ ≤ 0))]
      have := Int.le_ceil y; linarith
  rw [round_of_ne _ _ hx, abs_mul, abs_of_pos hu]
  calc _ ≤ |x / ulp p x| * ulp p x := mul_le_mul_of_nonneg_right (key _) hu.le
    _ = |x| := by rw [abs_div, abs_of_pos hu]; field_simp

theorem abs_round_up (p : ℤ) (x : ℚ) : |x| ≤ |round .up p x| := by
  by_cases hx : x = 0
  · subst hx; simp
  have hu := ulp_pos p x
  have key : ∀ y : ℚ, |y| ≤ |((Rnd.toInt .up y : ℤ) : ℚ)| := by
    intro y
    simp only [Rnd.toInt]
    split_ifs with h
    · rw [abs_of_nonneg h]; exact (Int.le_ceil y).trans (le_abs_self _)
    · push Not at h
      rw [abs_of_neg h]
      have := Int.floor_le y
      exact (by linarith : -y ≤ -(⌊y⌋ : ℚ)).trans (neg_le_abs _)
  rw [round_of_ne _ _ hx, abs_mul, abs_of_pos hu]
  calc |x| = |x / ulp p x| * ulp p x := by rw [abs_div, abs_of_pos hu]; field_simp
    _ ≤ _ := mul_le_mul_of_nonneg_right (key _) hu.le

end Arf

end ExactReal
