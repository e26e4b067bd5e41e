import Verif.Lemma.Double
import Verif.Lemma.Interval
import Verif.Props.Arf
import Verif.Props.Random
import Verif.Spec.Double
import Mathlib.NumberTheory.Real.Irrational

/-! # Rounding to doubles -/

namespace ExactReal.Double

open Arf

theorem NearestUpTo.mono {s t v : ℝ} {d : Double} (h : NearestUpTo s v d) (hst : s ≤ t) : NearestUpTo t v d := by
  cases d with
  | fin d => exact ⟨h.1, fun z hz => by have := h.2 z hz; linarith⟩
  | posInf => simp only [NearestUpTo] at h ⊢; linarith
  | negInf => simp only [NearestUpTo] at h ⊢; linarith

/-- Moving the number. -/
theorem NearestUpTo.move {s v w e : ℝ} {d : Double} (h : NearestUpTo s v d) (he : |w - v| ≤ e) : NearestUpTo (s + 2 * e) w d := by
  have he' := abs_le.1 he
  have h0 := (abs_nonneg _).trans he
  cases d with
  | fin d =>
    refine ⟨h.1, fun z hz => ?_⟩
    have h1 := h.2 z hz
    have h2 := abs_sub_le (d : ℝ) v w
    have h3 := abs_sub_le (z : ℝ) w v
    rw [abs_sub_comm v w] at h2
    linarith
  | posInf => simp only [NearestUpTo] at h ⊢; linarith [he'.1]
  | negInf => simp only [NearestUpTo] at h ⊢; linarith [he'.2]

theorem max_rep : IsRep (2 ^ 1024 - 2 ^ 971) := ⟨2 ^ 53 - 1, 971, by norm_num, by norm_num, by
  rw [show ((2 : ℚ) ^ (971 : ℤ)) = 2 ^ 971 from zpow_natCast 2 971]
  obtain ⟨e1, e2, -⟩ := Props.big_powers (K := ℚ)
  rw [e1, e2]; push_cast; ring⟩

theorem inf_bound_of {a b : ℚ} (hb : 2 ^ 1024 ≤ b) (h : |b - a| ≤ |2 ^ 1024 - 2 ^ 971 - a|) : 2 ^ 1024 - 2 ^ 970 ≤ a := by
  by_contra hlt
  push Not at hlt
  obtain ⟨e1, e2, e3⟩ := Props.big_powers (K := ℚ)
  rw [e1] at hb hlt
  rw [e1, e2] at h
  clear e1 e2
  generalize (2 : ℚ) ^ 970 = p at *
  have hp : (2 : ℚ) ^ 54 * p = 18014398509481984 * p := by norm_num
  rw [hp] at *
  rw [abs_of_nonneg (show 0 ≤ b - a by linarith)] at h
  by_cases hc : a ≤ 18014398509481984 * p - 2 * p
  · rw [abs_of_nonneg (by linarith)] at h
    linarith
  · rw [abs_of_nonpos (by linarith)] at h
    linarith

theorem inf_bound (a : ℚ) (ha : 2 ^ 1024 ≤ near a) : 2 ^ 1024 - 2 ^ 970 ≤ a := inf_bound_of ha (near_le_dist max_rep a)

theorem castR {a b : ℚ} (h : a ≤ b) : (a : ℝ) ≤ b := by exact_mod_cast h

-- A double that is nearest to `v` among all numbers of that precision
set_option maxRecDepth 20000 in
theorem nearestUpTo_of {a v : ℚ} (h1 : near a = a) (h2 : ∀ z, IsRep z → |a - v| ≤ |z - v|) : NearestUpTo 0 v (ofArf a) := by
  unfold ofArf
  rw [h1]
  by_cases c1 : 2 ^ 1024 ≤ a
  · rw [if_pos c1]
    have h' := castR (inf_bound_of c1 (h2 _ max_rep))
    rw [Rat.cast_sub, Rat.cast_pow, Rat.cast_pow, Rat.cast_ofNat] at h'
    show _ ≤ _
    rw [add_zero]; exact h'
  rw [if_neg c1]
  refine (Classical.em (a ≤ -2 ^ 1024)).elim (fun c2 => ?_) (fun c2 => ?_)
  · rw [if_pos c2]
    have h3 := h2 _ max_rep.neg
    have h4 : |(-a) - (-v)| ≤ |2 ^ 1024 - 2 ^ 971 - (-v)| := by
      generalize (2 : ℚ) ^ 1024 - 2 ^ 971 = M at h3 ⊢
      rw [← abs_neg (-a - -v), ← abs_neg (M - -v)]
      convert h3 using 2 <;> ring
    have h' := castR (inf_bound_of (le_neg_of_le_neg c2) h4)
    rw [Rat.cast_sub, Rat.cast_pow, Rat.cast_pow, Rat.cast_ofNat, Rat.cast_neg] at h'
    show _ ≤ _
    rw [sub_zero]; exact le_neg_of_le_neg h'
  · rw [if_neg c2]
    refine ⟨⟨h1 ▸ isRep_near a, abs_lt.2 ⟨not_le.1 c2, not_le.1 c1⟩⟩, fun z hz => ?_⟩
    rw [add_zero]
    exact_mod_cast h2 z hz

/-- `ofArf` rounds correctly. -/
theorem ofArf_nearest (a : ℚ) : NearestUpTo 0 a (ofArf a) := by
  have h := nearestUpTo_of (a := near a) (v := a) (near_eq_self (isRep_near a)) (fun z hz => near_le_dist hz a)
  unfold ofArf at *
  rwa [near_eq_self (isRep_near a)] at h

theorem closer_convex {d z a b v : ℝ} (h1 : a ≤ v) (h2 : v ≤ b) (ha : |d - a| ≤ |z - a|) (hb : |d - b| ≤ |z - b|) : |d - v| ≤ |z - v| := by
  rw [← sq_le_sq] at *
  -- the difference is an affine function of the point
  have key : ∀ w : ℝ, (z - w) ^ 2 - (d - w) ^ 2 = (z - d) * (z + d - 2 * w) := fun w => by ring
  have ka := key a
  have kb := key b
  have kv := key v
  rcases le_total 0 (z - d) with h | h
  · have : (z - d) * (z + d - 2 * b) ≤ (z - d) * (z + d - 2 * v) := mul_le_mul_of_nonneg_left (by linarith) h
    linarith
  · have : (z - d) * (z + d - 2 * a) ≤ (z - d) * (z + d - 2 * v) := mul_le_mul_of_nonpos_left (by linarith) h
    linarith

/-- If two bounds are rounded to the same double then all numbers between them are. -/
theorem nearest_between {lo hi : ℚ} {d : Double} (h1 : ofArf lo = d) (h2 : ofArf hi = d) {v : ℝ} (h3 : lo ≤ v) (h4 : v ≤ hi) : NearestUpTo 0 v d := by
  have n1 := ofArf_nearest lo
  have n2 := ofArf_nearest hi
  rw [h1] at n1
  rw [h2] at n2
  cases d with
  | fin d => exact ⟨n1.1, fun z hz => by
      have k1 := n1.2 z hz
      have k2 := n2.2 z hz
      rw [add_zero] at *
      exact closer_convex h3 h4 k1 k2⟩
  | posInf => simp only [NearestUpTo] at *; linarith
  | negInf => simp only [NearestUpTo] at *; linarith

/-- The same for numbers that are almost between them. -/
theorem nearest_almost {lo hi : ℚ} (hle : lo ≤ hi) {d : Double} (h1 : ofArf lo = d) (h2 : ofArf hi = d) {v e : ℝ} (he : 0 ≤ e) (h3 : lo - e ≤ v)
    (h4 : v ≤ hi + e) : NearestUpTo (2 * e) v d := by
  have hle' : (lo : ℝ) ≤ hi := by exact_mod_cast hle
  obtain ⟨w, w1, w2, w3⟩ : ∃ w : ℝ, lo ≤ w ∧ w ≤ hi ∧ |v - w| ≤ e := by
    rcases le_total v lo with h | h
    · exact ⟨lo, le_rfl, hle', by rw [abs_le]; constructor <;> linarith⟩
    · rcases le_total v hi with h' | h'
      · exact ⟨v, h, h', by simpa using he⟩
      · exact ⟨hi, hle', le_rfl, by rw [abs_le]; constructor <;> linarith⟩
  have := (nearest_between h1 h2 w1 w2).move w3
  rwa [zero_add] at this

theorem nearInt_of_close {y : ℚ} {m : ℤ} (h : |y - m| < 1 / 2) : nearInt y = m := by
  have h1 := abs_nearInt_sub y
  have h2 := abs_sub_le (nearInt y : ℚ) y m
  have h3 : |((nearInt y - m : ℤ) : ℚ)| < 1 := by push_cast; linarith
  have h4 : |nearInt y - m| < 1 := by exact_mod_cast h3
  have := Int.abs_lt_one_iff.1 h4
  omega

/-- Near a number that is not a floating point number (of any precision) all numbers are rounded to the same double. -/
theorem ofArf_locally_constant {y : ℝ} (hy : ∀ q : ℚ, Dyadic q → y ≠ q) : ∃ ε > 0, ∃ d, ∀ q : ℚ, |(q : ℝ) - y| < ε → ofArf q = d := by
  have hy0 : 0 < |y| := abs_pos.2 (by simpa using hy 0 ⟨0, 0, by simp⟩)
  set k := Int.log 2 |y|
  have hk1 : (2 : ℝ) ^ k < |y| := by
    refine lt_of_le_of_ne (Int.zpow_log_le_self (by norm_num) hy0) fun h => ?_
    rcases abs_choice y with h' | h' <;> rw [h'] at h
    · exact hy (2 ^ k) ⟨1, k, by simp⟩ (by push_cast; exact h.symm)
    · exact hy (-2 ^ k) ⟨-1, k, by simp⟩ (by push_cast; linarith)
  have hk2 : |y| < (2 : ℝ) ^ (k + 1) := Int.lt_zpow_succ_log_self (by norm_num) _
  set u : ℚ := 2 ^ max (k - 52) (-1074) with hu
  have hu0 : 0 < u := two_zpow_pos _
  have huR : (0 : ℝ) < u := by exact_mod_cast hu0
  set m := round (y / u) with hm
  have hm1 : |y / u - m| < 1 / 2 := by
    refine lt_of_le_of_ne (abs_sub_round _) fun h => ?_
    have key : ∀ c : ℤ, y / u - m = c / 2 → False := fun c hc => by
      refine hy ((2 * m + c : ℤ) * 2 ^ (max (k - 52) (-1074) - 1)) ⟨_, _, rfl⟩ ?_
      have hu2 : (u : ℝ) = 2 * 2 ^ (max (k - 52) (-1074) - 1) := by
        rw [hu, ← zpow_one_add₀ (by norm_num)]; push_cast; congr 1; ring
      rw [div_sub' huR.ne', div_eq_iff huR.ne'] at hc
      push_cast
      have : y = (m + c / 2) * u := by linarith
      rw [this, hu2]; ring
    rcases abs_choice (y / u - m) with h' | h' <;> rw [h'] at h
    · exact key 1 (by rw [h]; norm_num)
    · exact key (-1) (by push_cast; linarith)
  set ε := min (min (|y| - 2 ^ k) (2 ^ (k + 1) - |y|)) (u * (1 / 2 - |y / u - m|)) with hε
  have e1 : ε ≤ |y| - 2 ^ k := (min_le_left _ _).trans (min_le_left _ _)
  have e2 : ε ≤ 2 ^ (k + 1) - |y| := (min_le_left _ _).trans (min_le_right _ _)
  have e3 : ε ≤ u * (1 / 2 - |y / u - m|) := min_le_right _ _
  refine ⟨ε, lt_min (lt_min (by linarith) (by linarith)) (mul_pos huR (by linarith)), ofArf (m * u), fun q hq => ?_⟩
  have q1 : (2 : ℝ) ^ k < |(q : ℝ)| := by
    have := abs_sub_abs_le_abs_sub y (q : ℝ)
    rw [abs_sub_comm] at this; linarith
  have q2 : |(q : ℝ)| < 2 ^ (k + 1) := by
    have := abs_sub_abs_le_abs_sub (q : ℝ) y
    linarith
  have hlog : Int.log 2 |q| = k := by
    apply log_eq
    · have h : ((2 ^ k : ℚ) : ℝ) ≤ ((|q| : ℚ) : ℝ) := by push_cast; exact q1.le
      exact_mod_cast h
    · have h : ((|q| : ℚ) : ℝ) < ((2 ^ (k + 1) : ℚ) : ℝ) := by push_cast; exact q2
      exact_mod_cast h
  have hq0 : q ≠ 0 := by
    rintro rfl
    have := zposR k
    rw [Rat.cast_zero, abs_zero] at q1; linarith
  have hqm : |q / u - m| < 1 / 2 := by
    have : |(q : ℝ) / u - m| < 1 / 2 := by
      have h1 := abs_sub_le ((q : ℝ) / u) (y / u) m
      have h2 : |(q : ℝ) / u - y / u| < 1 / 2 - |y / u - m| := by
        rw [← sub_div, abs_div, abs_of_pos huR, div_lt_iff₀ huR, mul_comm]
        linarith
      linarith
    have h : ((|q / u - m| : ℚ) : ℝ) < ((1 / 2 : ℚ) : ℝ) := by push_cast; exact this
    exact_mod_cast h
  have hnear : near q = m * u := by
    rw [near_of_ne hq0, ulp, hlog, ← hu, nearInt_of_close hqm]
  have hself : near (m * u) = m * u := by rw [← hnear]; exact near_eq_self (isRep_near q)
  unfold ofArf
  rw [hnear, hself]

/-- Rounding to 53 bits first is harmless for numbers that are not subnormal. -/
theorem ofArf_round53 {q : ℚ} (hq : 2 ^ (-1022 : ℤ) ≤ |q|) : NearestUpTo 0 q (ofArf (Arf.round .near 53 q)) := by
  have hq0 : q ≠ 0 := by rintro rfl; have := two_zpow_pos (-1022); rw [abs_zero] at hq; linarith
  have hlog := le_log hq
  set a := Arf.round .near 53 q with ha
  have hrep : IsRep a := by
    obtain ⟨m, k, hm, hk⟩ := rep_round .near (p := 53) q
    have e : a = Rnd.near.toInt (q / Arf.ulp 53 q) * Arf.ulp 53 q := round_of_ne _ _ hq0
    refine ⟨Rnd.near.toInt (q / Arf.ulp 53 q), Int.log 2 |q| + 1 - 53, ?_, by omega, e⟩
    have hup := Arf.ulp_pos 53 q
    have h1 : |q / Arf.ulp 53 q| ≤ ((2 ^ 53 : ℤ) : ℚ) := by
      rw [abs_div, abs_of_pos hup, div_le_iff₀ hup, Arf.ulp]
      rw [Int.cast_pow, Int.cast_ofNat, show (2 : ℚ) ^ 53 = 2 ^ (53 : ℤ) from (zpow_natCast 2 53).symm, ← zadd]
      refine (abs_lt_zpow q).le.trans (le_of_eq ?_)
      congr 1; ring
    rw [abs_le] at h1 ⊢
    constructor
    · have := Rnd.toInt_mono .near h1.1
      rw [← Int.cast_neg, Rnd.toInt_int] at this; exact this
    · have := Rnd.toInt_mono .near h1.2
      rwa [Rnd.toInt_int] at this
  exact nearestUpTo_of (near_eq_self hrep) fun z hz => Props.arf_round_nearest (prec := 53) (by norm_num) q z hz.rep

end ExactReal.Double
