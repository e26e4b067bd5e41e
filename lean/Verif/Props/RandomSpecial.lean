import Verif.Model.RandomSpecial
import Verif.Props.Random
import Verif.Props.ArfSpecial

/-!
# C41, C52: random numbers for infinite bounds and for the largest double
-/

namespace ExactReal.Props

open Arf

variable (gen : Generators)

/-- A generator for the examples that ignores the sign of the length like the one of GMP. -/
def GmpRandomLike : Generators where
  digits _ := ⟨fun _ => true, 0, rfl⟩
  urandomm _ n := |n - 1|
  urandomm_range _ n hn := by rw [abs_of_nonneg (by omega)]; constructor <;> omega

namespace RandomSpecialLemma

theorem shift (m a b : ℤ) (hab : b < a) : ((m * 2 ^ (a - b).toNat : ℤ) : ℚ) * 2 ^ b = m * 2 ^ a := by
  push_cast
  rw [← zpow_natCast, Int.toNat_of_nonneg (by omega), _root_.mul_assoc, ← zadd]; congr 2; ring

/-- After the exponents have been aligned. -/
theorem randomInX_aligned {asserts : Bool} {lower upper : XArf} (h01 : ¬ (lower = .fin 0 ∧ upper = .fin 1)) (hlt : lower.lt upper = true) (seed : UInt32) :
    ∃ lm um e : ℤ, (lm : ℚ) * 2 ^ e = lower.mantissa * 2 ^ lower.exponent ∧ (um : ℚ) * 2 ^ e = upper.mantissa * 2 ^ upper.exponent ∧
      randomInX gen asserts lower upper seed = if asserts && um - lm ≤ 0 then .abort else if um - lm = 0 then .abort
        else .ok (.constrained (gen.urandomm seed (um - lm) + lm) e (gen.digits seed)) := by
  unfold randomInX
  rw [if_neg (by simpa [XArf.eqLong] using h01), if_neg (by simp [XArf.ge, hlt])]
  simp only
  rcases lt_trichotomy lower.exponent upper.exponent with h | h | h
  · rw [if_pos h]
    simp only [lt_self_iff_false, if_false]
    exact ⟨_, _, _, rfl, shift _ _ _ h, rfl⟩
  · rw [if_neg (show ¬ lower.exponent < upper.exponent by omega)]
    simp only [h, lt_self_iff_false, if_false]
    exact ⟨lower.mantissa, upper.mantissa, upper.exponent, rfl, rfl, rfl⟩
  · rw [if_neg (show ¬ lower.exponent < upper.exponent by omega)]
    simp only [h, if_true]
    exact ⟨_, _, _, shift _ _ _ h, rfl, rfl⟩

end RandomSpecialLemma

open RandomSpecialLemma

/-- **C41**: for finite bounds the code does what `randomIn` says, in all builds; the assertion never fails. -/
theorem random_bounds_finite {lower upper : ℚ} (hl : Dyadic lower) (hu : Dyadic upper) (asserts : Bool) (seed : UInt32) :
    randomInX gen asserts (.fin lower) (.fin upper) seed = randomIn gen lower upper seed := by
  have hge : (XArf.fin lower).ge (.fin upper) = decide (upper ≤ lower) := by
    show (!decide ((if lower < upper then (-1 : ℤ) else if upper < lower then 1 else 0) < 0)) = _
    by_cases h : upper ≤ lower
    · rw [if_neg (not_lt.2 h)]; by_cases h' : upper < lower <;> simp [h, h']
    · rw [if_pos (not_le.1 h)]; simp [h]
  have h01 : ((XArf.fin lower).eqLong 0 && (XArf.fin upper).eqLong 1) = decide (lower = 0 ∧ upper = 1) := by
    simp [XArf.eqLong, Bool.decide_and]
  unfold randomInX randomIn
  rw [hge, h01, show (XArf.fin lower).mantissa = mantissa lower from rfl, show (XArf.fin upper).mantissa = mantissa upper from rfl,
    show (XArf.fin lower).exponent = exponent lower from rfl, show (XArf.fin upper).exponent = exponent upper from rfl]
  simp only [decide_eq_true_eq]
  by_cases c1 : lower = 0 ∧ upper = 1
  · rw [if_pos c1, if_pos c1]
  rw [if_neg c1, if_neg c1]
  by_cases c2 : upper ≤ lower
  · rw [if_pos c2, if_pos c2]
  rw [if_neg c2, if_neg c2]
  push Not at c2
  have key : ∀ (um lm e : ℤ), (lm : ℚ) * 2 ^ e = lower → (um : ℚ) * 2 ^ e = upper → 0 < um - lm := by
    intro um lm e h1 h2
    have : (lm : ℚ) * 2 ^ e < um * 2 ^ e := by rw [h1, h2]; exact c2
    have : lm < um := by exact_mod_cast lt_of_mul_lt_mul_right this (two_zpow_pos e).le
    omega
  have fin : ∀ (um lm e : ℤ), (lm : ℚ) * 2 ^ e = lower → (um : ℚ) * 2 ^ e = upper →
      (if (asserts && decide (um - lm ≤ 0)) = true then Out.abort else if um - lm = 0 then Out.abort
        else Out.ok (Atom.constrained (gen.urandomm seed (um - lm) + lm) e (gen.digits seed))) =
      Out.ok (Atom.constrained (gen.urandomm seed (um - lm) + lm) e (gen.digits seed)) := by
    intro um lm e h1 h2
    have := key um lm e h1 h2
    rw [if_neg (by simp; intro; omega), if_neg (by omega)]
  rcases lt_trichotomy (exponent lower) (exponent upper) with h | h | h
  · simp only [if_pos h, lt_self_iff_false, if_false]
    exact fin _ _ _ (mantissa_mul hl) (by rw [shift _ _ _ h, mantissa_mul hu])
  · simp only [h, lt_self_iff_false, if_false]
    exact fin _ _ _ (h ▸ mantissa_mul hl) (mantissa_mul hu)
  · simp only [if_neg (show ¬ exponent lower < exponent upper by omega), if_pos h]
    exact fin _ _ _ (by rw [shift _ _ _ h, mantissa_mul hl]) (mantissa_mul hu)

/-- **C41**: bounds that are not in order are rejected, also infinite ones and NaN. -/
theorem random_bounds_rejected {lower upper : XArf} (h : lower = .nan ∨ upper = .nan ∨ upper.ereal ≤ lower.ereal) (asserts : Bool) (seed : UInt32) :
    randomInX gen asserts lower upper seed = .throws .logicError := by
  have hge : lower.ge upper = true := by
    by_cases hl : lower = .nan
    · subst hl; exact (arf_order_nan upper).2.2.2.2.2.2.1
    by_cases hu : upper = .nan
    · subst hu; exact (arf_order_nan lower).2.2.2.2.2.2.2
    have := h.resolve_left hl |>.resolve_left hu
    exact (arf_order hl hu).2.2.2.2.2.2 this
  unfold randomInX
  have : ¬ (lower = .fin 0 ∧ upper = .fin 1) := by
    rintro ⟨rfl, rfl⟩
    simp [XArf.ge, XArf.lt, XArf.cmp] at hge
  rw [if_neg (by simpa [XArf.eqLong] using this), if_pos hge]

/-- **C41**, infinite bounds: if the interval contains numbers of both signs the result is in the interval. -/
theorem random_infinite_partial (asserts : Bool) (seed : UInt32) {b : ℚ} (hb : Dyadic b) :
    (0 < b → ∃ a, randomInX gen asserts .negInf (.fin b) seed = .ok a ∧ 0 < a.value ∧ a.value < b) ∧
    (b < 0 → ∃ a, randomInX gen asserts (.fin b) .posInf seed = .ok a ∧ (b : ℝ) < a.value ∧ a.value < 0) := by
  have hv0 := (gen.digits seed).value_pos
  have hv1 := (gen.digits seed).value_le_one
  constructor
  · intro h0
    obtain ⟨lm, um, e, h1, h2, hr⟩ := randomInX_aligned gen (asserts := asserts) (lower := .negInf) (upper := .fin b) (by simp) rfl seed
    simp only [XArf.mantissa, XArf.exponent, Int.cast_zero, zero_mul] at h1 h2
    rw [mantissa_mul hb] at h2
    have hp := two_zpow_pos e
    have hlm : lm = 0 := by
      rcases mul_eq_zero.1 h1 with h | h
      · exact_mod_cast h
      · exact absurd h hp.ne'
    subst hlm
    have hum : 0 < um := by
      have : (0 : ℚ) < um := by
        by_contra hc; push Not at hc
        have := mul_nonpos_of_nonpos_of_nonneg hc hp.le
        linarith
      exact_mod_cast this
    rw [if_neg (by simp; intro; omega), if_neg (by omega)] at hr
    obtain ⟨r0, r1⟩ := gen.urandomm_range seed (um - 0) (by omega)
    refine ⟨_, hr, ?_⟩
    rw [Atom.value]
    have hp' := zposR e; have hq := zposR (e - 1); have hh := two_halves e
    have hb' : (um : ℝ) * 2 ^ e = b := by rw [← h2]; push_cast; rfl
    have e0 : (0 : ℝ) ≤ ((gen.urandomm seed (um - 0) + 0 : ℤ) : ℝ) := by exact_mod_cast (by omega : (0:ℤ) ≤ gen.urandomm seed (um - 0) + 0)
    have e1 : ((gen.urandomm seed (um - 0) + 0 : ℤ) : ℝ) + 1 ≤ um := by exact_mod_cast (by omega : gen.urandomm seed (um - 0) + 0 + 1 ≤ um)
    have f0 := mul_nonneg e0 hp'.le
    have f1 := mul_le_mul_of_nonneg_right e1 hp'.le
    have g0 := mul_pos hv0 hq
    have g1 := mul_le_mul_of_nonneg_right hv1 hq.le
    constructor <;> linarith
  · intro h0
    obtain ⟨lm, um, e, h1, h2, hr⟩ := randomInX_aligned gen (asserts := asserts) (lower := .fin b) (upper := .posInf) (by simp) rfl seed
    simp only [XArf.mantissa, XArf.exponent, Int.cast_zero, zero_mul] at h1 h2
    rw [mantissa_mul hb] at h1
    have hp := two_zpow_pos e
    have hum : um = 0 := by
      rcases mul_eq_zero.1 h2 with h | h
      · exact_mod_cast h
      · exact absurd h hp.ne'
    subst hum
    have hlm : lm < 0 := by
      have : (lm : ℚ) < 0 := by
        by_contra hc; push Not at hc
        have := mul_nonneg hc hp.le
        linarith
      exact_mod_cast this
    rw [if_neg (by simp; intro; omega), if_neg (by omega)] at hr
    obtain ⟨r0, r1⟩ := gen.urandomm_range seed (0 - lm) (by omega)
    refine ⟨_, hr, ?_⟩
    rw [Atom.value]
    have hp' := zposR e; have hq := zposR (e - 1); have hh := two_halves e
    have hb' : (lm : ℝ) * 2 ^ e = b := by rw [← h1]; push_cast; rfl
    have e0 : (lm : ℝ) ≤ ((gen.urandomm seed (0 - lm) + lm : ℤ) : ℝ) := by exact_mod_cast (by omega : lm ≤ gen.urandomm seed (0 - lm) + lm)
    have e1 : ((gen.urandomm seed (0 - lm) + lm : ℤ) : ℝ) + 1 ≤ 0 := by exact_mod_cast (by omega : gen.urandomm seed (0 - lm) + lm + 1 ≤ 0)
    have f0 := mul_le_mul_of_nonneg_right e0 hp'.le
    have f1 := mul_le_mul_of_nonneg_right e1 hp'.le
    have g0 := mul_pos hv0 hq
    have g1 := mul_le_mul_of_nonneg_right hv1 hq.le
    constructor <;> linarith

/-- **C41**, infinite bounds: otherwise it fails (finding F39).  If one bound is infinite and the other one is zero or both are infinite, the process ends.  A lower bound -∞ with a negative
upper bound fails an assertion, and without assertions the result is positive, for generators that (like the one of GMP) never return a negative number. -/
theorem random_infinite_fails (asserts : Bool) (seed : UInt32) :
    randomInX gen asserts (.fin 0) .posInf seed = .abort ∧ randomInX gen asserts .negInf (.fin 0) seed = .abort ∧
    randomInX gen asserts .negInf .posInf seed = .abort ∧
    ∀ b : ℚ, Dyadic b → b < 0 → randomInX gen true .negInf (.fin b) seed = .abort ∧ randomInX gen true (.fin (-b)) .posInf seed = .abort ∧
      ∃ a, randomInX gen false .negInf (.fin b) seed = .ok a ∧ ((∀ n, 0 ≤ gen.urandomm seed n) → 0 < a.value) := by
  have m0 : Arf.mantissa 0 = 0 := by decide +kernel
  have e0 : Arf.exponent 0 = 0 := by decide +kernel
  refine ⟨?_, ?_, ?_, fun b hb h0 => ⟨?_, ?_, ?_⟩⟩
  · cases asserts <;> simp [randomInX, XArf.eqLong, XArf.ge, XArf.lt, XArf.cmp, XArf.mantissa, XArf.exponent, m0, e0]
  · cases asserts <;> simp [randomInX, XArf.eqLong, XArf.ge, XArf.lt, XArf.cmp, XArf.mantissa, XArf.exponent, m0, e0]
  · cases asserts <;> simp [randomInX, XArf.eqLong, XArf.ge, XArf.lt, XArf.cmp, XArf.mantissa, XArf.exponent]
  · obtain ⟨lm, um, e, h1, h2, hr⟩ := randomInX_aligned gen (asserts := true) (lower := .negInf) (upper := .fin b) (by simp) rfl seed
    simp only [XArf.mantissa, XArf.exponent, Int.cast_zero, zero_mul] at h1 h2
    rw [mantissa_mul hb] at h2
    rw [hr, if_pos]
    have : um - lm ≤ 0 := by
      have : (um : ℚ) * 2 ^ e ≤ lm * 2 ^ e := by rw [h1, h2]; exact h0.le
      have : um ≤ lm := by exact_mod_cast le_of_mul_le_mul_right this (two_zpow_pos e)
      omega
    simpa using this
  · obtain ⟨lm, um, e, h1, h2, hr⟩ := randomInX_aligned gen (asserts := true) (lower := .fin (-b)) (upper := .posInf) (by simp) rfl seed
    simp only [XArf.mantissa, XArf.exponent, Int.cast_zero, zero_mul] at h1 h2
    have hb' : Dyadic (-b) := by obtain ⟨m, k, rfl⟩ := hb; exact ⟨-m, k, by push_cast; ring⟩
    rw [mantissa_mul hb'] at h1
    rw [hr, if_pos]
    have : um - lm ≤ 0 := by
      have : (um : ℚ) * 2 ^ e ≤ lm * 2 ^ e := by rw [h1, h2]; linarith
      have : um ≤ lm := by exact_mod_cast le_of_mul_le_mul_right this (two_zpow_pos e)
      omega
    simpa using this
  · obtain ⟨lm, um, e, h1, h2, hr⟩ := randomInX_aligned gen (asserts := false) (lower := .negInf) (upper := .fin b) (by simp) rfl seed
    simp only [XArf.mantissa, XArf.exponent, Int.cast_zero, zero_mul] at h1 h2
    rw [mantissa_mul hb] at h2
    have hp := two_zpow_pos e
    have hlm : lm = 0 := by
      rcases mul_eq_zero.1 h1 with h | h
      · exact_mod_cast h
      · exact absurd h hp.ne'
    subst hlm
    have hum : um ≠ 0 := by rintro rfl; simp at h2; linarith
    rw [if_neg (by simp), if_neg (by omega)] at hr
    refine ⟨_, hr, fun hg => ?_⟩
    rw [Atom.value]
    have hq := zposR (e - 1); have hp' := zposR e
    have hv0 := (gen.digits seed).value_pos
    have e0 : (0 : ℝ) ≤ ((gen.urandomm seed (um - 0) + 0 : ℤ) : ℝ) := by
      have := hg (um - 0)
      exact_mod_cast (by omega : (0:ℤ) ≤ gen.urandomm seed (um - 0) + 0)
    have f0 := mul_nonneg e0 hp'.le
    have g0 := mul_pos hv0 hq
    linarith

/-! ### C52 -/

namespace RandomSpecialLemma

/-- A bound that is closer to the double `x` than to any other double is rounded to `x`. -/
theorem ofArf_near {x b : ℚ} (hx : Double.IsFinite x) (h : ∀ z, Double.IsRep z → z ≠ x → |x - b| < |z - b|) : Double.ofArf b = .fin x := by
  have hn : Double.near b = x := by
    by_contra hne
    have h1 := h _ (Double.isRep_near b) hne
    have h2 := Double.near_le_dist hx.1 b
    linarith
  have := abs_lt.1 hx.2
  unfold Double.ofArf
  rw [hn, if_neg (by linarith [this.2]), if_neg (by linarith [this.1])]

theorem bounds {x : ℚ} (hx : Double.IsFinite x) :
    (XArf.fin (nextDown x)).third x = .fin (round .near 64 (round .near 64 (nextDown x + 2 * x) / 3)) ∧
    (XArf.fin (nextUp x)).third x = .fin (round .near 64 (round .near 64 (nextUp x + 2 * x) / 3)) ∧
    Double.ofArf (round .near 64 (round .near 64 (nextDown x + 2 * x) / 3)) = .fin x ∧
    Double.ofArf (round .near 64 (round .near 64 (nextUp x + 2 * x) / 3)) = .fin x ∧
    Dyadic (round .near 64 (round .near 64 (nextDown x + 2 * x) / 3)) ∧ Dyadic (round .near 64 (round .near 64 (nextUp x + 2 * x) / 3)) ∧
    x - (x - nextDown x) / 2 < round .near 64 (round .near 64 (nextDown x + 2 * x) / 3) ∧
    round .near 64 (round .near 64 (nextDown x + 2 * x) / 3) < x ∧
    x < round .near 64 (round .near 64 (nextUp x + 2 * x) / 3) ∧
    round .near 64 (round .near 64 (nextUp x + 2 * x) / 3) < x + (nextUp x - x) / 2 := by
  obtain ⟨u1, u2, u3, u4⟩ := Double.nextUp_spec hx.1
  obtain ⟨d1, d2, d3, d4⟩ := nextDown_spec hx.1
  have h2x : round .near 64 (2 * x) = 2 * x := by
    refine round_eq_self .near (p := 64) (by norm_num) ?_
    have := (hx.1.rep.mono (show 53 ≤ 64 by norm_num)).mul_zpow 1
    rwa [zpow_one, _root_.mul_comm] at this
  have bu := bound_close (x := x) (y := nextUp x) (by rwa [abs_of_pos (sub_pos.2 u2)]) u2.ne'
  have bd := bound_close (x := x) (y := nextDown x) (by rw [abs_sub_comm (nextDown x), abs_of_pos (sub_pos.2 d2)]; exact d3) d2.ne
  rw [abs_of_pos (sub_pos.2 u2), abs_lt] at bu
  rw [abs_sub_comm (nextDown x) x, abs_of_pos (sub_pos.2 d2), abs_lt] at bd
  have dyl := rep_dyadic (rep_round .near (p := 64) (round .near 64 (nextDown x + 2 * x) / 3))
  have dyu := rep_dyadic (rep_round .near (p := 64) (round .near 64 (nextUp x + 2 * x) / 3))
  simp only [Nat.cast_ofNat] at dyl dyu
  refine ⟨by simp only [XArf.third, h2x], by simp only [XArf.third, h2x], ofArf_near hx ?_, ofArf_near hx ?_, dyl, dyu, by linarith, by linarith, by linarith, by linarith⟩
  · intro z hz hne
    rcases lt_or_gt_of_ne hne with hlt | hgt
    · have := d4 z hz hlt
      rw [abs_sub_comm z, lt_abs]; left
      rw [abs_lt]; constructor <;> linarith
    · rw [lt_abs]; left
      rw [abs_lt]; constructor <;> linarith
  · intro z hz hne
    rcases lt_or_gt_of_ne hne with hlt | hgt
    · rw [abs_sub_comm z, lt_abs]; left
      rw [abs_lt]; constructor <;> linarith
    · have := u4 z hz hgt
      rw [lt_abs]; left
      rw [abs_lt]; constructor <;> linarith

theorem largest_finite : Double.IsFinite Double.largest := by
  obtain ⟨e1, e2, e3⟩ := big_powers (K := ℚ)
  refine ⟨⟨2 ^ 53 - 1, 971, by norm_num, by norm_num, ?_⟩, ?_⟩
  · rw [Double.largest, show ((2 : ℚ) ^ (971 : ℤ)) = 2 ^ 971 from zpow_natCast 2 971, e1, e2]; push_cast; ring
  · rw [Double.largest, e1, e2]; clear e1 e2
    generalize (2 : ℚ) ^ 970 = P at *
    rw [abs_of_pos (by linarith)]; linarith

end RandomSpecialLemma

/-- **C52**: for all doubles but the two largest ones in absolute value `random(x)` does what `randomDouble` says, in all builds: the assertions that the bounds are rounded to `x` never fail. -/
theorem random_double_builds {x : ℚ} (hx : Double.IsFinite x) (hmax : |x| < 2 ^ 1024 - 2 ^ 971) (asserts : Bool) (seed : UInt32) :
    randomDoubleX gen asserts (.num (.fin x)) seed = randomDouble gen (.fin x) seed := by
  obtain ⟨h1, h2, h3, h4, h5, h6, -⟩ := bounds hx
  have hne := abs_lt.1 hmax
  have hn : XArf.next x = .fin (nextUp x) := if_neg (by rintro rfl; exact absurd hne.2 (lt_irrefl _))
  have hp : XArf.previous x = .fin (nextDown x) := if_neg (by rintro rfl; exact absurd hne.1 (lt_irrefl _))
  have h2x : round .near 64 (2 * x) = 2 * x := by
    refine round_eq_self .near (p := 64) (by norm_num) ?_
    have := (hx.1.rep.mono (show 53 ≤ 64 by norm_num)).mul_zpow 1
    rwa [zpow_one, _root_.mul_comm] at this
  unfold randomDoubleX randomDouble
  simp only [hn, hp]
  rw [if_neg (not_le.2 hmax), h1, h2, if_neg (by simp [XArf.toDouble, h3, h4]), random_bounds_finite gen h5 h6]
  unfold randomNear
  simp only [h2x]
  rw [show 2 * x + nextUp x = nextUp x + 2 * x by ring]

/-- **C52**: what is not finite is rejected. -/
theorem random_double_special (asserts : Bool) {x : XDouble} (hx : ∀ q, x ≠ .num (.fin q)) (seed : UInt32) :
    randomDoubleX gen asserts x seed = .throws .logicError := by
  unfold randomDoubleX
  split
  · exact absurd rfl (hx _)
  · rfl

/-- **C52** is false of the code for the largest and the smallest double (finding F23): an assertion fails; in a build without assertions, the number that is returned for the smallest
double (-1.79…e308) is positive, for generators that (like the one of GMP) never return a negative number. -/
theorem random_double_extreme_fails (seed : UInt32) :
    randomDoubleX gen true (.num (.fin Double.largest)) seed = .abort ∧ randomDoubleX gen true (.num (.fin (-Double.largest))) seed = .abort ∧
    ∃ a, randomDoubleX gen false (.num (.fin (-Double.largest))) seed = .ok a ∧ ((∀ n, 0 ≤ gen.urandomm seed n) → 0 < a.value) := by
  have hp : XArf.previous (-Double.largest) = .negInf := if_pos rfl
  have hn : XArf.next Double.largest = .posInf := if_pos rfl
  have pos : (0 : ℚ) < Double.largest := by
    obtain ⟨e1, e2, e3⟩ := big_powers (K := ℚ)
    rw [Double.largest, e1, e2]; clear e1 e2
    generalize (2 : ℚ) ^ 970 = P at *; linarith
  have hn' : XArf.next (-Double.largest) = .fin (nextUp (-Double.largest)) := if_neg (by linarith)
  have hf : Double.IsFinite (-Double.largest) := ⟨largest_finite.1.neg, by rw [abs_neg]; exact largest_finite.2⟩
  obtain ⟨-, h2, -, h4, -, h6, -, -, -, h7⟩ := bounds hf
  have hu : nextUp (-Double.largest) ≤ 0 := by
    obtain ⟨-, -, -, u4⟩ := Double.nextUp_spec hf.1
    exact u4 0 ⟨0, 0, by norm_num, by norm_num, by norm_num⟩ (by linarith)
  refine ⟨?_, ?_, ?_⟩
  · unfold randomDoubleX
    simp only [hn]
    rw [if_pos (by simp [XArf.third, XArf.toDouble])]
  · unfold randomDoubleX
    simp only [hp]
    rw [if_pos (by simp [XArf.third, XArf.toDouble])]
  · unfold randomDoubleX
    simp only [hp, hn']
    rw [if_neg (by simp), h2]
    exact ((random_infinite_fails gen false seed).2.2.2 _ h6 (by linarith)).2.2

/-- The hypotheses can be met. -/
example : (∀ n, 0 ≤ GmpRandomLike.urandomm 7 n) ∧ Dyadic (-3 / 4) ∧ ∃ a, randomInX GmpRandomLike false .negInf (.fin (-3 / 4)) 7 = .ok a ∧ 0 < a.value := by
  refine ⟨fun n => ?_, ⟨-3, -2, by norm_num⟩, ?_⟩
  · exact abs_nonneg _
  · obtain ⟨a, h1, h2⟩ := ((random_infinite_fails GmpRandomLike false 7).2.2.2 (-3 / 4) ⟨-3, -2, by norm_num⟩ (by norm_num)).2.2
    exact ⟨a, h1, h2 fun n => abs_nonneg _⟩

end ExactReal.Props
