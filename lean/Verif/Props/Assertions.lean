import Verif.Lemma.Truncate
import Verif.Model.Assertions
import Verif.Props.RealOrder

/-!
# C27 for random numbers, C56: the assertions of `refine`
-/

namespace ExactReal.Props

open Arf Ball

variable (atoms : Atoms)

/-! ### C27 -/

theorem cmp_main {x : RN} (hx : ∀ m, x ≠ .prod m) {b : Ball} (hb : Dyadic b.mid) {c : ℤ} (h : x.cmp atoms b = .ok c) :
    (c = -1 → ∀ y, b.Contains y → x.real atoms ≤ y) ∧ (c = 1 → ∀ y, b.Contains y → y < x.real atoms) ∧ (c = -1 ∨ c = 0 ∨ c = 1) ∧
      ∃ lo hi, b.interval = .ok (lo, hi) ∧ 
        ((lo : ℝ) < x.real atoms ∨ (lo : ℝ) ≤ x.real atoms ∧ x.isRat = true → x.real atoms ≤ hi → c = 0) := by
  cases x with
  | prod m => exact absurd rfl (hx m)
  | rat q =>
    obtain ⟨h1, h2, h3⟩ := cmp_rational_partial atoms q b hb c h
    refine ⟨fun hc y hy => (h1 hc y hy).le, h2, h3, ?_⟩
    obtain ⟨lo, hi, h4, h5⟩ := cmp_eq h
    obtain ⟨-, -, -, -, hdy⟩ := interval_spec h4
    obtain ⟨dlo, dhi⟩ := hdy hb
    refine ⟨lo, hi, h4, fun h6 h7 => ?_⟩
    rw [RN.real_rat] at h6 h7
    have h6 : (lo : ℝ) ≤ q := h6.elim le_of_lt And.left
    set p := max (bits lo) (bits hi) + 1 with hp
    have harf : (RN.rat q).arf atoms p = round .near p q := by
      rw [RN.arf_nat, RN.arf_, if_neg (by omega), Rat.num_div_den]
    have hcast : ((max (bits lo) (bits hi) : ℕ) : ℤ) + 1 = (p : ℤ) := by rw [hp]; push_cast; rfl
    rw [hcast, harf] at h5
    have l1 := le_round .near (p := p) (by omega) (rep_of_bits dlo (by omega)) (show lo ≤ q by exact_mod_cast h6)
    have l2 := round_le .near (p := p) (by omega) (rep_of_bits dhi (by omega)) (show q ≤ hi by exact_mod_cast h7)
    rw [h5, if_neg (not_lt.2 l1), if_neg (not_lt.2 l2)]
  | atom i =>
    obtain ⟨lo, hi, h4, h5⟩ := cmp_eq h
    obtain ⟨r, hr, hlo, hhi, hdy⟩ := interval_spec h4
    obtain ⟨dlo, dhi⟩ := hdy hb
    rw [RN.real_atom]
    set p := max (bits lo) (bits hi) + 1 with hp
    have harf : (RN.atom i).arf atoms p = (atoms i).arf p := by rw [RN.arf_nat, RN.arf_]
    have hcast : ((max (bits lo) (bits hi) : ℕ) : ℤ) + 1 = (p : ℤ) := by rw [hp]; push_cast; rfl
    rw [hcast, harf] at h5
    have l1 : (lo : ℝ) < (atoms i).value → lo ≤ (atoms i).arf p := fun hlt =>
      (atoms i).le_arf_of_lt (p := p) (by omega) (by omega) (rep_of_bits dlo (by omega)) hlt
    have l2 : (atoms i).value ≤ hi → (atoms i).arf p ≤ hi := fun hle =>
      (atoms i).arf_le_of_le (p := p) (by omega) (rep_of_bits dhi (by omega)) hle
    have hlo' : (lo : ℝ) ≤ b.mid - r := by exact_mod_cast hlo
    have hhi' : (b.mid : ℝ) + r ≤ hi := by exact_mod_cast hhi
    refine ⟨fun hc y hy => ?_, fun hc y hy => ?_, by rw [h5]; split_ifs <;> simp, lo, hi, h4, fun h6 h7 => ?_⟩
    · rw [contains_iff hr, abs_le] at hy
      have : (atoms i).value ≤ lo := by
        by_contra hlt
        have := l1 (not_le.1 hlt)
        rw [hc, if_neg (not_lt.2 this)] at h5
        split_ifs at h5
      linarith
    · rw [contains_iff hr, abs_le] at hy
      have : (hi : ℝ) < (atoms i).value := by
        by_contra hlt
        have := l2 (not_lt.1 hlt)
        rw [hc] at h5
        rw [if_neg (not_lt.2 this)] at h5
        split_ifs at h5
        omega
      linarith
    · have h6 : (lo : ℝ) < (atoms i).value := h6.elim id fun h => by simp [RN.isRat, RN.rational?] at h
      rw [h5, if_neg (not_lt.2 (l1 h6)), if_neg (not_lt.2 (l2 h7))]

/-- **C27** for all numbers that are not products: `-1` only if no point of the ball is below the number, `1` only if the number is above the
ball. -/
theorem cmp_partial {x : RN} (hx : ∀ m, x ≠ .prod m) {b : Ball} (hb : Dyadic b.mid) {c : ℤ} (h : x.cmp atoms b = .ok c) :
    (c = -1 → ∀ y, b.Contains y → x.real atoms ≤ y) ∧ (c = 1 → ∀ y, b.Contains y → y < x.real atoms) ∧ (c = -1 ∨ c = 0 ∨ c = 1) := by
  obtain ⟨h1, h2, h3, -⟩ := cmp_main atoms hx hb h
  exact ⟨h1, h2, h3⟩

/-- **C27**: the answer is `0` for every number in the ball other than its lower end (if it is not a product). -/
theorem cmp_zero_partial {x : RN} (hx : ∀ m, x ≠ .prod m) {b : Ball} (hb : Dyadic b.mid) {r : ℚ} (hr : b.rad = some r) (h0 : 0 ≤ r) {c : ℤ}
    (h : x.cmp atoms b = .ok c) (hc : b.Contains (x.real atoms)) (hne : x.real atoms ≠ b.mid - r) : c = 0 := by
  obtain ⟨h1, h2, h3⟩ := cmp_partial atoms hx hb h
  rcases h3 with h3 | h3 | h3
  · refine absurd (h1 h3 (b.mid - r) (lower_point (fun s hs => by rw [hr] at hs; cases hs; exact h0) hr)) ?_
    rw [contains_iff hr, abs_le] at hc
    exact not_le.2 (lt_of_le_of_ne (by linarith) (Ne.symm hne))
  · exact h3
  · exact absurd (h2 h3 _ hc) (lt_irrefl _)

/-- Digits `0.0111…`, i.e. the number `1/2`. -/
def lateHalf : Digits := ⟨fun i => i ≠ 0, 1, by decide⟩

theorem lateHalf_value : lateHalf.value = 1 / 2 := by
  rw [lateHalf.value_split 1]
  have h0 : Digits.prefixValue lateHalf.digit 1 = 0 := by decide +kernel
  have : ∀ i : ℕ, (if lateHalf.digit (i + 1) then (1 / 2 : ℝ) ^ (i + 1 + 1) else 0) = (1 / 2) ^ (i + 1 + 1) := by
    intro i; simp [lateHalf]
  rw [h0]
  simp_rw [this]
  rw [Digits.tsum_tail 1]; norm_num

theorem lateHalf_first : lateHalf.first = 1 := by
  rw [Digits.first, Nat.find_eq_iff]
  exact ⟨by decide, by decide⟩

/-- The exception is real: for the random number `0.0111…` `cmp` claims that it is below the ball `[1/2, 1/2]`. -/
theorem cmp_lower_end_fails : (RN.atom 0).cmp (fun _ => .random lateHalf) (exact (1 / 2)) = .ok (-1) ∧
    (exact (1 / 2)).Contains ((RN.atom 0).real (fun _ => .random lateHalf)) := by
  constructor
  · rw [cmp_of (n := 2) (a := 7 / 16) (lo := 1 / 2) (hi := 1 / 2) (by decide +kernel) (by decide +kernel)]
    · decide +kernel
    · rw [RN.arf_nat]
      show lateHalf.arf 2 = _
      rw [Digits.arf, lateHalf_first]
      decide +kernel
  · rw [contains_exact, RN.real_atom]
    show lateHalf.value = _
    rw [lateHalf_value]; norm_num

/-! ### C56 -/

/-- The end points of the interval of `arb(prec)` are at least two radii away from the midpoint. -/
theorem interval_arb {x : RN} {prec : ℕ} (hp : 2 ≤ prec) (h0 : x.arf atoms prec ≠ 0) (hrep : Rep (prec + 1) (x.arf atoms prec)) :
    ∃ lo hi, (x.arb atoms prec).interval = .ok (lo, hi) ∧ lo ≤ x.arf atoms prec - 2 ^ (Int.log 2 |x.arf atoms prec| - prec) ∧
      x.arf atoms prec + 2 ^ (Int.log 2 |x.arf atoms prec| - prec) ≤ hi := by
  set a := x.arf atoms prec with ha
  set K := Int.log 2 |a| with hK
  have hrad : (2 : ℚ) ^ (K - ((prec : ℤ) + 1)) ≠ 0 := (two_zpow_pos _).ne'
  have hlogr : Int.log 2 ((2 : ℚ) ^ (K - ((prec : ℤ) + 1))) = K - (prec + 1) := by
    have := Int.log_zpow (R := ℚ) (b := 2) (by norm_num) (K - ((prec : ℤ) + 1))
    exact_mod_cast this
  have hacc : (x.arb atoms prec).hasAccuracy 2 = true := (RN.arb_accuracy atoms h0 2).2 (by omega)
  have hlb : Arf.logb a = K := by rw [Arf.logb, if_neg h0]
  have hint : (x.arb atoms prec).interval = .ok (round .floor prec (a - 2 ^ (K - ((prec : ℤ) + 1))), round .ceil prec (a + 2 ^ (K - ((prec : ℤ) + 1)))) := by
    rw [interval, RN.arb_eq] at *
    simp only [← ha, hlb] at hacc ⊢
    rw [if_neg hrad, hacc, hlogr]
    rw [show Int.log 2 |a| - (K - ((prec : ℤ) + 1)) - 1 = prec by rw [← hK]; ring]
    rfl
  refine ⟨_, _, hint, ?_⟩
  set r := (2 : ℚ) ^ (K - ((prec : ℤ) + 1)) with hr
  have hrp : 0 < r := two_zpow_pos _
  have h2r : (2 : ℚ) ^ (K - (prec : ℤ)) = 2 * r := by
    rw [hr, show K - (prec : ℤ) = 1 + (K - ((prec : ℤ) + 1)) by ring, zadd, zpow_one]
  have hK1 : (2 : ℚ) ^ K ≤ |a| := zpow_le_abs h0
  have hrK : r ≤ 2 ^ (K - 1) := zpow_mono (by omega)
  have hKK : (2 : ℚ) ^ K = 2 ^ (K - 1) + 2 ^ (K - 1) := by rw [zpow_sub_one₀ (by norm_num)]; ring
  -- everything is a multiple of `2r`
  obtain ⟨c, hc⟩ : ∃ c : ℤ, a = c * (2 * r) := by
    obtain ⟨c, hc⟩ := multiple_of_log (p := prec + 1) (by omega) hrep (g := K - prec) (fun _ => by push_cast; rw [← hK]; omega)
    exact ⟨c, by rw [← h2r]; exact hc⟩
  have mult : ∀ (rnd : Rnd) (y : ℚ), (2 : ℚ) ^ (K - 1) ≤ |y| → ∃ k : ℤ, round rnd prec y = k * (2 * r) := by
    intro rnd y hy
    have hy0 : y ≠ 0 := by rintro rfl; rw [abs_zero] at hy; exact absurd hy (not_le.2 (two_zpow_pos _))
    rw [round_of_ne _ _ hy0, ulp]
    have := le_log hy
    obtain ⟨j, hj⟩ := int_of_zpow (show K - (prec : ℤ) ≤ Int.log 2 |y| + 1 - prec by omega)
    exact ⟨rnd.toInt (y / ulp prec y) * j, by rw [ulp, hj, h2r]; push_cast; ring⟩
  have hm1 : (2 : ℚ) ^ (K - 1) ≤ |a - r| := by
    have := abs_sub_abs_le_abs_sub a r; rw [abs_of_pos hrp] at this; linarith
  have hm2 : (2 : ℚ) ^ (K - 1) ≤ |a + r| := by
    have := abs_sub_abs_le_abs_sub a (-r); rw [abs_neg, abs_of_pos hrp, sub_neg_eq_add] at this; linarith
  obtain ⟨k, hk⟩ := mult .floor _ hm1
  obtain ⟨l, hl⟩ := mult .ceil _ hm2
  rw [h2r]
  constructor
  · have := round_floor_le prec (a - r)
    rw [hk] at this ⊢
    rw [hc] at this ⊢
    have h3 : (k : ℚ) * (2 * r) < c * (2 * r) := by linarith
    have h4 : k < c := by exact_mod_cast lt_of_mul_lt_mul_right h3 (by linarith)
    have h5 : (k : ℚ) + 1 ≤ c := by exact_mod_cast h4
    have := mul_le_mul_of_nonneg_right h5 (show 0 ≤ 2 * r by linarith)
    linarith
  · have := le_round_ceil prec (a + r)
    rw [hl] at this ⊢
    rw [hc] at this ⊢
    have h3 : (c : ℚ) * (2 * r) < l * (2 * r) := by linarith
    have h4 : c < l := by exact_mod_cast lt_of_mul_lt_mul_right h3 (by linarith)
    have h5 : (c : ℚ) + 1 ≤ l := by exact_mod_cast h4
    have := mul_le_mul_of_nonneg_right h5 (show 0 ≤ 2 * r by linarith)
    linarith

theorem dyadic_of_rep {p : ℕ} {x : ℚ} (h : Rep p x) : Dyadic x := by
  obtain ⟨m, k, -, h⟩ := h
  exact ⟨m, k, h⟩

theorem rep_arf {x : RN} (hx : ∀ m, x ≠ .prod m) {prec : ℕ} (hp : 2 ≤ prec) : Rep (prec + 1) (x.arf atoms prec) := by
  rw [RN.arf_nat]
  cases x with
  | prod m => exact absurd rfl (hx m)
  | rat q => rw [RN.arf_, if_neg (by omega)]; exact (rep_round _ _).mono (by omega)
  | atom i =>
    obtain ⟨m, e, d, h1, -⟩ := (atoms i).exists_constrained
    rw [RN.arf_, h1, arfConstrained_eq]
    exact rep_round _ _

/-- An atom is not far below its approximations. -/
theorem atom_above (a : Atom) {prec : ℕ} : ((a.arf prec : ℚ) : ℝ) - 2 ^ (Int.log 2 |a.arf prec| - ((prec : ℤ) + 1)) ≤ a.value := by
  obtain ⟨m, e, d, h1, h2⟩ := a.exists_constrained
  rw [h1, h2, arfConstrained_eq]
  set s := truncated m e d (innerDigits m e d prec) with hs
  have h3 := truncated_le m e d (innerDigits m e d prec)
  rw [← hs] at h3
  have hpos := zposR (Int.log 2 |round .near ((prec + 1 : ℕ) : ℤ) s| - ((prec : ℤ) + 1))
  by_cases h0 : s = 0
  · have hr : round .near ((prec + 1 : ℕ) : ℤ) s = 0 := by rw [h0, Arf.round, if_pos rfl]
    rw [hr] at hpos ⊢
    rw [h0] at h3
    simp only [Rat.cast_zero] at h3 ⊢
    linarith
  · obtain ⟨r1, r2⟩ := round_near_K (prec + 1) (by omega) (zpow_le_abs h0) (abs_lt_zpow s)
    have hl := le_log r2
    have h4 := r1.trans (zpow_mono (show Int.log 2 |s| - ((prec + 1 : ℕ) : ℤ) ≤ Int.log 2 |round .near ((prec + 1 : ℕ) : ℤ) s| - ((prec : ℤ) + 1) by
      rw [Nat.cast_add_one] at hl ⊢; omega))
    have h5 := (Rat.cast_le (K := ℝ)).2 (abs_le.1 h4).2
    push_cast at h5 hpos ⊢
    linarith

/-- **C56**: `cmp` answers `0` for the number and the ball that `arb(prec)` returns (`prec ≥ 2`, the number is not zero and not a product). -/
theorem cmp_self_partial {x : RN} (hx : ∀ m, x ≠ .prod m) (h0 : x ≠ .rat 0) {prec : ℕ} (hp : 2 ≤ prec) :
    x.cmp atoms (x.arb atoms prec) = .ok 0 := by
  have hwf : x.WF := by cases x with
    | prod m => exact absurd rfl (hx m)
    | rat q => trivial
    | atom i => trivial
  have hr0 : x.real atoms ≠ 0 := fun h => h0 (RN.real_eq_zero atoms hwf h)
  have ha0 : x.arf atoms prec ≠ 0 := by rw [RN.arf_nat]; exact (RN.arf_error atoms hwf hr0 prec hp).1
  have hrep := rep_arf atoms hx hp
  obtain ⟨lo, hi, hi1, hi2, hi3⟩ := interval_arb atoms hp ha0 hrep
  obtain ⟨c, hc⟩ : ∃ c, x.cmp atoms (x.arb atoms prec) = .ok c := by
    rw [RN.cmp, hi1]; exact ⟨_, rfl⟩
  have hdy : Dyadic (x.arb atoms prec).mid := by rw [RN.arb_eq]; exact dyadic_of_rep hrep
  obtain ⟨-, -, -, lo', hi', hi4, hmain⟩ := cmp_main atoms hx hdy hc
  rw [hi1] at hi4
  cases hi4
  rw [hc]
  obtain ⟨r, hr, -, hnear⟩ := (RN.arb_near atoms hwf hp).2 hx
  have hrv := hr
  rw [RN.arb_eq] at hrv hnear
  simp only [Option.some.injEq] at hrv
  rw [Arf.logb, if_neg ha0] at hrv
  have h2r : (2 : ℚ) ^ (Int.log 2 |x.arf atoms prec| - (prec : ℤ)) = 2 * r := by
    rw [← hrv, show Int.log 2 |x.arf atoms prec| - (prec : ℤ) = 1 + (Int.log 2 |x.arf atoms prec| - ((prec : ℤ) + 1)) by ring, zadd, zpow_one]
  rw [h2r] at hi2 hi3
  have hrpos : (0 : ℝ) < r := by rw [← hrv]; exact_mod_cast two_zpow_pos _
  have hi2' := (Rat.cast_le (K := ℝ)).2 hi2
  have hi3' := (Rat.cast_le (K := ℝ)).2 hi3
  push_cast at hi2' hi3'
  simp only [abs_le] at hnear
  have hlow : (lo : ℝ) < x.real atoms ∨ (lo : ℝ) ≤ x.real atoms ∧ x.isRat = true := by
    cases x with
    | prod m => exact absurd rfl (hx m)
    | atom i =>
      have h6 := atom_above (atoms i) (prec := prec)
      rw [RN.real_atom]
      have e : (RN.atom i).arf atoms prec = (atoms i).arf prec := by rw [RN.arf_nat, RN.arf_]
      rw [e] at hi2' hrv
      have h7 : ((r : ℚ) : ℝ) = 2 ^ (Int.log 2 |(atoms i).arf prec| - ((prec : ℤ) + 1)) := by rw [← hrv]; push_cast; rfl
      rw [← h7] at h6
      exact .inl (by linarith)
    | rat q => exact .inr ⟨by linarith, rfl⟩
  rw [hmain hlow (by linarith)]

/-- **C56** for `refine`: if the assertion at its start holds (this is so for the ball `0 ± ∞`), then no assertion fails, the result is the
one computed without assertions, and the assertion at the start of the next call holds. -/
theorem refine_no_abort_partial {x : RN} (hx : ∀ m, x ≠ .prod m) (h0 : x ≠ .rat 0) {prec : ℕ} (hp : 2 ≤ prec) {b : Ball}
    (hb : x.cmpIsZero atoms b = .ok true) :
    x.refineDebug atoms b prec = .ok (x.refine atoms b prec) ∧ x.cmpIsZero atoms (x.refine atoms b prec) = .ok true := by
  rw [RN.refineDebug, hb]
  by_cases hacc : b.hasAccuracy prec = true
  · rw [RN.refine, if_pos hacc, if_pos hacc]
    exact ⟨rfl, hb⟩
  · have hr := RN.refine_eq_arb atoms x (b := b) (prec := prec) (by simpa using hacc)
    have hz : x.cmpIsZero atoms (x.arb atoms prec) = .ok true := by
      have := cmp_self_partial atoms hx h0 hp
      rw [RN.cmpIsZero, this, RN.arb_eq]
      rfl
    have hwf : x.WF := by cases x with
      | prod m => exact absurd rfl (hx m)
      | rat q => trivial
      | atom i => trivial
    have hr0 : x.real atoms ≠ 0 := fun h => h0 (RN.real_eq_zero atoms hwf h)
    have ha0 : x.arf atoms prec ≠ 0 := by rw [RN.arf_nat]; exact (RN.arf_error atoms hwf hr0 prec hp).1
    have hacc' := (RN.arb_accuracy atoms ha0 (prec : ℤ)).2 le_rfl
    rw [hr]
    refine ⟨?_, hz⟩
    rw [RN.arb_eq] at hz hacc' ⊢
    rw [if_neg hacc]
    simp only [hz, hacc', Bool.or_true, RN.cAssert, Out.ok_bind, if_true]

/-- **C56** for a ball that contains the number: no assertion fails (the interval of the ball must be defined, see F18, and the number must not
be the lower end of the ball, see `cmp_lower_end_fails`). -/
theorem refine_contained_no_abort_partial {x : RN} (hx : ∀ m, x ≠ .prod m) (h0 : x ≠ .rat 0) {prec : ℕ} (hp : 2 ≤ prec) {b : Ball} (hb : Dyadic b.mid)
    {r : ℚ} (hr : b.rad = some r) (hr0 : 0 ≤ r) (hi : b.interval ≠ .ub) (hc : b.Contains (x.real atoms)) (hne : x.real atoms ≠ b.mid - r) :
    x.refineDebug atoms b prec = .ok (x.refine atoms b prec) := by
  refine (refine_no_abort_partial atoms hx h0 hp ?_).1
  have : ∃ c, x.cmp atoms b = .ok c := by
    rw [RN.cmp]
    rw [interval, hr] at hi ⊢
    simp only at hi ⊢
    split_ifs at hi ⊢
    · exact ⟨_, rfl⟩
    · exact absurd rfl hi
    · exact ⟨_, rfl⟩
  obtain ⟨c, h⟩ := this
  have := cmp_zero_partial atoms hx hb hr hr0 h hc hne
  subst this
  rw [RN.cmpIsZero, h, hr]
  rfl

/-- **C56** for `arb`. -/
theorem arb_no_abort_partial {x : RN} (hx : ∀ m, x ≠ .prod m) (h0 : x ≠ .rat 0) {prec : ℕ} (hp : 2 ≤ prec) :
    x.arbDebug atoms prec = .ok (x.arb atoms prec) :=
  (refine_no_abort_partial atoms hx h0 hp rfl).1

theorem ltLoopDebug_eq {x y : RN} (hx : ∀ m, x ≠ .prod m) (hx0 : x ≠ .rat 0) (hy : ∀ m, y ≠ .prod m) (hy0 : y ≠ .rat 0) :
    ∀ (fuel prec : ℕ) (self other : Ball), 2 ≤ prec → x.cmpIsZero atoms self = .ok true → y.cmpIsZero atoms other = .ok true →
      RN.ltLoopDebug atoms x y fuel prec self other = RN.ltLoop atoms x y fuel prec self other
  | 0, _, _, _, _, _, _ => rfl
  | fuel + 1, prec, self, other, hp, h1, h2 => by
    obtain ⟨a1, a2⟩ := refine_no_abort_partial atoms hx hx0 hp h1
    obtain ⟨b1, b2⟩ := refine_no_abort_partial atoms hy hy0 hp h2
    rw [RN.ltLoopDebug, RN.ltLoop, a1, b1]
    simp only [Out.ok_bind]
    split
    · next r hr => rw [hr]
    · next hr =>
      rw [hr]
      exact ltLoopDebug_eq hx hx0 hy hy0 fuel (prec * 2) _ _ (by omega) a2 b2

/-- **C56** for `<`: with the assertions it computes the same as without. -/
theorem lt_no_abort_partial {x y : RN} (hx : ∀ m, x ≠ .prod m) (hx0 : x ≠ .rat 0) (hy : ∀ m, y ≠ .prod m) (hy0 : y ≠ .rat 0) (fuel : ℕ) :
    RN.ltRNDebug atoms fuel x y = RN.ltRN atoms fuel x y := by
  rw [RN.ltRNDebug, RN.ltRN, ltLoopDebug_eq atoms hx hx0 hy hy0 fuel 2 _ _ le_rfl rfl rfl]

theorem ltArfLoopDebug_eq {x : RN} (hx : ∀ m, x ≠ .prod m) (hx0 : x ≠ .rat 0) (other : Ball) :
    ∀ (fuel prec : ℕ) (self : Ball), 2 ≤ prec → x.cmpIsZero atoms self = .ok true →
      RN.ltArfLoopDebug atoms x other fuel prec self = RN.ltArfLoop atoms x other fuel prec self
  | 0, _, _, _, _ => rfl
  | fuel + 1, prec, self, hp, h1 => by
    obtain ⟨a1, a2⟩ := refine_no_abort_partial atoms hx hx0 hp h1
    rw [RN.ltArfLoopDebug, RN.ltArfLoop, a1]
    simp only [Out.ok_bind]
    split
    · next r hr => rw [hr]
    · next hr =>
      rw [hr]
      exact ltArfLoopDebug_eq hx hx0 other fuel (prec * 2) _ (by omega) a2

/-- **C56** for `<` against floating point numbers and integers. -/
theorem lt_arf_no_abort_partial {x : RN} (hx : ∀ m, x ≠ .prod m) (hx0 : x ≠ .rat 0) (fuel : ℕ) (a : ℚ) :
    RN.ltArfDebug atoms fuel x a = RN.ltArf atoms fuel x a := by
  rw [RN.ltArfDebug, RN.ltArf, ltArfLoopDebug_eq atoms hx hx0 _ fuel 2 _ le_rfl rfl]

/-- Zero is excluded: the interval of its ball asks FLINT for a negative precision. -/
theorem arb_zero_debug (prec : ℕ) : (RN.rat 0).arbDebug atoms prec = .ub := by
  have hne : (2 : ℚ) ^ (logb 0 - ((prec : ℤ) + 1)) ≠ 0 := (two_zpow_pos _).ne'
  have hi : (⟨0, some (2 ^ (logb 0 - ((prec : ℤ) + 1)))⟩ : Ball).interval = .ub := by
    rw [interval]
    simp only
    rw [if_neg hne, if_pos]
    simp [hasAccuracy, hne]
  rw [RN.arbDebug, RN.refineDebug, RN.arf_nat, RN.arf_rat_zero, if_neg (by rw [hasAccuracy_zeroPmInf]; simp)]
  have h1 : (RN.rat 0).cmpIsZero atoms zeroPmInf = .ok true := rfl
  have h2 : (RN.rat 0).cmpIsZero atoms ⟨0, some (2 ^ (logb 0 - ((prec : ℤ) + 1)))⟩ = .ub := by
    rw [RN.cmpIsZero]
    simp only
    rw [RN.cmp, hi]; rfl
  rw [h1]
  simp only [RN.cAssert, Out.ok_bind, if_true, h2, Out.ub_bind]

/-- The mantissas of ten random numbers. -/
def tenMantissas : List ℕ := [549, 552, 921, 540, 522, 913, 519, 529, 544, 862]

/-- Ten random numbers of eleven digits each. -/
def tenDigits (i : ℕ) : Digits := ⟨finiteDigits (2 * tenMantissas.getD i 1023 + 1) 11, 0, by
  rcases Nat.lt_or_ge i 10 with h | h
  · interval_cases i <;> decide
  · rw [List.getD_eq_getElem?_getD, List.getElem?_eq_none h]; decide⟩

def tenAtoms : Atoms := fun i => .random (tenDigits i)

/-- The product of the ten numbers. -/
def tenProduct : RN := .prod ((List.range 10).map fun i => (i, 1))

theorem tenProduct_wf : tenProduct.WF :=
  ⟨⟨by decide, by decide⟩, by decide⟩

theorem tenDigits_first (i : ℕ) : (tenDigits i).first = 0 := first_eq_zero _ (by
  rcases Nat.lt_or_ge i 10 with h | h
  · interval_cases i <;> decide
  · show finiteDigits (2 * tenMantissas.getD i 1023 + 1) 11 0 = true
    rw [List.getD_eq_getElem?_getD, List.getElem?_eq_none h]; decide)

theorem tenProduct_arf (prec : ℕ) : tenProduct.arf tenAtoms prec = round .near (prec + 1) (((List.range 10).map fun i => (i, 1)).foldl
    (fun ret p => mulLoop (workingPrec prec 10) (Digits.prefixValue (finiteDigits (2 * tenMantissas.getD p.1 1023 + 1) 11) (workingPrec prec 10 + 1)) p.2 ret) 1) := by
  rw [RN.arf_nat, tenProduct, RN.arf_, prodLoop]
  have h : ∀ (i w : ℕ), (tenAtoms i).arf w = Digits.prefixValue (finiteDigits (2 * tenMantissas.getD i 1023 + 1) 11) (w + 1) := by
    intro i w
    show (tenDigits i).arf w = _
    rw [Digits.arf, tenDigits_first, zero_add]; rfl
  simp only [h]
  rfl

/-- **C56 is false for products**: a product of ten random numbers of the library for which `arb(4)` fails the second assertion of `refine`, so a
debug build terminates. -/
theorem arb_abort_fails : tenProduct.WF ∧ tenProduct.arbDebug tenAtoms 4 = .abort ∧
    tenProduct.cmp tenAtoms (tenProduct.arb tenAtoms 4) = .ok 1 := by
  have w4 : workingPrec 4 10 = 9 := by decide
  have w5 : workingPrec 5 10 = 10 := by decide
  have h4 : tenProduct.arf tenAtoms (4 : ℕ) = 29 / 4096 := by rw [tenProduct_arf, w4]; decide +kernel
  have h5 : tenProduct.arf tenAtoms (5 : ℕ) = 61 / 8192 := by rw [tenProduct_arf, w5]; decide +kernel
  have hb : (⟨29 / 4096, some (2 ^ (logb (29 / 4096) - (((4 : ℕ) : ℤ) + 1)))⟩ : Ball).interval = .ok (7 / 1024, 15 / 2048) := by decide +kernel
  have hc : tenProduct.cmp tenAtoms ⟨29 / 4096, some (2 ^ (logb (29 / 4096) - (((4 : ℕ) : ℤ) + 1)))⟩ = .ok 1 := by
    rw [cmp_of (n := 5) (a := 61 / 8192) hb (by decide +kernel) h5]
    decide +kernel
  refine ⟨tenProduct_wf, ?_, by rw [RN.arb_eq, h4, hc]⟩
  rw [RN.arbDebug, RN.refineDebug, h4, if_neg (by rw [hasAccuracy_zeroPmInf]; simp)]
  have h1 : tenProduct.cmpIsZero tenAtoms zeroPmInf = .ok true := rfl
  have h2 : tenProduct.cmpIsZero tenAtoms ⟨29 / 4096, some (2 ^ (logb (29 / 4096) - (((4 : ℕ) : ℤ) + 1)))⟩ = .ok false := by
    rw [RN.cmpIsZero]
    simp only
    rw [hc]; rfl
  rw [h1]
  simp only [RN.cAssert, Out.ok_bind, if_true, h2]
  rfl

/-- The hypotheses of `refine_contained_no_abort_partial` are met: `1/3` in the ball `5/16 ± 1/32`. -/
example : (RN.rat (1 / 3)).refineDebug atoms ⟨5 / 16, some (1 / 32)⟩ 3 = .ok ((RN.rat (1 / 3)).refine atoms ⟨5 / 16, some (1 / 32)⟩ 3) := by
  refine refine_contained_no_abort_partial atoms (by simp) (by simp) (by norm_num) ⟨5, -4, by norm_num⟩ rfl (by norm_num) (by decide +kernel) ?_ ?_
  · rw [contains_iff rfl, RN.real_rat]; norm_num [abs_le]
  · rw [RN.real_rat]; norm_num

end ExactReal.Props
