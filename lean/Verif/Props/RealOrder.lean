import Verif.Lemma.Slack
import Verif.Props.Ball

/-!
# C23: comparisons of real numbers

The balls of real numbers need not contain the numbers (`arb_contains_fails`), so comparisons of nearby numbers can be wrong
(`real_lt_arf_fails`, `real_lt_fails`).  What is proved: comparisons are right when the numbers are not too close to each other
(`_partial`), always for two rationals, and they return whenever the numbers differ.
-/

namespace ExactReal.Props

open Arf Ball

variable (atoms : Atoms)

theorem slack_two {x : RN} (hx : x.WF) {prec : ℕ} (hp : 2 ≤ prec) :
    Slack (11 / 16 * |x.real atoms|) (x.arb atoms prec) (x.real atoms) ∧
      ((∀ m, x ≠ .prod m) → Slack (5 / 32 * |x.real atoms|) (x.arb atoms prec) (x.real atoms)) := by
  have h4 := two_pow_neg_le prec hp
  have hn := abs_nonneg (x.real atoms)
  obtain ⟨h1, h2⟩ := RN.arb_slack atoms hx hp
  exact ⟨h1.mono (by nlinarith), fun h => (h2 h).mono (by nlinarith)⟩

theorem prec_ge (k : ℕ) : 2 ≤ 2 * 2 ^ k := Nat.le_mul_of_pos_right _ (by positivity)

/-- What `<` computes: the comparison of the balls of some precision. -/
theorem ltRN_ok {fuel : ℕ} {x y : RN} {r : Bool} (h : RN.ltRN atoms fuel x y = .ok r) :
    (x = y ∧ r = false) ∨ (x ≠ y ∧ ∃ prec, 2 ≤ prec ∧ (x.arb atoms prec).lt (y.arb atoms prec) = some r) := by
  rw [RN.ltRN] at h
  split_ifs at h with he
  · cases h; exact .inl ⟨he, rfl⟩
  · rw [RN.ltLoop_eq_search atoms x y fuel 2 _ _ le_rfl (hasAccuracy_zeroPmInf _)
      (hasAccuracy_zeroPmInf _)] at h
    obtain ⟨k, hk⟩ := search_ok h
    exact .inr ⟨he, 2 * 2 ^ k, prec_ge k, by simpa using hk⟩

/-- **C23** for two real numbers: `x < y` is right if the distance of `x` and `y` exceeds `11/16 (|x| + |y|)`, or only `5/32 (|x| + |y|)` if
neither is a product.  In particular it is right for numbers of opposite sign. -/
theorem real_lt_partial {fuel : ℕ} {x y : RN} (hx : x.WF) (hy : y.WF) {r : Bool} (h : RN.ltRN atoms fuel x y = .ok r)
    (hg : 11 / 16 * (|x.real atoms| + |y.real atoms|) < |x.real atoms - y.real atoms| ∨
      ((∀ m, x ≠ .prod m) ∧ (∀ m, y ≠ .prod m) ∧ 5 / 32 * (|x.real atoms| + |y.real atoms|) < |x.real atoms - y.real atoms|)) :
    r = true ↔ x.real atoms < y.real atoms := by
  rcases ltRN_ok atoms h with ⟨rfl, rfl⟩ | ⟨-, prec, hp, h⟩
  · simp
  · obtain ⟨x1, x2⟩ := slack_two atoms hx hp
    obtain ⟨y1, y2⟩ := slack_two atoms hy hp
    rcases hg with hg | ⟨hxp, hyp, hg⟩
    · exact lt_of_gap x1 y1 h (by linarith)
    · exact lt_of_gap (x2 hxp) (y2 hyp) h (by linarith)

/-- **C23** (opposite signs). -/
theorem real_lt_opposite_signs {fuel : ℕ} {x y : RN} (hx : x.WF) (hy : y.WF) {r : Bool} (h : RN.ltRN atoms fuel x y = .ok r)
    (hs : x.real atoms * y.real atoms < 0) : r = true ↔ x.real atoms < y.real atoms := by
  refine real_lt_partial atoms hx hy h (.inl ?_)
  rcases mul_neg_iff.1 hs with ⟨h1, h2⟩ | ⟨h1, h2⟩
  · rw [abs_of_pos h1, abs_of_neg h2, abs_of_pos (by linarith : 0 < x.real atoms - y.real atoms)]; linarith
  · rw [abs_of_neg h1, abs_of_pos h2, abs_of_neg (by linarith : x.real atoms - y.real atoms < 0)]; linarith

/-- **C23** for two rationals: `<` is the order of the rationals (the approximations are monotone). -/
theorem real_lt_rational {fuel : ℕ} {p q : ℚ} {r : Bool} (h : RN.ltRN atoms fuel (.rat p) (.rat q) = .ok r) : r = true ↔ p < q := by
  rcases ltRN_ok atoms h with ⟨he, rfl⟩ | ⟨-, prec, hp, h⟩
  · cases he; simp
  · have harf : ∀ q : ℚ, (RN.rat q).arf atoms prec = round .near prec q := fun q => by
      rw [RN.arf_nat, RN.arf_, if_neg (by omega), Rat.num_div_den]
    rw [RN.arb_eq, RN.arb_eq, harf, harf] at h
    have mono : ∀ {a b : ℚ}, round .near prec a < round .near prec b → a < b := fun {a b} hab => by
      by_contra hge
      exact absurd (round_mono .near (by omega) (not_lt.1 hge)) (not_le.2 hab)
    have hp1 := two_zpow_pos (Arf.logb (round .near prec p) - ((prec : ℤ) + 1))
    have hp2 := two_zpow_pos (Arf.logb (round .near prec q) - ((prec : ℤ) + 1))
    unfold Ball.lt at h
    simp only [allLt, allLe, decide_eq_true_eq] at h
    split_ifs at h with h1 h2
    · cases h
      simp only [true_iff]
      exact mono (by linarith)
    · cases h
      simp only [Bool.false_eq_true, false_iff, not_lt]
      exact (mono (by linarith)).le

/-- **C23** (termination): `<` returns if the numbers differ (or are the same object). -/
theorem real_lt_terminates {x y : RN} (hx : x.WF) (hy : y.WF) (hne : x = y ∨ x.real atoms ≠ y.real atoms) :
    ∃ r N, ∀ fuel, N ≤ fuel → RN.ltRN atoms fuel x y = .ok r := by
  by_cases he : x = y
  · exact ⟨false, 0, fun fuel _ => by rw [RN.ltRN, if_pos he]⟩
  · have hne := hne.resolve_left he
    have ht := (RN.arb_tends atoms hx).lt_isSome (RN.arb_tends atoms hy) hne
    obtain ⟨k, hk⟩ := ((tendsto_prec (show 0 < 2 by norm_num)).eventually ht).exists
    obtain ⟨r, N, hN⟩ := search_terminates (f := fun _ p => .ok ((x.arb atoms p).lt (y.arb atoms p)))
      (g := fun k => (x.arb atoms (2 * 2 ^ k)).lt (y.arb atoms (2 * 2 ^ k))) (prec := 2) (fun k => ⟨0, fun _ _ => rfl⟩) ⟨k, hk⟩
    refine ⟨r, N, fun fuel hf => ?_⟩
    rw [RN.ltRN, if_neg he, RN.ltLoop_eq_search atoms x y fuel 2 _ _ le_rfl (hasAccuracy_zeroPmInf _)
      (hasAccuracy_zeroPmInf _)]
    exact hN fuel hf

/-! ### against `Arf`, `mpz_class` and the integer types -/

theorem eqArf_iff (x : RN) (a : ℚ) : x.eqArf a = true ↔ x = .rat a := by
  cases x with
  | rat q =>
    simp only [RN.eqArf, RN.rational?, decide_eq_true_eq, RN.rat.injEq]
    have hd : (q.den : ℚ) ≠ 0 := by exact_mod_cast q.den_nz
    constructor
    · intro h
      rw [← Rat.num_div_den q, ← h]; field_simp
    · rintro rfl; exact Rat.mul_den_eq_num q
  | atom i => simp [RN.eqArf, RN.rational?]
  | prod m => simp [RN.eqArf, RN.rational?]

theorem ltArf_ok {fuel : ℕ} {x : RN} {a : ℚ} {r : Bool} (h : RN.ltArf atoms fuel x a = .ok r) :
    (x = .rat a ∧ r = false) ∨ (x ≠ .rat a ∧ ∃ prec, 2 ≤ prec ∧ (x.arb atoms prec).lt (exact a) = some r) := by
  rw [RN.ltArf] at h
  split_ifs at h with he
  · cases h; exact .inl ⟨(eqArf_iff x a).1 he, rfl⟩
  · rw [RN.ltArfLoop_eq_search atoms x _ fuel 2 _ le_rfl (hasAccuracy_zeroPmInf _)] at h
    obtain ⟨k, hk⟩ := search_ok h
    exact .inr ⟨fun h => he ((eqArf_iff x a).2 h), 2 * 2 ^ k, prec_ge k, by simpa using hk⟩

/-- **C23** against floating point numbers and integers: `x < a` and `x > a` are right if the distance of `x` and `a` exceeds `11/16 |x|`,
or only `5/32 |x|` if `x` is not a product.  In particular the comparison with 0 is right. -/
theorem real_lt_arf_partial {fuel : ℕ} {x : RN} {a : ℚ} (hx : x.WF) {r : Bool}
    (hg : 11 / 16 * |x.real atoms| < |x.real atoms - a| ∨ ((∀ m, x ≠ .prod m) ∧ 5 / 32 * |x.real atoms| < |x.real atoms - a|)) :
    (RN.ltArf atoms fuel x a = .ok r → (r = true ↔ x.real atoms < a)) ∧ (RN.gtArf atoms fuel x a = .ok r → (r = true ↔ x.real atoms > a)) := by
  have key : ∀ {r : Bool}, RN.ltArf atoms fuel x a = .ok r → (r = true ↔ x.real atoms < a) := by
    intro r h
    rcases ltArf_ok atoms h with ⟨rfl, rfl⟩ | ⟨-, prec, hp, h⟩
    · simp [RN.real_rat]
    · obtain ⟨x1, x2⟩ := slack_two atoms hx hp
      rcases hg with hg | ⟨hxp, hg⟩
      · exact lt_of_gap x1 (slack_exact a) h (by linarith)
      · exact lt_of_gap (x2 hxp) (slack_exact a) h (by linarith)
  refine ⟨key, fun h => ?_⟩
  rw [RN.gtArf] at h
  split_ifs at h with he
  · cases h
    rw [(eqArf_iff x a).1 he]; simp [RN.real_rat]
  · obtain ⟨s, h1, h2⟩ := Out.bind_eq_ok.1 h
    cases h2
    have := key h1
    have hne : x.real atoms ≠ a := by
      intro h
      have hn := abs_nonneg (x.real atoms)
      rw [h, sub_self, abs_zero] at hg
      rw [h] at hn
      rcases hg with hg | ⟨-, hg⟩ <;> linarith
    cases s with
    | true => simpa using (this.1 rfl).le
    | false =>
      simp only [Bool.false_eq_true, false_iff, not_lt] at this
      simpa using lt_of_le_of_ne this (Ne.symm hne)

/-- **C23**: the sign is right. -/
theorem real_sign {fuel : ℕ} {x : RN} (hx : x.WF) {r : Bool} :
    (RN.ltArf atoms fuel x 0 = .ok r → (r = true ↔ x.real atoms < 0)) ∧ (RN.gtArf atoms fuel x 0 = .ok r → (r = true ↔ x.real atoms > 0)) := by
  by_cases h0 : x.real atoms = 0
  · have := RN.real_eq_zero atoms hx h0
    subst this
    have he : (RN.rat 0).eqArf 0 = true := (eqArf_iff _ _).2 rfl
    constructor
    · intro h; rw [RN.ltArf, if_pos he] at h; cases h; rw [h0]; simp
    · intro h; rw [RN.gtArf, if_pos he] at h; cases h; rw [h0]; simp
  · have hpos := abs_pos.2 h0
    have := real_lt_arf_partial atoms (fuel := fuel) (a := 0) (r := r) hx (.inl (by rw [Rat.cast_zero, sub_zero]; linarith))
    simpa using this

/-- **C23** (termination) against floating point numbers and integers. -/
theorem real_lt_arf_terminates {x : RN} {a : ℚ} (hx : x.WF) (hne : x = .rat a ∨ x.real atoms ≠ a) :
    ∃ r N, ∀ fuel, N ≤ fuel → RN.ltArf atoms fuel x a = .ok r := by
  by_cases he : x.eqArf a = true
  · exact ⟨false, 0, fun fuel _ => by rw [RN.ltArf, if_pos he]⟩
  · have hne := hne.resolve_left fun h => he ((eqArf_iff x a).2 h)
    have ht := (RN.arb_tends atoms hx).lt_isSome (tends_exact a) hne
    obtain ⟨k, hk⟩ := ((tendsto_prec (show 0 < 2 by norm_num)).eventually ht).exists
    obtain ⟨r, N, hN⟩ := search_terminates (f := fun _ p => .ok ((x.arb atoms p).lt (exact a)))
      (g := fun k => (x.arb atoms (2 * 2 ^ k)).lt (exact a)) (prec := 2) (fun k => ⟨0, fun _ _ => rfl⟩) ⟨k, hk⟩
    refine ⟨r, N, fun fuel hf => ?_⟩
    rw [RN.ltArf, if_neg he, RN.ltArfLoop_eq_search atoms x _ fuel 2 _ le_rfl (hasAccuracy_zeroPmInf _)]
    exact hN fuel hf

/-! ### against `mpq_class` -/

variable {F : Arith}

theorem scaled_slack (hF : F.Lawful) {x : RN} (hx : x.WF) (q : ℚ) {prec : ℕ} (hp : 64 ≤ prec) :
    Slack (2 ^ (-(61 : ℤ)) * |x.real atoms| * q.den) ((x.arb atoms prec).scaled F q) (x.real atoms * q.den) := by
  by_cases h0 : x.real atoms = 0
  · have := RN.real_eq_zero atoms hx h0
    subst this
    have hc : ((RN.rat 0).arb atoms prec).Contains ((RN.rat 0).real atoms) := by
      rw [RN.arb_eq, contains_iff rfl, RN.arf_nat, RN.arf_rat_zero, h0]
      simp only [Rat.cast_zero, sub_zero, abs_zero]
      push_cast; positivity
    have hfin : ((RN.rat 0).arb atoms prec).Finite := (RN.arb_near atoms hx (by omega)).1.finite
    have := (scaled_contains hF hc q).near (hF.mul_finite _ _ _ hfin (finite_exact _))
    have := this.slack
    exact this.mono (by rw [h0]; simp)
  · have hd := den_pos' q
    have hne : x.arf atoms prec ≠ 0 := by rw [RN.arf_nat]; exact (RN.arf_error atoms hx h0 prec (by omega)).1
    obtain ⟨n1, -⟩ := RN.arb_near atoms hx (show 2 ≤ prec by omega)
    have hn := hF.mul_near (c := 5) (by norm_num) ARF_PREC_EXACT n1 (b := exact q.den) (y := q.den) ((contains_exact _ _).2 (by simp))
      (finite_exact _)
    refine Slack.mono (Near.slack hn) ?_
    have hrad := hF.mul_exact_radius (x.arb atoms prec) (exact q.den) n1.finite (finite_exact _)
    have hr := RN.arb_radius atoms x prec hne
    have hexr : (exact (q.den : ℚ)).radius = 0 := rfl
    have hexm : (exact (q.den : ℚ)).mid = q.den := rfl
    rw [hexr, hexm, mul_zero, mul_zero, zero_add, add_zero, abs_of_pos (by exact_mod_cast q.den_pos)] at hrad
    have hrad' := (Rat.cast_le (K := ℝ)).2 hrad
    have hr' := (Rat.cast_le (K := ℝ)).2 hr
    push_cast at hrad' hr'
    have hb : |(x.arf atoms prec : ℝ)| ≤ 11 / 8 * |x.real atoms| := by
      have h1 := (arf_relative_error_product_partial atoms x hx prec).1 (by omega)
      have h2 := abs_sub_abs_le_abs_sub (x.arf atoms prec : ℝ) (x.real atoms)
      have h3 := two_pow_neg_le prec (by omega)
      have h4 := abs_nonneg (x.real atoms)
      nlinarith
    have h65 : (2 : ℝ) ^ (-((prec : ℤ) + 1)) ≤ 2 ^ (-(65 : ℤ)) := zmonoR (by omega)
    have h16 : (2 : ℝ) ^ (-(61 : ℤ)) = 16 * 2 ^ (-(65 : ℤ)) := by norm_num
    have hp65 := zposR (-(65 : ℤ))
    have hxn := abs_nonneg (x.real atoms)
    have e1 : ((x.arb atoms prec).radius : ℝ) ≤ 2 ^ (-(65 : ℤ)) * (11 / 8 * |x.real atoms|) :=
      hr'.trans (mul_le_mul h65 hb (abs_nonneg _) hp65.le)
    have e2 : (4 : ℝ) * ((F.mul ARF_PREC_EXACT (x.arb atoms prec) (exact q.den)).radius : ℝ) ≤
        8 * q.den * (2 ^ (-(65 : ℤ)) * (11 / 8 * |x.real atoms|)) := by
      have := mul_le_mul_of_nonneg_left e1 hd.le
      linarith
    rw [h16]
    have e3 : 0 ≤ 2 ^ (-(65 : ℤ)) * |x.real atoms| * (q.den : ℝ) := by positivity
    calc ((5 : ℝ) - 1) * ((F.mul ARF_PREC_EXACT (x.arb atoms prec) (exact q.den)).radius : ℝ)
        = 4 * ((F.mul ARF_PREC_EXACT (x.arb atoms prec) (exact q.den)).radius : ℝ) := by ring
      _ ≤ _ := e2
      _ = 11 * (2 ^ (-(65 : ℤ)) * |x.real atoms| * q.den) := by ring
      _ ≤ 16 * (2 ^ (-(65 : ℤ)) * |x.real atoms| * q.den) := by linarith
      _ = _ := by ring

theorem gap_scaled {x q : ℝ} {d : ℝ} (hd : 0 < d) {s : ℝ} (h : s < |x - q|) : s * d + 0 < |x * d - q * d| := by
  rw [← sub_mul, abs_mul, abs_of_pos hd, add_zero]
  exact mul_lt_mul_of_pos_right h hd

/-- **C23** against rationals: exact for a rational `x`, otherwise right if the distance exceeds `2^-61 |x|`. -/
theorem real_lt_rational_partial (hF : F.Lawful) {fuel : ℕ} {x : RN} {q : ℚ} (hx : x.WF) {r : Bool}
    (hg : (∃ p, x = .rat p) ∨ 2 ^ (-(61 : ℤ)) * |x.real atoms| < |x.real atoms - q|) :
    (RN.ltQ atoms F fuel x q = .ok r → (r = true ↔ x.real atoms < q)) ∧ (RN.gtQ atoms F fuel x q = .ok r → (r = true ↔ x.real atoms > q)) := by
  cases hr : x.rational? with
  | some p =>
    have hxp : x = .rat p := by
      cases x <;> simp [RN.rational?] at hr
      rw [hr]
    subst hxp
    rw [RN.ltQ, RN.gtQ, hr, RN.real_rat]
    constructor <;> (intro h; simp only at h; cases h; simp)
  | none =>
    have hg : 2 ^ (-(61 : ℤ)) * |x.real atoms| < |x.real atoms - q| := by
      rcases hg with ⟨p, rfl⟩ | hg
      · simp [RN.rational?] at hr
      · exact hg
    have hd := den_pos' q
    have hnum : Slack 0 (exact q.num) ((q : ℝ) * q.den) := by
      have : ((q : ℝ) * q.den) = ((q.num : ℚ) : ℝ) := by exact_mod_cast Rat.mul_den_eq_num q
      rw [this]; exact slack_exact _
    rw [RN.ltQ, RN.gtQ, hr]
    simp only [RN.cmpQLoop_eq_search]
    constructor
    · intro h
      obtain ⟨k, hk⟩ := search_ok h
      simp only [Out.ok.injEq] at hk
      have := lt_of_gap (scaled_slack atoms hF hx q (prec := 64 * 2 ^ k) (Nat.le_mul_of_pos_right _ (by positivity))) hnum hk
        (gap_scaled hd hg)
      rw [this, mul_lt_mul_iff_left₀ hd]
    · intro h
      obtain ⟨k, hk⟩ := search_ok h
      simp only [Out.ok.injEq] at hk
      have := lt_of_gap hnum (scaled_slack atoms hF hx q (prec := 64 * 2 ^ k) (Nat.le_mul_of_pos_right _ (by positivity))) hk
        (by rw [abs_sub_comm, add_comm]; exact gap_scaled hd hg)
      rw [this, mul_lt_mul_iff_left₀ hd]

/-- **C23** (termination) against rationals. -/
theorem real_lt_rational_terminates (hF : F.Lawful) {x : RN} {q : ℚ} (hx : x.WF) (hne : (∃ p, x = .rat p) ∨ x.real atoms ≠ q) :
    (∃ r N, ∀ fuel, N ≤ fuel → RN.ltQ atoms F fuel x q = .ok r) ∧ (∃ r N, ∀ fuel, N ≤ fuel → RN.gtQ atoms F fuel x q = .ok r) := by
  cases hr : x.rational? with
  | some p => exact ⟨⟨_, 0, fun fuel _ => by rw [RN.ltQ, hr]⟩, ⟨_, 0, fun fuel _ => by rw [RN.gtQ, hr]⟩⟩
  | none =>
    have hne : x.real atoms ≠ q := by
      rcases hne with ⟨p, rfl⟩ | h
      · simp [RN.rational?] at hr
      · exact h
    have hd := den_pos' q
    have hne' : x.real atoms * ((q.den : ℚ) : ℝ) ≠ ((q.num : ℚ) : ℝ) := by
      have : ((q : ℝ) * q.den) = ((q.num : ℚ) : ℝ) := by exact_mod_cast Rat.mul_den_eq_num q
      rw [← this]
      push_cast
      intro h
      exact hne (mul_right_cancel₀ hd.ne' h)
    have ht := hF.mul_exact_tends (RN.arb_tends atoms hx) (q.den : ℚ)
    constructor
    · obtain ⟨k, hk⟩ := ((tendsto_prec (show 0 < 64 by norm_num)).eventually (ht.lt_isSome (tends_exact q.num) hne')).exists
      obtain ⟨r, N, hN⟩ := search_terminates (f := fun _ p => .ok ((x.arb atoms p).ltQ F q))
        (g := fun k => (x.arb atoms (64 * 2 ^ k)).ltQ F q) (prec := 64) (fun k => ⟨0, fun _ _ => rfl⟩) ⟨k, hk⟩
      refine ⟨r, N, fun fuel hf => ?_⟩
      rw [RN.ltQ, hr]
      simp only [RN.cmpQLoop_eq_search]
      exact hN fuel hf
    · obtain ⟨k, hk⟩ := ((tendsto_prec (show 0 < 64 by norm_num)).eventually ((tends_exact q.num).lt_isSome ht hne'.symm)).exists
      obtain ⟨r, N, hN⟩ := search_terminates (f := fun _ p => .ok ((x.arb atoms p).gtQ F q))
        (g := fun k => (x.arb atoms (64 * 2 ^ k)).gtQ F q) (prec := 64) (fun k => ⟨0, fun _ _ => rfl⟩) ⟨k, hk⟩
      refine ⟨r, N, fun fuel hf => ?_⟩
      rw [RN.gtQ, hr]
      simp only [RN.cmpQLoop_eq_search]
      exact hN fuel hf

/-! ### counterexamples -/

theorem ltArf_one {x : RN} {a : ℚ} {r : Bool} (hne : x ≠ .rat a) (h : (x.arb atoms 2).lt (exact a) = some r) (fuel : ℕ) :
    RN.ltArf atoms (fuel + 1) x a = .ok r := by
  rw [RN.ltArf, if_neg (fun he => hne ((eqArf_iff x a).1 he)),
    RN.ltArfLoop_eq_search atoms x _ _ 2 _ le_rfl (hasAccuracy_zeroPmInf _), search, h]

theorem ltRN_one {x y : RN} {r : Bool} (hne : x ≠ y) (h : (x.arb atoms 2).lt (y.arb atoms 2) = some r) (fuel : ℕ) :
    RN.ltRN atoms (fuel + 1) x y = .ok r := by
  rw [RN.ltRN, if_neg hne, RN.ltLoop_eq_search atoms x y _ 2 _ _ le_rfl (hasAccuracy_zeroPmInf _)
    (hasAccuracy_zeroPmInf _), search, h]

theorem arb_two {x : RN} {a : ℚ} (h : x.arf atoms (2 : ℕ) = a) : x.arb atoms 2 = ⟨a, some (2 ^ (Arf.logb a - 3))⟩ := by
  rw [RN.arb_eq, h]
  norm_num

/-- `0.111111` -/
def sixOnes : Digits := ⟨finiteDigits 0b111111 6, 0, by decide⟩
/-- `0.101111` -/
def fiveOnes : Digits := ⟨finiteDigits 0b101111 6, 0, by decide⟩

theorem sixOnes_value : sixOnes.value = 63 / 64 := by
  rw [value_finite sixOnes 6 (fun i hi => by simp [sixOnes, finiteDigits, hi])]
  have : Digits.prefixValue sixOnes.digit 6 = 63 / 64 := by decide +kernel
  rw [this]; norm_num

theorem fiveOnes_value : fiveOnes.value = 47 / 64 := by
  rw [value_finite fiveOnes 6 (fun i hi => by simp [fiveOnes, finiteDigits, hi])]
  have : Digits.prefixValue fiveOnes.digit 6 = 47 / 64 := by decide +kernel
  rw [this]; norm_num

/-- **C23 is false** against floating point numbers and integers: `rational(21) < 22` is `false`; and for the random number
`x = 0.111111`, `x < 31/32` is `true`. -/
theorem real_lt_arf_fails (fuel : ℕ) :
    (RN.ltArf atoms (fuel + 1) (.rat 21) 22 = .ok false ∧ (RN.rat 21).real atoms < (22 : ℚ)) ∧
    (RN.ltArf (fun _ => .random sixOnes) (fuel + 1) (.atom 0) (31 / 32) = .ok true ∧
      (RN.atom 0).real (fun _ => .random sixOnes) > ((31 / 32 : ℚ) : ℝ)) := by
  refine ⟨⟨?_, ?_⟩, ?_, ?_⟩
  · refine ltArf_one atoms (by simp) ?_ fuel
    rw [arb_two atoms (a := 24) (by rw [RN.arf_nat, RN.arf_, if_neg (by norm_num)]; decide +kernel)]
    decide +kernel
  · rw [RN.real_rat]; norm_num
  · refine ltArf_one _ (by simp) ?_ fuel
    rw [arb_two _ (a := 7 / 8) (by
      rw [RN.arf_nat]
      show sixOnes.arf 2 = _
      rw [Digits.arf, first_eq_zero _ (by decide)]
      decide +kernel)]
    decide +kernel
  · rw [RN.real_atom]
    show sixOnes.value > _
    rw [sixOnes_value]; norm_num

/-- **C23 is false** for two real numbers: `rational(21/32) < 0.101111` is `false`. -/
theorem real_lt_fails (fuel : ℕ) :
    RN.ltRN (fun _ => .random fiveOnes) (fuel + 1) (.rat (21 / 32)) (.atom 0) = .ok false ∧
      (RN.rat (21 / 32)).real (fun _ => .random fiveOnes) < (RN.atom 0).real (fun _ => .random fiveOnes) := by
  constructor
  · refine ltRN_one _ (by simp) ?_ fuel
    rw [arb_two _ (a := 3 / 4) (by rw [RN.arf_nat, RN.arf_, if_neg (by norm_num)]; decide +kernel),
      arb_two _ (a := 5 / 8) (by
        rw [RN.arf_nat]
        show fiveOnes.arf 2 = _
        rw [Digits.arf, first_eq_zero _ (by decide)]
        decide +kernel)]
    decide +kernel
  · rw [RN.real_rat, RN.real_atom]
    show _ < fiveOnes.value
    rw [fiveOnes_value]; norm_num

/-- The gap hypotheses are met: `1 < 2` for the rationals, decided in the second iteration. -/
example : 5 / 32 * (|(RN.rat 1).real atoms| + |(RN.rat 2).real atoms|) < |(RN.rat 1).real atoms - (RN.rat 2).real atoms| := by
  rw [RN.real_rat, RN.real_rat]; norm_num

end ExactReal.Props
