import Verif.Props.Assertions

/-!
# C23: comparisons of real numbers that are always right

The approximations of random numbers are truncated and not rounded, so they are never above the number, and they are on the right side of
floating point numbers with few digits.
-/

namespace ExactReal.Props

open Arf Ball

variable (atoms : Atoms)

theorem ball_lt_finite {a b r s : ℚ} {res : Bool} (h : (⟨a, some r⟩ : Ball).lt ⟨b, some s⟩ = some res) :
    (res = true → a + r < b - s) ∧ (res = false → b + s ≤ a - r) := by
  unfold Ball.lt at h
  simp only [allLt, allLe, decide_eq_true_eq] at h
  split_ifs at h with h1 h2
  · cases h; exact ⟨fun _ => h1, fun h => by cases h⟩
  · cases h; exact ⟨fun h => (by cases h), fun _ => h2⟩

/-- Distinct floating point numbers of `p` digits are at least a unit in the last place apart. -/
theorem next_le {p : ℕ} (hp : 1 ≤ p) {a b : ℚ} (ha : Rep p a) (hb : Rep p b) (h0 : 0 < a) (h : a < b) : a + 2 ^ (Int.log 2 |a| + 1 - p) ≤ b := by
  obtain ⟨k, hk⟩ := multiple_of_log hp ha (g := Int.log 2 |a| + 1 - p) (fun _ => le_rfl)
  have hl : Int.log 2 |a| ≤ Int.log 2 |b| := log_mono h0.ne' (by rw [abs_of_pos h0, abs_of_pos (h0.trans h)]; exact h.le)
  obtain ⟨l, hl⟩ := multiple_of_log hp hb (g := Int.log 2 |a| + 1 - p) (fun _ => by omega)
  have hg := two_zpow_pos (Int.log 2 |a| + 1 - p)
  set g := (2 : ℚ) ^ (Int.log 2 |a| + 1 - p)
  have h1 : (k : ℚ) * g < l * g := by rw [← hk, ← hl]; exact h
  have h2 : k < l := by exact_mod_cast lt_of_mul_lt_mul_right h1 hg.le
  have h3 : (k : ℚ) + 1 ≤ l := by exact_mod_cast h2
  have := mul_le_mul_of_nonneg_right h3 hg.le
  rw [hk, hl]
  linarith

theorem random_lt {d₁ d₂ : Digits} {prec : ℕ} (h : d₁.arf prec < d₂.arf prec) : d₁.value ≤ d₂.value := by
  have h1 := next_le (by omega) (d₁.rep_arf prec) (d₂.rep_arf prec) (d₁.arf_pos prec) h
  rw [d₁.log_arf] at h1
  have h2 := d₁.value_le_arf prec
  have h3 := d₂.arf_le_value prec
  have h4 := (Rat.cast_le (K := ℝ)).2 h1
  push_cast at h4
  rw [show -((d₁.first : ℤ) + 1) + 1 - ((prec : ℤ) + 1) = -((d₁.first : ℤ) + 1) - prec by ring] at h4
  linarith

/-- **C23** for two random numbers: if the numbers differ the answer is right; if they are equal (but not the same object), `<` may answer
anything or not return. -/
theorem real_lt_random {fuel i j : ℕ} {d₁ d₂ : Digits} (hi : atoms i = .random d₁) (hj : atoms j = .random d₂) {r : Bool}
    (h : RN.ltRN atoms fuel (.atom i) (.atom j) = .ok r) (hne : i = j ∨ d₁.value ≠ d₂.value) :
    r = true ↔ (RN.atom i).real atoms < (RN.atom j).real atoms := by
  rcases ltRN_ok atoms h with ⟨he, rfl⟩ | ⟨hne', prec, hp, h⟩
  · rw [he]; simp
  · have hne : d₁.value ≠ d₂.value := hne.resolve_left fun h => hne' (by rw [h])
    rw [RN.real_atom, RN.real_atom, hi, hj]
    show _ ↔ d₁.value < d₂.value
    rw [RN.arb_eq, RN.arb_eq] at h
    have e1 : (RN.atom i).arf atoms prec = d₁.arf prec := by rw [RN.arf_nat, RN.arf_, hi]; rfl
    have e2 : (RN.atom j).arf atoms prec = d₂.arf prec := by rw [RN.arf_nat, RN.arf_, hj]; rfl
    rw [e1, e2] at h
    have hp1 := two_zpow_pos (Arf.logb (d₁.arf prec) - ((prec : ℤ) + 1))
    have hp2 := two_zpow_pos (Arf.logb (d₂.arf prec) - ((prec : ℤ) + 1))
    obtain ⟨ht, hf⟩ := ball_lt_finite h
    cases r with
    | true => simpa using lt_of_le_of_ne (random_lt (by linarith [ht rfl])) hne
    | false => simpa using random_lt (by linarith [hf rfl])

/-- **C23** for a random number against floating point numbers and integers: if `x < a` answers `false`, or `x > a` answers `true`, this is
right. -/
theorem real_lt_arf_random {fuel i : ℕ} {d : Digits} (hi : atoms i = .random d) {a : ℚ} :
    (RN.ltArf atoms fuel (.atom i) a = .ok false → ¬ (RN.atom i).real atoms < a) ∧
    (RN.gtArf atoms fuel (.atom i) a = .ok true → (RN.atom i).real atoms > a) := by
  have key : RN.ltArf atoms fuel (.atom i) a = .ok false → (RN.atom i).real atoms > a := by
    intro h
    rcases ltArf_ok atoms h with ⟨he, -⟩ | ⟨-, prec, hp, h⟩
    · cases he
    · rw [RN.arb_eq, Ball.exact] at h
      have e1 : (RN.atom i).arf atoms prec = d.arf prec := by rw [RN.arf_nat, RN.arf_, hi]; rfl
      rw [e1] at h
      have h1 := (ball_lt_finite h).2 rfl
      have hp1 := two_zpow_pos (Arf.logb (d.arf prec) - ((prec : ℤ) + 1))
      have h2 : a < d.arf prec := by linarith
      have h3 : (a : ℝ) < d.arf prec := by exact_mod_cast h2
      rw [RN.real_atom, hi]
      show (a : ℝ) < d.value
      linarith [d.arf_le_value prec]
  refine ⟨fun h => not_lt.2 (key h).le, fun h => ?_⟩
  rw [RN.gtArf] at h
  split_ifs at h with he
  · cases h
  obtain ⟨s, h1, h2⟩ := Out.bind_eq_ok.1 h
  cases s with
  | true => cases h2
  | false => exact key h1

theorem arf_side {x : RN} (hx : ∀ m, x ≠ .prod m) {a : ℚ} (ha : Rep 2 a) {prec : ℕ} (hp : 2 ≤ prec) :
    ((a : ℝ) < x.real atoms → a ≤ x.arf atoms prec) ∧ (x.real atoms ≤ a → x.arf atoms prec ≤ a) := by
  rw [RN.arf_nat]
  cases x with
  | prod m => exact absurd rfl (hx m)
  | rat q =>
    rw [RN.arf_, if_neg (by omega), Rat.num_div_den, RN.real_rat]
    exact ⟨fun h => le_round .near (by omega) (ha.mono hp) (by exact_mod_cast h.le),
      fun h => round_le .near (by omega) (ha.mono hp) (by exact_mod_cast h)⟩
  | atom i =>
    rw [RN.real_atom, RN.arf_]
    exact ⟨(atoms i).le_arf_of_lt (by omega) hp ha, (atoms i).arf_le_of_le (by omega) ha⟩

/-- **C23** against floating point numbers and integers with at most two binary digits (such as 0, ±1, ±2, ±3, ±1/2): the answer is right for
everything that is not a product. -/
theorem real_lt_arf_two_bits {fuel : ℕ} {x : RN} (hx : ∀ m, x ≠ .prod m) {a : ℚ} (ha : Rep 2 a) (hne : x = .rat a ∨ x.real atoms ≠ a) {r : Bool} :
    (RN.ltArf atoms fuel x a = .ok r → (r = true ↔ x.real atoms < a)) ∧ (RN.gtArf atoms fuel x a = .ok r → (r = true ↔ x.real atoms > a)) := by
  have key : ∀ {r : Bool}, x ≠ .rat a → RN.ltArf atoms fuel x a = .ok r → (r = true ↔ x.real atoms < a) := by
    intro r hxa h
    have hne := hne.resolve_left hxa
    rcases ltArf_ok atoms h with ⟨he, -⟩ | ⟨-, prec, hp, h⟩
    · exact absurd he hxa
    · obtain ⟨s1, s2⟩ := arf_side atoms hx ha hp
      rw [RN.arb_eq, Ball.exact] at h
      have hp1 := two_zpow_pos (Arf.logb (x.arf atoms prec) - ((prec : ℤ) + 1))
      obtain ⟨ht, hf⟩ := ball_lt_finite h
      cases r with
      | true =>
        have := ht rfl
        simp only [true_iff]
        refine lt_of_le_of_ne (not_lt.1 fun h => ?_) hne
        linarith [s1 h]
      | false =>
        have := hf rfl
        simp only [Bool.false_eq_true, false_iff, not_lt]
        refine (not_le.1 fun h => ?_).le
        linarith [s2 h]
  constructor
  · intro h
    by_cases hxa : x = .rat a
    · rw [RN.ltArf, if_pos ((eqArf_iff x a).2 hxa)] at h
      cases h
      rw [hxa, RN.real_rat]; simp
    · exact key hxa h
  · intro h
    rw [RN.gtArf] at h
    split_ifs at h with he
    · cases h
      rw [(eqArf_iff x a).1 he, RN.real_rat]; simp
    · have hxa : x ≠ .rat a := fun h => he ((eqArf_iff x a).2 h)
      have hne := hne.resolve_left hxa
      obtain ⟨s, h1, h2⟩ := Out.bind_eq_ok.1 h
      cases h2
      have := key hxa h1
      cases s with
      | true => simpa using (this.1 rfl).le
      | false =>
        simp only [Bool.false_eq_true, false_iff, not_lt] at this
        simpa using lt_of_le_of_ne this (Ne.symm hne)

/-- Small integers have at most two digits. -/
example : Rep 2 0 ∧ Rep 2 1 ∧ Rep 2 (-2) ∧ Rep 2 3 ∧ Rep 2 (1 / 2) ∧ Rep 2 (3 / 8) :=
  ⟨rep_zero 2, ⟨1, 0, by norm_num, by norm_num⟩, ⟨-2, 0, by norm_num, by norm_num⟩, ⟨3, 0, by norm_num, by norm_num⟩,
    ⟨1, -1, by norm_num, by norm_num⟩, ⟨3, -3, by norm_num, by norm_num⟩⟩

/-- Equality must be excluded: `0.0111… < 1/2` answers `true`. -/
theorem real_lt_arf_equal (fuel : ℕ) : RN.ltArf (fun _ => .random lateHalf) (fuel + 1) (.atom 0) (1 / 2) = .ok true ∧
    (RN.atom 0).real (fun _ => .random lateHalf) = ((1 / 2 : ℚ) : ℝ) := by
  constructor
  · refine ltArf_one _ (by simp) ?_ fuel
    rw [arb_two _ (a := 7 / 16) (by
      rw [RN.arf_nat]
      show lateHalf.arf 2 = _
      rw [Digits.arf, lateHalf_first]
      decide +kernel)]
    decide +kernel
  · rw [RN.real_atom]
    show lateHalf.value = _
    rw [lateHalf_value]; norm_num

/-- The hypotheses of `real_lt_random` are met: `0.111111 < 0.101111` is decided. -/
example (fuel : ℕ) : RN.ltRN (fun i => if i = 0 then .random sixOnes else .random fiveOnes) (fuel + 1) (.atom 0) (.atom 1) = .ok false := by
  refine ltRN_one _ (by simp) ?_ fuel
  rw [arb_two _ (a := 7 / 8) (by
        rw [RN.arf_nat]
        show sixOnes.arf 2 = _
        rw [Digits.arf, first_eq_zero _ (by decide)]
        decide +kernel),
      arb_two _ (a := 5 / 8) (by
        rw [RN.arf_nat]
        show fiveOnes.arf 2 = _
        rw [Digits.arf, first_eq_zero _ (by decide)]
        decide +kernel)]
  decide +kernel

/-- **C23** for integers: `x == n` says exactly that (for `n` a number that is not random); `x < n` and `x > n` are right for the integers 0, ±1, ±2, ±3 and all others with at most two
significant bits if `x` is not a product; in general if `x` is not close to `n`; and they return unless `x` is a random number with the value `n`. -/
theorem real_lt_integer_partial {x : RN} {n : ℤ} (hx : x.WF) :
    (x.eqZ n = true ↔ x = .rat n) ∧
    (∀ fuel r, ((∀ m, x ≠ .prod m) ∧ Rep 2 (n : ℚ) ∧ (x = .rat n ∨ x.real atoms ≠ n)) ∨ 11 / 16 * |x.real atoms| < |x.real atoms - n| ∨
        ((∀ m, x ≠ .prod m) ∧ 5 / 32 * |x.real atoms| < |x.real atoms - n|) →
      (RN.ltZ atoms fuel x n = .ok r → (r = true ↔ x.real atoms < n)) ∧ (RN.gtZ atoms fuel x n = .ok r → (r = true ↔ x.real atoms > n))) ∧
    (x = .rat n ∨ x.real atoms ≠ n → ∃ r N, ∀ fuel, N ≤ fuel → RN.ltZ atoms fuel x n = .ok r) := by
  have hc : (((n : ℚ)) : ℝ) = n := by push_cast; rfl
  refine ⟨eqArf_iff x n, fun fuel r h => ?_, fun h => ?_⟩
  · rw [← hc] at h ⊢
    rcases h with ⟨h1, h2, h3⟩ | h
    · exact real_lt_arf_two_bits atoms h1 h2 h3
    · exact real_lt_arf_partial atoms hx h
  · rw [← hc] at h
    exact real_lt_arf_terminates atoms hx h

/-- **C23** for integers is false of the code (finding F2): 21 < 22 is answered with false. -/
theorem real_lt_integer_fails (fuel : ℕ) : RN.ltZ atoms (fuel + 1) (.rat 21) 22 = .ok false ∧ (RN.rat 21).real atoms < (22 : ℤ) := by
  have := (real_lt_arf_fails atoms fuel).1
  refine ⟨by rw [RN.ltZ]; exact_mod_cast this.1, ?_⟩
  have h := this.2
  push_cast at h ⊢
  exact h

end ExactReal.Props
