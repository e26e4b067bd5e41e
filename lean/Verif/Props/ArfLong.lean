import Verif.Model.ArfLong
import Verif.Props.Arf

/-! # C48 in 64 bit arithmetic -/

namespace ExactReal.Props

/-- **C48** (shifts) with 64 bit integers: `<<` is right for all `long`s, `>>` for all but the smallest one, for which its behaviour is undefined. -/
theorem arf_shift_machine_partial (x : ℚ) (n : ℤ) (h1 : -2 ^ 63 ≤ n) (h2 : n < 2 ^ 63) :
    Arf.shiftLeftLong x n = .ok (x * 2 ^ n) ∧ (n ≠ -2 ^ 63 → Arf.shiftRightLong x n = .ok (x / 2 ^ n)) ∧
      (n = -2 ^ 63 → Arf.shiftRightLong x n = .ub) := by
  refine ⟨rfl, fun h => ?_, fun h => ?_⟩
  · have : long (-n) = .ok (-n) := if_pos (by omega)
    unfold Arf.shiftRightLong
    rw [this]
    show Out.ok (Arf.shiftRight x n) = _
    rw [(arf_shift x n).2.1]
  · have : long (-n) = .ub := if_neg (by omega)
    unfold Arf.shiftRightLong
    rw [this]
    rfl

/-- **C48** (logb) with 64 bit integers, for `2^l ≤ |x| < 2^(l+1)`: the result is `l` when `l` is a `long` but not the largest one. -/
theorem arf_logb_machine_partial {x : ℚ} {l : ℤ} (h1 : (2 : ℚ) ^ l ≤ |x|) (h2 : |x| < 2 ^ (l + 1)) :
    (-2 ^ 63 ≤ l → l < 2 ^ 63 - 1 → Arf.logbLong x = .ok l) ∧ (l < -2 ^ 63 ∨ 2 ^ 63 - 1 ≤ l → Arf.logbLong x = .ub) := by
  have hx : x ≠ 0 := by
    rintro rfl
    rw [abs_zero] at h1
    exact absurd h1 (not_le.2 (Arf.two_zpow_pos l))
  have hl := Arf.log_eq h1 h2
  have e : Arf.logbLong x = (Arf.fmpzGetSi (l + 1)).bind fun e => long (e - 1) := by
    unfold Arf.logbLong; rw [if_neg hx, hl]; rfl
  rw [e]
  constructor
  · intro h3 h4
    have a1 : Arf.fmpzGetSi (l + 1) = .ok (l + 1) := if_pos (by omega)
    rw [a1]
    show long (l + 1 - 1) = _
    rw [show l + 1 - 1 = l by ring]
    exact if_pos (by omega)
  · rintro (h | h)
    · by_cases h5 : l = -2 ^ 63 - 1
      · have a1 : Arf.fmpzGetSi (l + 1) = .ok (l + 1) := if_pos (by omega)
        rw [a1]
        show long (l + 1 - 1) = _
        exact if_neg (by omega)
      · have a1 : Arf.fmpzGetSi (l + 1) = .ub := if_neg (by omega)
        rw [a1]; rfl
    · have a1 : Arf.fmpzGetSi (l + 1) = .ub := if_neg (by omega)
      rw [a1]; rfl

/-- **C48, finding F42.**  The logarithm of `2^(2^63 - 1)` is a `long` but `logb` does not return it. -/
theorem arf_logb_fails : ∃ (x : ℚ) (l : ℤ), (2 : ℚ) ^ l ≤ |x| ∧ |x| < 2 ^ (l + 1) ∧ -2 ^ 63 ≤ l ∧ l < 2 ^ 63 ∧ Arf.logbLong x = .ub := by
  obtain ⟨l, hl⟩ : ∃ l : ℤ, l = 2 ^ 63 - 1 := ⟨_, rfl⟩
  have h1 : (2 : ℚ) ^ l ≤ |(2 : ℚ) ^ l| := le_abs_self _
  have h2 : |(2 : ℚ) ^ l| < 2 ^ (l + 1) := by
    have := Arf.two_zpow_pos l
    rw [abs_of_pos this, zpow_add₀ (by norm_num), zpow_one]
    linarith
  exact ⟨2 ^ l, l, h1, h2, by omega, by omega, (arf_logb_machine_partial h1 h2).2 (.inr (by omega))⟩

/-- **C48, finding F41.**  A shift to the right by the smallest `long` is undefined behaviour, for every number. -/
theorem arf_shift_fails (x : ℚ) : Arf.shiftRightLong x (-2 ^ 63) = .ub := (arf_shift_machine_partial x _ le_rfl (by norm_num)).2.2 rfl

/-- The hypotheses are met: `logb(40)` is 5. -/
example : Arf.logbLong 40 = .ok 5 := (arf_logb_machine_partial (l := 5) (by norm_num) (by norm_num)).1 (by norm_num) (by norm_num)

end ExactReal.Props
