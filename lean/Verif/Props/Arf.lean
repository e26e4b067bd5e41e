import Verif.Lemma.Dyadic

/-!
# C48: mantissa, exponent, shifts, floor, ceil and logb of an `Arf`

A finite `Arf` is a dyadic rational (`Arf.Dyadic`).
-/

namespace ExactReal.Props

open ExactReal

/-- **C48** (mantissa and exponent): a finite number is its mantissa times two to its exponent, the mantissa is odd unless the number is
zero, and these determine mantissa and exponent. -/
theorem arf_mantissa_exponent {x : ℚ} (hx : Arf.Dyadic x) :
    (Arf.mantissa x : ℚ) * 2 ^ Arf.exponent x = x ∧ (x ≠ 0 → Odd (Arf.mantissa x)) ∧ (x = 0 → Arf.mantissa x = 0 ∧ Arf.exponent x = 0) ∧
      ∀ m e : ℤ, Odd m → (m : ℚ) * 2 ^ e = x → m = Arf.mantissa x ∧ e = Arf.exponent x := by
  refine ⟨Arf.mantissa_mul hx, fun h => Int.odd_iff.2 (Arf.mantissa_odd h), ?_, ?_⟩
  · rintro rfl; exact ⟨Arf.mantissa_zero, Arf.exponent_zero⟩
  · intro m e hm he
    have hm' := Int.odd_iff.1 hm
    have h0 : x ≠ 0 := by
      rintro rfl
      rcases mul_eq_zero.1 he with h | h
      · have : m = 0 := by exact_mod_cast h
        rw [this] at hm'; simp at hm'
      · exact absurd h (Arf.two_zpow_pos e).ne'
    exact Arf.odd_unique hm' (Arf.mantissa_odd h0) (he.trans (Arf.mantissa_mul hx).symm)

example : Arf.Dyadic (40 / 1024) ∧ Arf.mantissa (40 / 1024) = 5 ∧ Arf.exponent (40 / 1024) = -7 :=
  ⟨⟨40, -10, by norm_num⟩, by decide +kernel, by decide +kernel⟩

/-- **C48** (constructor): `Arf(m, e)` has value `m·2^e` and reading mantissa and exponent back yields the same number. -/
theorem arf_of_mantissa_exponent (m e : ℤ) :
    Arf.ofMantissaExponent m e = m * 2 ^ e ∧
      Arf.ofMantissaExponent (Arf.mantissa (Arf.ofMantissaExponent m e)) (Arf.exponent (Arf.ofMantissaExponent m e)) =
        Arf.ofMantissaExponent m e :=
  ⟨rfl, Arf.mantissa_mul ⟨m, e, rfl⟩⟩

/-- **C48** (shifts): `<<` and `>>` multiply and divide by a power of two exactly and are inverse to each other. -/
theorem arf_shift (x : ℚ) (n : ℤ) :
    Arf.shiftLeft x n = x * 2 ^ n ∧ Arf.shiftRight x n = x / 2 ^ n ∧ Arf.shiftRight (Arf.shiftLeft x n) n = x ∧
      Arf.shiftLeft (Arf.shiftRight x n) n = x := by
  have h := (Arf.two_zpow_pos n).ne'
  refine ⟨rfl, ?_, ?_, ?_⟩ <;> simp only [Arf.shiftRight, Arf.shiftLeft, zpow_neg] <;> field_simp

/-- **C48** (floor): `floor` is the largest integer not exceeding the number. -/
theorem arf_floor (x : ℚ) : (Arf.floor x : ℚ) ≤ x ∧ ∀ n : ℤ, (n : ℚ) ≤ x → n ≤ Arf.floor x := by
  rw [Arf.floor, Rnd.toInt_int]
  exact ⟨Int.floor_le x, fun n h => Int.le_floor.2 h⟩

/-- **C48** (ceil): `ceil` is the smallest integer not below the number. -/
theorem arf_ceil (x : ℚ) : x ≤ (Arf.ceil x : ℚ) ∧ ∀ n : ℤ, x ≤ (n : ℚ) → Arf.ceil x ≤ n := by
  rw [Arf.ceil, Rnd.toInt_int]
  exact ⟨Int.le_ceil x, fun n h => Int.ceil_le.2 h⟩

/-- **C48** (logb): `logb` is the exponent of the largest power of two not exceeding the absolute value. -/
theorem arf_logb {x : ℚ} (hx : x ≠ 0) : (2 : ℚ) ^ Arf.logb x ≤ |x| ∧ |x| < 2 ^ (Arf.logb x + 1) := by
  rw [Arf.logb, if_neg hx]
  exact ⟨Arf.zpow_le_abs hx, Arf.abs_lt_zpow x⟩

example : Arf.logb (-40) = 5 ∧ Arf.logb (3 / 1024) = -9 := by decide +kernel

/-- The results of shifts and of all rounded operations are again finite `Arf`s. -/
theorem arf_dyadic_closed {x : ℚ} (hx : Arf.Dyadic x) (n : ℤ) : Arf.Dyadic (Arf.shiftLeft x n) ∧ Arf.Dyadic (Arf.shiftRight x n) := by
  obtain ⟨m, e, rfl⟩ := hx
  have h2 : (2 : ℚ) ≠ 0 := by norm_num
  exact ⟨⟨m, e + n, by rw [Arf.shiftLeft, zpow_add₀ h2]; ring⟩, ⟨m, e + -n, by rw [Arf.shiftRight, Arf.shiftLeft, zpow_add₀ h2]; ring⟩⟩

/-- **C48** (rounding): a rounded operation returns a number with at most `prec` binary digits that is the exact result when that has at
most `prec` digits, and otherwise lies in the requested direction: no number with `prec` digits lies strictly between the exact result
and the rounded one. -/
theorem arf_round_spec (r : Rnd) {prec : ℕ} (hp : 1 ≤ prec) (x : ℚ) :
    Arf.Rep prec (Arf.round r prec x) ∧ (Arf.Rep prec x → Arf.round r prec x = x) ∧
      (∀ z, Arf.Rep prec z → (z ≤ x → z ≤ Arf.round r prec x) ∧ (x ≤ z → Arf.round r prec x ≤ z)) ∧
      (r = .floor → Arf.round r prec x ≤ x) ∧ (r = .ceil → x ≤ Arf.round r prec x) ∧
      (r = .down → |Arf.round r prec x| ≤ |x|) ∧ (r = .up → |x| ≤ |Arf.round r prec x|) := by
  refine ⟨Arf.rep_round r x, Arf.round_eq_self r hp, fun z hz => ⟨Arf.le_round r hp hz, Arf.round_le r hp hz⟩, ?_, ?_, ?_, ?_⟩
  · rintro rfl; exact Arf.round_floor_le _ _
  · rintro rfl; exact Arf.le_round_ceil _ _
  · rintro rfl; exact Arf.abs_round_down _ _
  · rintro rfl; exact Arf.abs_round_up _ _

/-- **C48** (rounding to nearest): no number with `prec` digits is closer to the exact result. -/
theorem arf_round_nearest {prec : ℕ} (hp : 1 ≤ prec) (x z : ℚ) (hz : Arf.Rep prec z) :
    |Arf.round .near prec x - x| ≤ |z - x| := by
  by_cases hx : x = 0
  · subst hx; simp
  set u := Arf.ulp prec x with hu
  have hu0 : 0 < u := Arf.ulp_pos _ _
  have hr := Arf.abs_round_near_sub_le (prec : ℤ) hx
  set y := x / u with hy
  have hxy : x = y * u := by rw [hy]; field_simp
  -- the distance to z is at least the distance to the closest multiple of u on that side
  have h1 : Arf.round .near prec x - x = ((nearInt y : ℚ) - y) * u := Arf.round_sub_eq .near _ hx
  have hle : (z ≤ x → z ≤ (⌊y⌋ : ℚ) * u) ∧ (x ≤ z → (⌈y⌉ : ℚ) * u ≤ z) := by
    constructor
    · intro h
      have := Arf.le_round .floor hp hz h
      rwa [Arf.round_of_ne _ _ hx] at this
    · intro h
      have := Arf.round_le .ceil hp hz h
      rwa [Arf.round_of_ne _ _ hx] at this
  have hf := Int.floor_le y
  have hc := Int.le_ceil y
  have n1 : |(nearInt y : ℚ) - y| ≤ y - ⌊y⌋ := by
    have h0 := Int.floor_le y
    have h1 := Int.lt_floor_add_one y
    unfold nearInt
    split_ifs <;> push_cast <;> rw [abs_le] <;> constructor <;> linarith
  have n2 : |(nearInt y : ℚ) - y| ≤ ⌈y⌉ - y := by
    by_cases hi : (⌊y⌋ : ℚ) = y
    · have : nearInt y = ⌊y⌋ := by rw [← hi, nearInt_int, Int.floor_intCast]
      rw [this, hi, sub_self, abs_zero]; linarith
    · have h0 : (⌊y⌋ : ℚ) < y := lt_of_le_of_ne hf hi
      have h1 := Int.lt_floor_add_one y
      have hcf : ⌈y⌉ = ⌊y⌋ + 1 := by
        rw [Int.ceil_eq_iff]; push_cast; constructor <;> linarith
      rw [hcf]
      unfold nearInt
      split_ifs <;> push_cast <;> rw [abs_le] <;> constructor <;> linarith
  rw [h1, abs_mul, abs_of_pos hu0]
  rcases le_total z x with h | h
  · have h2 := hle.1 h
    rw [abs_of_nonpos (show z - x ≤ 0 by linarith)]
    have h3 := mul_le_mul_of_nonneg_right n1 hu0.le
    calc _ ≤ (y - ⌊y⌋) * u := h3
      _ = x - ⌊y⌋ * u := by rw [hxy]; ring
      _ ≤ _ := by linarith
  · have h2 := hle.2 h
    rw [abs_of_nonneg (show 0 ≤ z - x by linarith)]
    have h3 := mul_le_mul_of_nonneg_right n2 hu0.le
    calc _ ≤ (⌈y⌉ - y) * u := h3
      _ = ⌈y⌉ * u - x := by rw [hxy]; ring
      _ ≤ _ := by linarith

example : Arf.round .near 5 (1 / 3) = 21 / 64 ∧ Arf.round .down 5 (-1 / 3) = -21 / 64 ∧ Arf.round .ceil 3 9 = 10 ∧
    Arf.round .near 3 9 = 8 := by decide +kernel

end ExactReal.Props
