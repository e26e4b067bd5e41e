import Verif.Model.Rand48
import Verif.Lemma.Digits
import Mathlib.Data.Nat.ModEq
import Mathlib.Algebra.Order.Group.Nat
import Mathlib.NumberTheory.Fermat

/-! # The period of `rand48` -/

namespace ExactReal.Rand48

/-- The generator without reduction. -/
def step (x : ℕ) : ℕ := 0x5DEECE66D * x + 0xB

theorem next_modEq (x : ℕ) : next x ≡ step x [MOD 2 ^ 48] := Nat.mod_modEq _ _

theorem step_congr {k x y : ℕ} (h : x ≡ y [MOD k]) : step x ≡ step y [MOD k] := (h.mul_left _).add_right _

theorem next_congr {k x y : ℕ} (hk : k ≤ 48) (h : x ≡ y [MOD 2 ^ k]) : next x ≡ next y [MOD 2 ^ k] := by
  have hd : 2 ^ k ∣ 2 ^ 48 := pow_dvd_pow 2 hk
  exact ((next_modEq x).of_dvd hd).trans ((step_congr h).trans ((next_modEq y).of_dvd hd).symm)

theorem iter_congr {k x y : ℕ} (hk : k ≤ 48) (h : x ≡ y [MOD 2 ^ k]) (n : ℕ) : next^[n] x ≡ next^[n] y [MOD 2 ^ k] := by
  induction n with
  | zero => exact h
  | succ n ih => rw [Function.iterate_succ_apply', Function.iterate_succ_apply']; exact next_congr hk ih

theorem iter_modEq (n x : ℕ) : next^[n] x ≡ step^[n] x [MOD 2 ^ 48] := by
  induction n with
  | zero => rfl
  | succ n ih =>
    rw [Function.iterate_succ_apply', Function.iterate_succ_apply']
    exact (next_modEq _).trans (step_congr ih)

/-- After `2^j` steps the state has changed by an odd multiple of `2^j`. -/
theorem step_pow (j : ℕ) : ∃ u v : ℕ, ∀ x, step^[2 ^ j] x = (1 + 2 ^ (j + 2) * u) * x + 2 ^ j * (2 * v + 1) := by
  induction j with
  | zero => exact ⟨0x5DEECE66D / 4, 5, fun x => by simp [step]⟩
  | succ j ih =>
    obtain ⟨u, v, h⟩ := ih
    refine ⟨u + 2 ^ (j + 1) * u ^ 2, v + 2 ^ (j + 1) * u * v + 2 ^ j * u, fun x => ?_⟩
    rw [pow_succ 2 j, mul_two, Function.iterate_add_apply, h, h]
    ring

theorem iter_pow {j x : ℕ} (hj : j < 48) : next^[2 ^ j] x ≡ x + 2 ^ j [MOD 2 ^ (j + 1)] := by
  obtain ⟨u, v, h⟩ := step_pow j
  refine ((iter_modEq _ x).of_dvd (pow_dvd_pow 2 (by omega))).trans ?_
  rw [h, show (1 + 2 ^ (j + 2) * u) * x + 2 ^ j * (2 * v + 1) = (x + 2 ^ j) + 2 ^ (j + 1) * (2 * u * x + v) by ring]
  simp [Nat.ModEq]

theorem iter_pow_same {j x : ℕ} (hj : j ≤ 48) : next^[2 ^ j] x ≡ x [MOD 2 ^ j] := by
  obtain ⟨u, v, h⟩ := step_pow j
  refine ((iter_modEq _ x).of_dvd (pow_dvd_pow 2 (by omega))).trans ?_
  rw [h, show (1 + 2 ^ (j + 2) * u) * x + 2 ^ j * (2 * v + 1) = x + 2 ^ j * (4 * u * x + (2 * v + 1)) by ring]
  simp [Nat.ModEq]

theorem next_lt (x : ℕ) : next x < 2 ^ 48 := Nat.mod_lt _ (by norm_num)

theorem iter_lt {x : ℕ} (hx : x < 2 ^ 48) (n : ℕ) : next^[n] x < 2 ^ 48 := by
  cases n with
  | zero => exact hx
  | succ n => rw [Function.iterate_succ_apply']; exact next_lt _

/-- The first digit that is produced from a state: the highest bit of the next state. -/
def bit (x : ℕ) : Bool := index (output x) = 1

theorem bit_eq {x : ℕ} (hx : x < 2 ^ 48) : bit x = decide (2 ^ 47 ≤ x) := by
  simp only [bit, index, output, Nat.div_div_eq_div_mul, decide_eq_decide]
  constructor
  · intro h
    by_contra hc
    rw [Nat.div_eq_of_lt (by omega)] at h
    omega
  · intro h
    exact Nat.div_eq_of_lt_le (by omega) (by omega)

/-- The generator visits all states: any state is reached from any other. -/
theorem reach (x y : ℕ) (j : ℕ) (hj : j ≤ 48) : ∃ m, next^[m] x ≡ y [MOD 2 ^ j] := by
  induction j with
  | zero => exact ⟨0, by simp [Nat.ModEq, Nat.mod_one]⟩
  | succ j ih =>
    obtain ⟨m, hm⟩ := ih (by omega)
    by_cases h : next^[m] x ≡ y [MOD 2 ^ (j + 1)]
    · exact ⟨m, h⟩
    · refine ⟨2 ^ j + m, ?_⟩
      rw [Function.iterate_add_apply]
      refine (iter_pow (by omega)).trans ?_
      unfold Nat.ModEq at hm h ⊢
      have hp : 0 < 2 ^ j := by positivity
      rw [pow_succ] at h ⊢
      generalize 2 ^ j = k at *
      generalize next^[m] x = a at *
      have ha := Nat.mod_mul (x := a) (a := k) (b := 2)
      have hb := Nat.mod_mul (x := y) (a := k) (b := 2)
      have hc := Nat.mod_mul (x := a + k) (a := k) (b := 2)
      rw [Nat.add_mod_right, Nat.add_div_right _ hp] at hc
      rw [ha, hb] at h
      rw [hc, hb, hm]
      have h1 := Nat.mod_two_eq_zero_or_one (a / k)
      have h2 := Nat.mod_two_eq_zero_or_one (y / k)
      have h3 : (a / k).succ % 2 = (y / k) % 2 := by
        rw [hm] at h
        rcases h1 with h1 | h1 <;> rcases h2 with h2 | h2 <;> rw [h1, h2] at h <;> first | omega | exact absurd rfl h
      rw [h3]

/-- Half a period later all digits are flipped. -/
theorem bit_half {x : ℕ} (hx : x < 2 ^ 48) : bit (next^[2 ^ 47] x) = !bit x := by
  have h := iter_pow (j := 47) (x := x) (by norm_num)
  have hl := iter_lt hx (2 ^ 47)
  rw [bit_eq hl, bit_eq hx]
  unfold Nat.ModEq at h
  rw [Nat.mod_eq_of_lt hl] at h
  rw [h]
  by_cases hc : 2 ^ 47 ≤ x
  · simp only [hc, decide_true, Bool.not_true, decide_eq_false_iff_not, not_le]; omega
  · simp only [hc, decide_false, Bool.not_false, decide_eq_true_eq]; omega

theorem bit_half_odd {x : ℕ} (hx : x < 2 ^ 48) (k : ℕ) : bit (next^[2 ^ 47 * (2 * k + 1)] x) = !bit x := by
  induction k with
  | zero => rw [Nat.mul_zero, Nat.zero_add, Nat.mul_one]; exact bit_half hx
  | succ k ih =>
    rw [show 2 ^ 47 * (2 * (k + 1) + 1) = 2 ^ 47 + (2 ^ 47 + 2 ^ 47 * (2 * k + 1)) by ring, Function.iterate_add_apply,
      Function.iterate_add_apply, bit_half (iter_lt (iter_lt hx _) _), bit_half (iter_lt hx _), ih, Bool.not_not]

/-- Different states never produce the same digits. -/
theorem eq_of_bits {x y : ℕ} (hx : x < 2 ^ 48) (hy : y < 2 ^ 48) (h : ∀ i, bit (next^[i] x) = bit (next^[i] y)) : x = y := by
  obtain ⟨m, hm⟩ := reach x y 48 le_rfl
  have hm : next^[m] x = y := by
    unfold Nat.ModEq at hm
    rwa [Nat.mod_eq_of_lt (iter_lt hx m), Nat.mod_eq_of_lt hy] at hm
  have hper : ∀ k i, bit (next^[k * m + i] x) = bit (next^[i] x) := by
    intro k
    induction k with
    | zero => intro i; simp
    | succ k ih =>
      intro i
      rw [show (k + 1) * m + i = (k * m + i) + m by ring, Function.iterate_add_apply, hm, ← h, ih]
  by_cases hd : 2 ^ 48 ∣ m
  · obtain ⟨q, rfl⟩ := hd
    rw [← hm]
    have : ∀ q, next^[2 ^ 48 * q] x = x := by
      intro q
      induction q with
      | zero => rfl
      | succ q ih =>
        rw [Nat.mul_succ, Nat.add_comm, Function.iterate_add_apply, ih]
        have := iter_pow_same (j := 48) (x := x) le_rfl
        unfold Nat.ModEq at this
        rwa [Nat.mod_eq_of_lt (iter_lt hx _), Nat.mod_eq_of_lt hx] at this
    exact (this q).symm
  · exfalso
    have hm0 : m ≠ 0 := by rintro rfl; exact hd (dvd_zero _)
    obtain ⟨k, o, ho, rfl⟩ := Nat.exists_eq_two_pow_mul_odd hm0
    have hk : k < 48 := by
      by_contra hk
      exact hd (Dvd.dvd.mul_right (pow_dvd_pow 2 (by omega)) _)
    obtain ⟨q, rfl⟩ := ho
    have h1 := hper (2 ^ (47 - k)) 0
    rw [show 2 ^ (47 - k) * (2 ^ k * (2 * q + 1)) + 0 = 2 ^ 47 * (2 * q + 1) by
      rw [add_zero, ← mul_assoc, ← pow_add]; congr 2; omega, bit_half_odd hx] at h1
    simp at h1

theorem init_eq (seed : UInt32) : init seed = seed.toNat * 2 ^ 16 + 0x330e := by
  rw [init, Nat.shiftLeft_eq, Nat.mul_comm, Nat.two_pow_add_eq_or_of_lt (by norm_num)]

theorem init_lt (seed : UInt32) : init seed < 2 ^ 48 := by
  have := seed.toNat_lt
  rw [init_eq]; omega

theorem digit_eq (seed : UInt32) (i : ℕ) : digit seed i = bit (next^[i + 1] (init seed)) := rfl

theorem digit_half (seed : UInt32) (i : ℕ) : digit seed (i + 2 ^ 47) = !digit seed i := by
  rw [digit_eq, digit_eq, show i + 2 ^ 47 + 1 = 2 ^ 47 + (i + 1) by ring, Function.iterate_add_apply]
  exact bit_half (iter_lt (init_lt seed) _)

theorem exists_digit (seed : UInt32) (b : Bool) (n : ℕ) : ∃ i, n ≤ i ∧ i ≤ n + 2 ^ 47 ∧ digit seed i = b := by
  by_cases h : digit seed n = b
  · exact ⟨n, le_rfl, by omega, h⟩
  · refine ⟨n + 2 ^ 47, by omega, le_rfl, ?_⟩
    rw [digit_half]
    cases b <;> simpa using h

/-- The digits of `RandomRealNumber(seed)`. -/
def digits (seed : UInt32) : Digits := ⟨digit seed, let ⟨i, _, _, h⟩ := exists_digit seed true 0; ⟨i, h⟩⟩

theorem digit_injective {s t : UInt32} (h : digit s = digit t) : s = t := by
  have h1 : next (init s) = next (init t) := by
    refine eq_of_bits (next_lt _) (next_lt _) fun i => ?_
    have := congrFun h i
    rwa [digit_eq, digit_eq, Function.iterate_succ_apply, Function.iterate_succ_apply] at this
  have h2 : init s = init t := by
    have hs := init_lt s
    have ht := init_lt t
    have h3 : 0x5DEECE66D * init s + 0xB ≡ 0x5DEECE66D * init t + 0xB [MOD 2 ^ 48] := h1
    have h4 := Nat.ModEq.add_right_cancel' _ h3
    have h5 := Nat.ModEq.cancel_left_of_coprime (by norm_num) h4
    unfold Nat.ModEq at h5
    rwa [Nat.mod_eq_of_lt hs, Nat.mod_eq_of_lt ht] at h5
  rw [init_eq, init_eq] at h2
  exact UInt32.toNat_inj.1 (by omega)

end ExactReal.Rand48

namespace ExactReal.Digits

/-- A number whose digits are not all one from some point on is below the upper end of its intervals. -/
theorem value_lt (d : Digits) {n i : ℕ} (hi : n ≤ i) (h : d.digit i = false) : d.value < prefixValue d.digit n + 2 ^ (-(n : ℤ)) := by
  have h1 := d.value_le (i + 1)
  rw [prefixValue, h] at h1
  simp only [Bool.false_eq_true, if_false, add_zero] at h1
  have h2 : ∀ k, (prefixValue d.digit (n + k) : ℝ) + 2 ^ (-((n + k : ℕ) : ℤ)) ≤ prefixValue d.digit n + 2 ^ (-(n : ℤ)) := by
    intro k
    induction k with
    | zero => simp
    | succ k ih =>
      refine le_trans ?_ ih
      rw [← add_assoc, prefixValue]
      have e : (2 : ℝ) ^ (-((n + k : ℕ) : ℤ)) = 2 * 2 ^ (-((n + k + 1 : ℕ) : ℤ)) := by
        rw [← zpow_one_add₀ (by norm_num)]; congr 1; push_cast; ring
      rw [e]
      have hp : (0 : ℝ) < 2 ^ (-((n + k + 1 : ℕ) : ℤ)) := by positivity
      push_cast at hp ⊢
      split_ifs
      · push_cast; linarith
      · push_cast; linarith
  have h3 := h2 (i - n)
  rw [show n + (i - n) = i by omega] at h3
  have h4 : (2 : ℝ) ^ (-((i + 1 : ℕ) : ℤ)) < 2 ^ (-(i : ℤ)) := zpow_lt_zpow_right₀ (by norm_num) (by push_cast; omega)
  linarith

theorem prefixValue_congr {f g : ℕ → Bool} {n : ℕ} (h : ∀ i < n, f i = g i) : prefixValue f n = prefixValue g n := by
  induction n with
  | zero => rfl
  | succ n ih => rw [prefixValue, prefixValue, ih fun i hi => h i (by omega), h n (by omega)]

/-- Numbers with different digits are different, unless their digits are all one from some point on. -/
theorem value_ne {d₁ d₂ : Digits} (h1 : ∀ n, ∃ i, n ≤ i ∧ d₁.digit i = false) (h2 : ∀ n, ∃ i, n ≤ i ∧ d₂.digit i = false)
    (h : d₁.digit ≠ d₂.digit) : d₁.value ≠ d₂.value := by
  have key : ∀ {d₁ d₂ : Digits} {n : ℕ}, (∀ n, ∃ i, n ≤ i ∧ d₁.digit i = false) → (∀ i < n, d₁.digit i = d₂.digit i) → d₁.digit n = false →
      d₂.digit n = true → d₁.value < d₂.value := by
    intro d₁ d₂ n h1 hp hf ht
    obtain ⟨i, hi, hi'⟩ := h1 (n + 1)
    have a := d₁.value_lt hi hi'
    have b := d₂.prefixValue_le (n + 1)
    rw [prefixValue, hf, prefixValue_congr hp] at a
    rw [prefixValue, ht] at b
    push_cast at a b
    simp only [Bool.false_eq_true, if_false, if_true, add_zero] at a b
    push_cast at a b
    linarith
  obtain ⟨n, hn⟩ := Function.ne_iff.1 h
  have hex : ∃ n, d₁.digit n ≠ d₂.digit n := ⟨n, hn⟩
  classical
  have hf := Nat.find_spec hex
  have hlt : ∀ i < Nat.find hex, d₁.digit i = d₂.digit i := fun i hi => by simpa using Nat.find_min hex hi
  cases e1 : d₁.digit (Nat.find hex) <;> cases e2 : d₂.digit (Nat.find hex) <;> rw [e1, e2] at hf <;> simp at hf
  · exact (key h1 hlt e1 e2).ne
  · exact (key h2 (fun i hi => (hlt i hi).symm) e2 e1).ne'

/-- Dropping the first digits. -/
theorem value_shift {d₁ d₂ : Digits} {n : ℕ} (h : ∀ i, d₂.digit i = d₁.digit (i + n)) : d₂.value = 2 ^ n * d₁.value - prefixInt d₁.digit n := by
  rw [d₁.value_split n, value, prefixValue_eq_int]
  have e : ∀ i, (if d₁.digit (i + n) then (1 / 2 : ℝ) ^ (i + n + 1) else 0) = (1 / 2) ^ n * if d₂.digit i then (1 / 2 : ℝ) ^ (i + 1) else 0 := by
    intro i
    rw [h i]
    split_ifs
    · rw [← pow_add]; congr 1; ring
    · simp
  simp_rw [e, tsum_mul_left]
  have h2 : (2 : ℝ) ^ n * (1 / 2) ^ n = 1 := by rw [← mul_pow]; norm_num
  push_cast
  rw [← half_pow, mul_add]
  linear_combination (-(prefixInt d₁.digit n : ℝ) - (∑' i, if d₂.digit i then (1 / 2 : ℝ) ^ (i + 1) else 0)) * h2

end ExactReal.Digits
