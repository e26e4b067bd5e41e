import Verif.Lemma.IndependentAtoms
import Verif.Lemma.ElementOrder
import Mathlib.NumberTheory.Transcendental.Liouville.LiouvilleNumber
import Mathlib.RingTheory.Localization.Integral

/-! # When the ball of a random real number contains the number -/

namespace ExactReal

open Arf Ball Nat

/-- The tail after `n` digits is positive iff there is a one. -/
theorem Digits.prefixValue_lt_value (d : Digits) {n i : ℕ} (hi : n ≤ i) (h : d.digit i = true) : (prefixValue d.digit n : ℝ) < d.value := by
  have h1 : prefixValue d.digit n < prefixValue d.digit (i + 1) := by
    rw [prefixValue, h]
    have := prefixValue_mono d.digit hi
    have := two_zpow_pos (-((i : ℤ) + 1))
    simp only [if_true]; linarith
  have h2 : (prefixValue d.digit n : ℝ) < prefixValue d.digit (i + 1) := by exact_mod_cast h1
  exact h2.trans_le (d.prefixValue_le _)

theorem Digits.arf_log (d : Digits) (prec : ℕ) : Int.log 2 |d.arf prec| = -((d.first : ℤ) + 1) := by
  have h1 : (2 : ℚ) ^ (-((d.first : ℤ) + 1)) ≤ d.arf prec := by
    rw [← d.prefixValue_first_succ]
    exact prefixValue_mono _ (by omega)
  have h2 : d.arf prec < 2 ^ (-(d.first : ℤ)) := by
    have := d.prefixInt_lt (prec + 1)
    rw [Digits.arf, show d.first + prec + 1 = d.first + (prec + 1) by ring, prefixValue_eq_int]
    have h3 : (prefixInt d.digit (d.first + (prec + 1)) : ℚ) < 2 ^ (prec + 1) := by exact_mod_cast this
    have h4 := mul_lt_mul_of_pos_right h3 (two_zpow_pos (-((d.first + (prec + 1) : ℕ) : ℤ)))
    refine h4.trans_eq ?_
    rw [← zpow_natCast (2 : ℚ) (prec + 1), ← zadd]
    congr 1; push_cast; ring
  have hp := (two_zpow_pos (-((d.first : ℤ) + 1))).trans_le h1
  apply log_eq <;> rw [abs_of_pos hp]
  · exact h1
  · convert h2 using 2; ring

/-- The ball of a random real number contains the number exactly if the first digit that was not used is zero (or all others after it are). -/
theorem random_contains_iff (atoms : Atoms) {i : ℕ} {d : Digits} (hd : atoms i = .random d) (prec : ℕ) :
    ((RN.atom i).arb atoms prec).Contains ((RN.atom i).real atoms) ↔
      d.digit (d.first + prec + 1) = false ∨ ∀ j, d.first + prec + 1 < j → d.digit j = false := by
  have harf : (RN.atom i).arf atoms prec = d.arf prec := by
    rw [RN.arf_nat, RN.arf_, hd]; rfl
  have hreal : (RN.atom i).real atoms = d.value := by
    rw [RN.real_atom, hd]; rfl
  have hne : d.arf prec ≠ 0 := by
    intro h
    have h1 : (2 : ℚ) ^ (-((d.first : ℤ) + 1)) ≤ d.arf prec := by
      rw [← d.prefixValue_first_succ]
      exact Digits.prefixValue_mono _ (by omega)
    rw [h] at h1
    exact absurd h1 (not_le.2 (two_zpow_pos _))
  rw [RN.arb_eq, harf, hreal, contains_iff rfl, logb, if_neg hne, d.arf_log]
  set n := d.first + prec + 1 with hn
  have hle := d.prefixValue_le n
  have hexp : -((d.first : ℤ) + 1) - ((prec : ℤ) + 1) = -((n : ℤ) + 1) := by rw [hn]; push_cast; ring
  show |d.value - (Digits.prefixValue d.digit n : ℚ)| ≤ _ ↔ _
  rw [abs_of_nonneg (by linarith), hexp]
  push_cast
  constructor
  · intro h
    by_contra hno
    rw [not_or, Bool.not_eq_false, not_forall] at hno
    obtain ⟨h1, j, hj⟩ := hno
    rw [Classical.not_imp, Bool.not_eq_false] at hj
    have h2 := d.prefixValue_lt_value (n := n + 1) hj.1 hj.2
    rw [Digits.prefixValue, h1] at h2
    push_cast at h2
    simp only [if_true] at h2
    push_cast at h2
    linarith
  · rintro (h | h)
    · have h2 := d.value_le (n + 1)
      rw [Digits.prefixValue, h] at h2
      simp only [Bool.false_eq_true, if_false, add_zero] at h2
      push_cast at h2
      linarith
    · have hfin : d.value = Digits.prefixValue d.digit (n + 1) := by
        rw [d.value_split (n + 1)]
        have : ∀ i : ℕ, (if d.digit (i + (n + 1)) then (1 / 2 : ℝ) ^ (i + (n + 1) + 1) else 0) = 0 := by
          intro i; rw [h (i + (n + 1)) (by omega)]; simp
        simp_rw [this]; simp
      rw [hfin, Digits.prefixValue]
      have := zposR (-((n : ℤ) + 1))
      split_ifs <;> push_cast <;> linarith

/-- The ball of the rational number one contains it. -/
theorem one_contains (atoms : Atoms) {prec : ℕ} (hp : 1 ≤ prec) : ((RN.rat 1).arb atoms prec).Contains ((RN.rat 1).real atoms) := by
  have : (RN.rat 1).arf atoms prec = 1 := by
    rw [RN.arf_nat, RN.arf_, if_neg (by omega), Rat.num_div_den]
    exact round_eq_self _ hp ⟨1, 0, by rw [abs_one]; exact one_le_pow₀ (by norm_num), by simp⟩
  rw [RN.arb_eq, contains_iff rfl, RN.real_rat, this]
  simp only [Rat.cast_one, sub_self, abs_zero]
  push_cast; positivity


/-! ### a transcendental number whose balls contain it -/

/-- The digits of `∑ 2^-(n!)`, `n ≥ 2`. -/
def liouvilleDigits : Digits where
  digit i := decide (∃ n, n ≤ i + 1 ∧ 2 ≤ n ∧ n ! = i + 1)
  hasOne := ⟨1, by decide⟩

theorem liouvilleDigits_digit (i : ℕ) : liouvilleDigits.digit i = true ↔ ∃ n, 2 ≤ n ∧ n ! = i + 1 := by
  simp only [liouvilleDigits, decide_eq_true_eq]
  constructor
  · rintro ⟨n, -, h1, h2⟩; exact ⟨n, h1, h2⟩
  · rintro ⟨n, h1, h2⟩; exact ⟨n, h2 ▸ Nat.self_le_factorial n, h1, h2⟩

theorem liouvilleDigits_first : liouvilleDigits.first = 1 := by
  rw [Digits.first, Nat.find_eq_iff]
  constructor
  · decide
  · intro n hn
    interval_cases n; decide

theorem liouvilleDigits_value : liouvilleDigits.value = liouvilleNumber 2 - 1 := by
  have hs : Summable fun i : ℕ => 1 / (2 : ℝ) ^ i ! := LiouvilleNumber.summable (by norm_num)
  have h1 : liouvilleNumber 2 = 1 + ∑' n : ℕ, 1 / (2 : ℝ) ^ (n + 2)! := by
    rw [liouvilleNumber, ← hs.sum_add_tsum_nat_add 2]
    simp [Finset.sum_range_succ]
    norm_num
  rw [h1, add_sub_cancel_left, Digits.value]
  have hinj : Function.Injective fun n : ℕ => (n + 2)! - 1 := by
    intro a b h
    have ha := Nat.factorial_pos (a + 2)
    have hb := Nat.factorial_pos (b + 2)
    have h' : (a + 2)! = (b + 2)! := by simp only at h; omega
    have := (Nat.factorial_inj (n := a + 2) (m := b + 2) (by omega)).1 h'
    omega
  rw [← hinj.tsum_eq]
  · refine tsum_congr fun n => ?_
    have hp := Nat.factorial_pos (n + 2)
    have : liouvilleDigits.digit ((n + 2)! - 1) = true := (liouvilleDigits_digit _).2 ⟨n + 2, by omega, by omega⟩
    rw [if_pos this, Nat.sub_add_cancel hp, one_div, one_div, inv_pow]
  · intro i hi
    have : liouvilleDigits.digit i = true := by
      by_contra h
      rw [Function.mem_support, if_neg h] at hi
      exact hi rfl
    obtain ⟨n, h1, h2⟩ := (liouvilleDigits_digit i).1 this
    exact ⟨n - 2, by simp only [Nat.sub_add_cancel h1, h2]; omega⟩

theorem liouvilleDigits_transcendental : Transcendental ℚ liouvilleDigits.value := by
  have h := transcendental_liouvilleNumber (m := 2) le_rfl
  have h' : Transcendental ℚ (liouvilleNumber 2) := by
    unfold Transcendental at h ⊢
    rwa [← IsFractionRing.isAlgebraic_iff ℤ ℚ ℝ]
  have := h'.aeval_of_transcendental (f := Polynomial.X - Polynomial.C (1 : ℚ))
    (Polynomial.transcendental _ (by rw [Polynomial.natDegree_X_sub_C]; norm_num) (by rw [Polynomial.leadingCoeff_X_sub_C]; exact one_mem _))
  rw [map_sub, Polynomial.aeval_X, Polynomial.aeval_C, map_one] at this
  rwa [liouvilleDigits_value]

/-- Algebraically independent atoms, the first of which is that number. -/
theorem exists_liouville_atoms : ∃ atoms : Atoms, AlgebraicIndependent ℚ atoms.vals ∧ atoms 0 = .random liouvilleDigits := by
  obtain ⟨s, hsub, hs⟩ := exists_isTranscendenceBasis_superset (R := ℚ) (A := ℝ) (s := {liouvilleDigits.value})
    (algebraicIndependent_unique_type_iff.mpr liouvilleDigits_transcendental)
  have hinf : Infinite s := infinite_of_isTranscendenceBasis hs
  set z : s := ⟨liouvilleDigits.value, hsub rfl⟩
  -- an injective sequence that starts with `z`
  obtain ⟨f, hf, hf0⟩ : ∃ f : ℕ → s, Function.Injective f ∧ f 0 = z := by
    set g := Infinite.natEmbedding s
    refine ⟨Equiv.swap (g 0) z ∘ g, (Equiv.injective _).comp g.injective, by simp⟩
  have hv := hs.1.comp _ hf
  have hw := hv.polynomial_aeval_of_transcendental (f := fun i => Polynomial.X - Polynomial.C (⌊(f i : ℝ)⌋ : ℚ)) fun i => by
    exact Polynomial.transcendental _ (by rw [Polynomial.natDegree_X_sub_C]; norm_num) (by rw [Polynomial.leadingCoeff_X_sub_C]; exact one_mem _)
  have he : (fun i => Polynomial.aeval (f i : ℝ) (Polynomial.X - Polynomial.C (⌊(f i : ℝ)⌋ : ℚ))) = fun i => Int.fract (f i : ℝ) := by
    funext i
    rw [map_sub, Polynomial.aeval_X, Polynomial.aeval_C, Int.fract]
    congr 1
  have hw' : AlgebraicIndependent ℚ fun i => Int.fract (f i : ℝ) := by rw [← he]; exact hw
  have hd : ∀ i, ∃ d : Digits, d.value = Int.fract (f i : ℝ) := fun i => by
    refine exists_digits (lt_of_le_of_ne (Int.fract_nonneg _) fun h => ?_) (Int.fract_lt_one _)
    exact hw'.ne_zero i h.symm
  choose d hd using hd
  have hlt : liouvilleDigits.value < 1 := by
    have := liouvilleDigits.value_le 1
    have h0 : Digits.prefixValue liouvilleDigits.digit 1 = 0 := liouvilleDigits.prefixValue_first (by rw [liouvilleDigits_first])
    rw [h0] at this
    norm_num at this
    linarith
  have hpos : 0 ≤ liouvilleDigits.value := by
    have := liouvilleDigits.prefixValue_le 0
    simpa [Digits.prefixValue] using this
  refine ⟨fun i => if i = 0 then .random liouvilleDigits else .random (d i), ?_, by simp⟩
  have : Atoms.vals (fun i => if i = 0 then .random liouvilleDigits else .random (d i)) = fun i => Int.fract (f i : ℝ) := by
    funext i
    by_cases hi : i = 0
    · subst hi
      show liouvilleDigits.value = _
      rw [hf0]
      exact (Int.fract_eq_self.2 ⟨hpos, hlt⟩).symm
    · simp only [Atoms.vals, if_neg hi]
      exact hd i
  rw [this]; exact hw'

/-- The balls of that number that comparisons in the module generated by 1 and the number use contain it. -/
theorem liouville_contained {P : Type} (atoms : Atoms) (h0 : atoms 0 = .random liouvilleDigits) (p : P) (start : ℕ) (hs : 64 ∣ start) (hs0 : 0 < start) :
    (⟨p, [.rat 1, .atom 0]⟩ : Mod P).ContainedFrom atoms start := by
  intro k g hg j
  have hlen : Nat.clog 2 ([.rat 1, .atom 0] : List RN).length = 1 := by decide
  simp only [hlen]
  simp only [List.mem_cons, List.not_mem_nil, or_false] at hg
  have hpos : 0 < 2 ^ k := by positivity
  have hposj : 0 < 2 ^ j := by positivity
  rcases hg with rfl | rfl
  · exact one_contains atoms (Nat.mul_pos (by omega) hposj)
  · rw [random_contains_iff atoms h0, liouvilleDigits_first]
    left
    rw [← Bool.not_eq_true, liouvilleDigits_digit]
    rintro ⟨n, hn, h⟩
    have h2 : 2 ∣ n ! := Nat.dvd_factorial (by norm_num) hn
    cases j with
    | succ j =>
      rw [h] at h2
      have : 2 ∣ (start * 2 ^ k + 1) * 2 ^ (j + 1) := Dvd.dvd.mul_left (dvd_pow_self 2 (by omega)) _
      omega
    | zero =>
      rw [pow_zero, mul_one] at h
      have h64 : 64 ∣ start * 2 ^ k := Dvd.dvd.mul_right hs _
      have hge : 64 ≤ start * 2 ^ k := Nat.le_of_dvd (Nat.mul_pos hs0 hpos) h64
      by_cases hn6 : n < 6
      · interval_cases n <;> simp [Nat.factorial] at h <;> omega
      · have h16 : 16 ∣ n ! := Dvd.dvd.trans (by decide) (Nat.factorial_dvd_factorial (not_lt.1 hn6))
        rw [h] at h16
        omega

/-- The same for the balls that the conversion to `double` uses. -/
theorem liouville_contained55 {P : Type} (atoms : Atoms) (h0 : atoms 0 = .random liouvilleDigits) (p : P) :
    (⟨p, [.rat 1, .atom 0]⟩ : Mod P).ContainedFrom atoms 55 ∧ (⟨p, [.atom 0]⟩ : Mod P).ContainedFrom atoms 55 := by
  have key : ∀ prec : ℕ, 25 ≤ prec → (prec % 2 = 0 ∨ prec % 5 = 1) → ((RN.atom 0).arb atoms prec).Contains ((RN.atom 0).real atoms) := by
    intro prec hge hp
    rw [random_contains_iff atoms h0, liouvilleDigits_first]
    left
    rw [← Bool.not_eq_true, liouvilleDigits_digit]
    rintro ⟨n, hn, h⟩
    have h2 : 2 ∣ n ! := Nat.dvd_factorial (by norm_num) hn
    by_cases hn5 : n < 5
    · interval_cases n <;> simp [Nat.factorial] at h <;> omega
    · have h5 : 5 ∣ n ! := Nat.dvd_factorial (by norm_num) (not_lt.1 hn5)
      rw [h] at h2 h5
      omega
  have h55 : ∀ k, 55 ≤ 55 * 2 ^ k := fun k => Nat.le_mul_of_pos_right _ (by positivity)
  have hle : ∀ a j : ℕ, a ≤ a * 2 ^ j := fun a j => Nat.le_mul_of_pos_right _ (by positivity)
  constructor
  · intro k g hg j
    have hlen : Nat.clog 2 ([.rat 1, .atom 0] : List RN).length = 1 := by decide
    simp only [hlen]
    simp only [List.mem_cons, List.not_mem_nil, or_false] at hg
    have e1 := h55 k
    have e2 := hle (55 * 2 ^ k + 1) j
    rcases hg with rfl | rfl
    · exact one_contains atoms (by omega)
    · refine key _ (by omega) ?_
      cases j with
      | zero => right; omega
      | succ j =>
        left
        have : 2 ∣ (55 * 2 ^ k + 1) * 2 ^ (j + 1) := Dvd.dvd.mul_left (dvd_pow_self 2 (by omega)) _
        omega
  · intro k g hg j
    have hlen : Nat.clog 2 ([.atom 0] : List RN).length = 0 := by decide
    simp only [hlen, add_zero]
    simp only [List.mem_cons, List.not_mem_nil, or_false] at hg
    subst hg
    rw [mul_assoc, ← pow_add]
    have e1 := h55 (k + j)
    by_cases hkj : k + j = 0
    · rw [hkj]
      rw [random_contains_iff atoms h0, liouvilleDigits_first]
      left
      rw [← Bool.not_eq_true, liouvilleDigits_digit]
      rintro ⟨n, hn, h⟩
      have h2 : n < 5 := by
        by_contra h5
        have : 5 ! ≤ n ! := Nat.factorial_le (not_lt.1 h5)
        simp [Nat.factorial] at this h
        omega
      interval_cases n <;> simp [Nat.factorial] at h
    · refine key _ (by omega) (.inl ?_)
      have : 2 ∣ 55 * 2 ^ (k + j) := Dvd.dvd.mul_left (dvd_pow_self 2 hkj) _
      omega

end ExactReal
