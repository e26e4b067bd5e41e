import Verif.Lemma.Text
import Verif.Lemma.Arf
import Verif.Model.Format
import Verif.Spec.Format
import Mathlib.Data.Int.Log

/-! # Decimal numbers as streams write them -/

namespace ExactReal.Format
open Text Decimal

/-- Decimal digits. -/
def IsDigit (c : Char) : Prop := 48 ≤ c.toNat ∧ c.toNat ≤ 57

theorem digitChar_isDigit {d : ℕ} (h : d < 10) : IsDigit (digitChar d) ∧ digitValue (digitChar d) = d := by
  revert d; unfold IsDigit; decide +kernel

theorem isDigit_ne {c d : Char} (h : IsDigit c) (hd : ¬(48 ≤ d.toNat ∧ d.toNat ≤ 57)) : c ≠ d := by
  rintro rfl; exact hd h

theorem readNat_append (s t : Str) : readNat (s ++ t) = readNat s * 10 ^ t.length + readNat t := by
  have : ∀ (t : Str) (n : ℕ), t.foldl (fun n c => 10 * n + digitValue c) n = n * 10 ^ t.length + t.foldl (fun n c => 10 * n + digitValue c) 0 := by
    intro t
    induction t with
    | nil => intro n; simp
    | cons c t ih =>
      intro n
      rw [List.foldl_cons, List.foldl_cons, ih, ih (10 * 0 + _), List.length_cons]
      ring
  rw [readNat, List.foldl_append, this t]; rfl

theorem readNat_cons (c : Char) (s : Str) : readNat (c :: s) = digitValue c * 10 ^ s.length + readNat s := by
  have := readNat_append [c] s
  simpa [readNat] using this

theorem digitsOf_length (n m : ℕ) : (digitsOf n m).length = n := by simp [digitsOf]

theorem digitsOf_succ (n m : ℕ) : digitsOf (n + 1) m = digitChar (m / 10 ^ n % 10) :: digitsOf n m := by
  simp [digitsOf, List.range_succ]

theorem digitsOf_isDigit (n m : ℕ) : ∀ c ∈ digitsOf n m, IsDigit c := by
  intro c hc
  simp only [digitsOf, List.mem_map] at hc
  obtain ⟨i, -, rfl⟩ := hc
  exact (digitChar_isDigit (Nat.mod_lt _ (by norm_num))).1

theorem readNat_digitsOf (n m : ℕ) : readNat (digitsOf n m) = m % 10 ^ n := by
  induction n with
  | zero => simp [digitsOf, readNat, Nat.mod_one]
  | succ n ih =>
    rw [digitsOf_succ, readNat_cons, digitsOf_length, ih, (digitChar_isDigit (Nat.mod_lt _ (by norm_num))).2, pow_succ, Nat.mod_mul]
    ring

/-- Zeros at the end do not matter behind the point. -/
theorem stripZeros_spec (s : Str) : ∃ k, s = stripZeros s ++ List.replicate k '0' := by
  induction s using List.reverseRecOn with
  | nil => exact ⟨0, rfl⟩
  | append_singleton s c ih =>
    by_cases hc : c = '0'
    · obtain ⟨k, hk⟩ := ih
      have e : stripZeros (s ++ [c]) = stripZeros s := by simp [stripZeros, hc]
      refine ⟨k + 1, ?_⟩
      rw [e, hc, List.replicate_succ', ← List.append_assoc, ← hk]
    · refine ⟨0, ?_⟩
      simp [stripZeros, hc]

theorem readNat_zeros (k : ℕ) : readNat (List.replicate k '0') = 0 := by
  induction k with
  | zero => rfl
  | succ k ih => rw [List.replicate_succ, readNat_cons, ih]; rw [show digitValue '0' = 0 from by decide]; simp

theorem stripZeros_read (a s : Str) : (readNat (a ++ stripZeros s) : ℚ) / 10 ^ (stripZeros s).length = readNat (a ++ s) / 10 ^ s.length := by
  obtain ⟨k, hk⟩ := stripZeros_spec s
  have e : readNat (a ++ s) = readNat (a ++ stripZeros s) * 10 ^ k := by
    conv_lhs => rw [hk, ← List.append_assoc, readNat_append, readNat_zeros]
    simp
  have e2 : s.length = (stripZeros s).length + k := by
    conv_lhs => rw [hk]
    simp
  rw [e, e2, pow_add]
  push_cast
  rw [mul_div_mul_right _ _ (by positivity)]

theorem mem_stripZeros {s : Str} {c : Char} (h : c ∈ stripZeros s) : c ∈ s := by
  obtain ⟨k, hk⟩ := stripZeros_spec s
  rw [hk]; exact List.mem_append_left _ h

theorem readFixed_fraction {a s : Str} (ha : ∀ c ∈ a, IsDigit c) : readFixed (a ++ fraction s) = readNat (a ++ s) / 10 ^ s.length := by
  have hdot : ∀ d ∈ a, d ≠ '.' := fun d hd => isDigit_ne (ha d hd) (by decide)
  rw [← stripZeros_read]
  unfold fraction readFixed
  split_ifs with h
  · rw [List.append_nil, splitAt_none hdot, h]; simp
  · rw [splitAt_append hdot]

theorem isDigit_plain {c : Char} (h : IsDigit c) : Plain c := Or.inl h

theorem fraction_noE {s : Str} (hs : ∀ c ∈ s, IsDigit c) : ∀ c ∈ fraction s, IsDigit c ∨ c = '.' := by
  intro c hc
  unfold fraction at hc
  split_ifs at hc with h
  · cases hc
  · rcases List.mem_cons.1 hc with rfl | hc
    · exact Or.inr rfl
    · exact Or.inl (hs c (mem_stripZeros hc))

theorem getStr_nat_digit (n : ℕ) : ∀ c ∈ getStr 10 (n : ℤ), IsDigit c := by
  intro c hc
  unfold getStr at hc
  rw [if_neg (by omega), List.nil_append] at hc
  split_ifs at hc with h
  · rw [List.mem_singleton] at hc; subst hc; unfold IsDigit; decide
  · obtain ⟨d, hd, rfl⟩ := List.mem_map.1 hc
    exact (digitChar_isDigit (mem_digits (by norm_num) hd)).1

theorem readNat_digits (l : List ℕ) (hl : ∀ d ∈ l, d < 10) : readNat (l.map digitChar) = l.foldl (fun n d => n * 10 + d) 0 := by
  induction l using List.reverseRecOn with
  | nil => rfl
  | append_singleton l d ih =>
    rw [List.map_append, readNat_append, ih (fun d hd => hl d (by simp [hd])), List.foldl_append]
    simp [readNat, (digitChar_isDigit (hl d (by simp))).2]

theorem readNat_getStr (n : ℕ) : readNat (getStr 10 (n : ℤ)) = n := by
  unfold getStr
  rw [if_neg (by omega), List.nil_append]
  split_ifs with h
  · have : n = 0 := by omega
    subst this; decide
  · rw [readNat_digits _ (fun d hd => mem_digits (by norm_num) hd), foldl_digits, Int.natAbs_natCast, Nat.ofDigits_digits]

theorem exponent_read (e : ℤ) : ∃ s, exponent e = 'e' :: s ∧ readInt s = e ∧ ∀ c ∈ s, IsDigit c ∨ c = '+' ∨ c = '-' := by
  have key : readNat ((if e.natAbs < 10 then ['0'] else []) ++ getStr 10 e.natAbs) = e.natAbs := by
    rw [readNat_append, readNat_getStr]
    split_ifs <;> simp [readNat] ; decide
  have hc : ∀ c ∈ (if e.natAbs < 10 then ['0'] else []) ++ getStr 10 e.natAbs, IsDigit c := by
    intro c hc
    rcases List.mem_append.1 hc with hc | hc
    · split_ifs at hc
      · rw [List.mem_singleton] at hc; subst hc; unfold IsDigit; decide
      · cases hc
    · exact getStr_nat_digit _ c hc
  refine ⟨_, rfl, ?_, ?_⟩
  · by_cases h : e < 0
    · rw [if_pos h]
      show -((readNat _ : ℕ) : ℤ) = e
      rw [key]; omega
    · rw [if_neg h]
      show ((readNat _ : ℕ) : ℤ) = e
      rw [key]; omega
  · intro c h
    rcases List.mem_cons.1 h with rfl | h
    · split_ifs <;> simp
    · exact Or.inl (hc c h)

theorem log_le {x : ℚ} (hx : 0 < x) : (10 : ℚ) ^ Int.log 10 x ≤ x := by
  exact_mod_cast Int.zpow_log_le_self (b := 10) (by norm_num) hx

/-- The decimal number that is written: `P` digits, the relative error is at most half of the last digit. -/
theorem decimal_spec {P : ℕ} (hP : 0 < P) {x : ℚ} (hx : 0 < x) : 10 ^ (P - 1) ≤ (decimal P x).1 ∧ (decimal P x).1 < 10 ^ P ∧
    |((decimal P x).1 : ℚ) * 10 ^ ((decimal P x).2 - ((P : ℤ) - 1)) - x| ≤ 1 / 2 * 10 ^ (1 - (P : ℤ)) * x := by
  set e := Int.log 10 x with he
  have h1 : (10 : ℚ) ^ e ≤ x := by exact_mod_cast Int.zpow_log_le_self (b := 10) (by norm_num) hx
  have h2 : x < (10 : ℚ) ^ (e + 1) := by exact_mod_cast Int.lt_zpow_succ_log_self (b := 10) (by norm_num) x
  set u : ℚ := 10 ^ (e - ((P : ℤ) - 1)) with hu
  have hu0 : 0 < u := by positivity
  have hPe : ((P - 1 : ℕ) : ℤ) = (P : ℤ) - 1 := by omega
  have l1 : ((10 ^ (P - 1) : ℕ) : ℚ) ≤ x / u := by
    rw [le_div_iff₀ hu0, hu]
    push_cast
    rw [← zpow_natCast, hPe, ← zpow_add₀ (by norm_num)]
    rw [show (P : ℤ) - 1 + (e - ((P : ℤ) - 1)) = e by ring]; exact h1
  have l2 : x / u < ((10 ^ P : ℕ) : ℚ) := by
    rw [div_lt_iff₀ hu0, hu]
    push_cast
    rw [← zpow_natCast, ← zpow_add₀ (by norm_num)]
    rw [show (P : ℤ) + (e - ((P : ℤ) - 1)) = e + 1 by ring]; exact h2
  have hn := abs_le.1 (abs_nearInt_sub (x / u))
  have n1 : ((10 ^ (P - 1) : ℕ) : ℤ) ≤ nearInt (x / u) := by
    have : (((10 ^ (P - 1) : ℕ) : ℤ) : ℚ) < ((nearInt (x / u) + 1 : ℤ) : ℚ) := by push_cast at l1 ⊢; linarith
    have := Int.cast_lt.1 this; omega
  have n2 : nearInt (x / u) ≤ ((10 ^ P : ℕ) : ℤ) := by
    have : ((nearInt (x / u) : ℤ) : ℚ) < (((10 ^ P : ℕ) + 1 : ℤ) : ℚ) := by push_cast at l2 ⊢; linarith
    have := Int.cast_lt.1 this; omega
  have ht : (((nearInt (x / u)).toNat : ℕ) : ℚ) = (nearInt (x / u) : ℚ) := by
    have h0 : 0 ≤ nearInt (x / u) := le_trans (by positivity) n1
    have : ((nearInt (x / u)).toNat : ℤ) = nearInt (x / u) := by omega
    exact_mod_cast congrArg (Int.cast : ℤ → ℚ) this
  have herr : |((nearInt (x / u)).toNat : ℚ) * u - x| ≤ 1 / 2 * 10 ^ (1 - (P : ℤ)) * x := by
    rw [ht]
    have e1 : (nearInt (x / u) : ℚ) * u - x = (nearInt (x / u) - x / u) * u := by field_simp
    rw [e1, abs_mul, abs_of_pos hu0]
    have e2 : u = 10 ^ (1 - (P : ℤ)) * 10 ^ e := by rw [hu, ← zpow_add₀ (by norm_num)]; congr 1; ring
    calc |(nearInt (x / u) : ℚ) - x / u| * u ≤ 1 / 2 * u := mul_le_mul_of_nonneg_right (abs_nearInt_sub _) hu0.le
      _ = 1 / 2 * 10 ^ (1 - (P : ℤ)) * 10 ^ e := by rw [e2]; ring
      _ ≤ _ := mul_le_mul_of_nonneg_left h1 (by positivity)
  have hd : decimal P x = if (nearInt (x / u)).toNat = 10 ^ P then (10 ^ (P - 1), e + 1) else ((nearInt (x / u)).toNat, e) := rfl
  rw [hd]
  split_ifs with hc
  · refine ⟨le_rfl, Nat.pow_lt_pow_right (by norm_num) (by omega), ?_⟩
    dsimp only
    have : ((10 ^ (P - 1) : ℕ) : ℚ) * 10 ^ (e + 1 - ((P : ℤ) - 1)) = ((nearInt (x / u)).toNat : ℚ) * u := by
      rw [hc, hu]
      push_cast
      rw [← zpow_natCast, ← zpow_natCast, hPe, ← zpow_add₀ (by norm_num), ← zpow_add₀ (by norm_num)]
      congr 1; ring
    rw [this]; exact herr
  · dsimp only
    have c1 : ((10 ^ (P - 1) : ℕ) : ℤ) ≤ ((nearInt (x / u)).toNat : ℤ) := n1.trans (Int.self_le_toNat _)
    have c2 : (nearInt (x / u)).toNat ≤ 10 ^ P := Int.toNat_le.2 n2
    exact ⟨by exact_mod_cast c1, lt_of_le_of_ne c2 hc, herr⟩

/-- The text that is written for a positive number. -/
theorem positive_read {P : ℕ} (hP : 0 < P) {x : ℚ} (hx : 0 < x) :
    readUnsigned (positive P x) = ((decimal P x).1 : ℚ) * 10 ^ ((decimal P x).2 - ((P : ℤ) - 1)) ∧ (∀ c ∈ positive P x, Plain c) ∧
      ∃ c s, positive P x = c :: s ∧ IsDigit c := by
  obtain ⟨h1, h2, -⟩ := decimal_spec hP hx
  set m := (decimal P x).1 with hm
  set e := (decimal P x).2 with he
  have hdig := digitsOf_isDigit P m
  have hlen := digitsOf_length P m
  have hread : readNat (digitsOf P m) = m := by rw [readNat_digitsOf, Nat.mod_eq_of_lt h2]
  have hdef : positive P x = if e < -4 ∨ (P : ℤ) ≤ e then (digitsOf P m).take 1 ++ fraction ((digitsOf P m).drop 1) ++ exponent e
      else if 0 ≤ e then (digitsOf P m).take (e.toNat + 1) ++ fraction ((digitsOf P m).drop (e.toNat + 1))
      else '0' :: fraction (List.replicate (-e - 1).toNat '0' ++ digitsOf P m) := rfl
  have htake : ∀ k, ∀ c ∈ (digitsOf P m).take k, IsDigit c := fun k c hc => hdig c (List.mem_of_mem_take hc)
  have hdrop : ∀ k, ∀ c ∈ (digitsOf P m).drop k, IsDigit c := fun k c hc => hdig c (List.mem_of_mem_drop hc)
  have zero : IsDigit '0' := by unfold IsDigit; decide
  have noE : ∀ {s : Str}, (∀ c ∈ s, IsDigit c ∨ c = '.') → ∀ c ∈ s, c ≠ 'e' := by
    intro s hs c hc
    rcases hs c hc with h | rfl
    · exact isDigit_ne h (by decide)
    · decide
  have plain : ∀ {s : Str}, (∀ c ∈ s, IsDigit c ∨ c = '.') → ∀ c ∈ s, Plain c := by
    intro s hs c hc
    rcases hs c hc with h | rfl
    · exact isDigit_plain h
    · exact Or.inr (Or.inl rfl)
  have app : ∀ {a s : Str}, (∀ c ∈ a, IsDigit c) → (∀ c ∈ s, IsDigit c) → ∀ c ∈ a ++ fraction s, IsDigit c ∨ c = '.' := by
    intro a s ha hs c hc
    rcases List.mem_append.1 hc with hc | hc
    · exact Or.inl (ha c hc)
    · exact fraction_noE hs c hc
  have head : ∀ k, ∃ c s, (digitsOf P m).take (k + 1) = c :: s ∧ IsDigit c := by
    intro k
    cases hd : digitsOf P m with
    | nil => rw [hd] at hlen; simp at hlen; omega
    | cons c s => exact ⟨c, s.take k, rfl, hdig c (by rw [hd]; simp)⟩
  rw [hdef]
  split_ifs with hs h0
  · obtain ⟨t, t1, t2, t3⟩ := exponent_read e
    have a1 := app (htake 1) (hdrop 1)
    refine ⟨?_, ?_, ?_⟩
    · rw [readUnsigned, t1, splitAt_append (noE a1)]
      dsimp only
      rw [readFixed_fraction (htake 1), List.take_append_drop, hread, t2, List.length_drop, hlen,
        sub_eq_add_neg, zpow_add₀ (by norm_num), zpow_neg, div_mul_eq_mul_div, div_eq_mul_inv, mul_assoc]
      congr 3
      rw [← zpow_natCast]; congr 1; omega
    · intro c hc
      rcases List.mem_append.1 hc with hc | hc
      · exact plain a1 c hc
      · rw [t1] at hc
        rcases List.mem_cons.1 hc with rfl | hc
        · exact Or.inr (Or.inr (Or.inr (Or.inr rfl)))
        · rcases t3 c hc with h | rfl | rfl
          · exact isDigit_plain h
          · exact Or.inr (Or.inr (Or.inr (Or.inl rfl)))
          · exact Or.inr (Or.inr (Or.inl rfl))
    · obtain ⟨c, s, hcs, hc⟩ := head 0
      exact ⟨c, s ++ fraction ((digitsOf P m).drop 1) ++ exponent e, by rw [hcs]; simp, hc⟩
  · push Not at hs
    have a1 := app (htake (e.toNat + 1)) (hdrop (e.toNat + 1))
    refine ⟨?_, plain a1, ?_⟩
    · rw [readUnsigned, splitAt_none (noE a1)]
      dsimp only
      rw [readFixed_fraction (htake _), List.take_append_drop, hread, List.length_drop, hlen, div_eq_mul_inv]
      congr 1
      rw [← zpow_natCast, ← zpow_neg]; congr 1; omega
    · obtain ⟨c, s, hcs, hc⟩ := head e.toNat
      exact ⟨c, s ++ fraction ((digitsOf P m).drop (e.toNat + 1)), by rw [hcs]; simp, hc⟩
  · push Not at hs h0
    have hz : ∀ c ∈ List.replicate (-e - 1).toNat '0' ++ digitsOf P m, IsDigit c := by
      intro c hc
      rcases List.mem_append.1 hc with hc | hc
      · rw [(List.mem_replicate.1 hc).2]; exact zero
      · exact hdig c hc
    have a1 : ∀ c ∈ '0' :: fraction (List.replicate (-e - 1).toNat '0' ++ digitsOf P m), IsDigit c ∨ c = '.' :=
      app (a := ['0']) (by simpa using zero) hz
    refine ⟨?_, plain a1, ⟨_, _, rfl, zero⟩⟩
    rw [readUnsigned, splitAt_none (noE a1)]
    dsimp only
    rw [show ('0' :: fraction (List.replicate (-e - 1).toNat '0' ++ digitsOf P m)) = ['0'] ++ fraction (List.replicate (-e - 1).toNat '0' ++ digitsOf P m) from rfl,
      readFixed_fraction (by simpa using zero), readNat_append, readNat_append, readNat_zeros, hread]
    rw [show readNat ['0'] = 0 from by decide, List.length_append, List.length_replicate, hlen, div_eq_mul_inv]
    simp only [zero_mul, zero_add]
    congr 1
    rw [← zpow_natCast, ← zpow_neg]; congr 1; push_cast; omega

end ExactReal.Format
