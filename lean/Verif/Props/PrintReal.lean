import Verif.Lemma.Format
import Verif.Model.PrintReal
import Verif.Props.ArfSpecial
import Verif.Props.Rand48
import Verif.Props.Random
import Verif.Props.Text
import Verif.Spec.Module

/-!
# C79: what is printed for numbers and modules

`Format.stream P` is an output stream whose precision is `P`, `Format.default` one with the default settings.
-/

namespace ExactReal.Props
open ExactReal Print Text Format Decimal

/-! ### Doubles and integers -/

/-- C79. What is written for a double consists of digits, signs, a point and `e`; read as a decimal number it stands for the double up to half a
unit of the last of the `P` significant digits. -/
theorem double_print {P : ℕ} (hP : 0 < P) (q : ℚ) : |read ((stream P).double (.num (.fin q))) - q| ≤ 1 / 2 * 10 ^ (1 - (P : ℤ)) * |q| ∧
    ∀ c ∈ (stream P).double (.num (.fin q)), Plain c := by
  show |read (if q = 0 then ['0'] else if q < 0 then '-' :: positive P (-q) else positive P q) - q| ≤ _ ∧
    ∀ c ∈ (if q = 0 then ['0'] else if q < 0 then '-' :: positive P (-q) else positive P q), Plain c
  have unsigned : ∀ {c : Char} {s : Str}, IsDigit c → read (c :: s) = readUnsigned (c :: s) := by
    intro c s hc
    have h1 : c ≠ '-' := isDigit_ne hc (by decide)
    unfold Decimal.read
    split
    · rename_i h; injection h with h; exact absurd h h1
    · rfl
  split_ifs with h0 h1
  · subst h0
    refine ⟨?_, ?_⟩
    · rw [show read ['0'] = 0 by decide +kernel]; simp
    · intro c hc; rw [List.mem_singleton] at hc; subst hc; exact Or.inl (by decide)
  · have hq : 0 < -q := by linarith
    obtain ⟨r1, r2, -⟩ := positive_read hP hq
    have hd := (decimal_spec hP hq).2.2
    refine ⟨?_, ?_⟩
    · show |-(readUnsigned (positive P (-q))) - q| ≤ _
      rw [r1, abs_of_neg h1, ← abs_neg]
      convert hd using 2; ring
    · intro c hc
      rcases List.mem_cons.1 hc with rfl | hc
      · exact Or.inr (Or.inr (Or.inl rfl))
      · exact r2 c hc
  · have hq : 0 < q := lt_of_le_of_ne (not_lt.1 h1) (Ne.symm h0)
    obtain ⟨r1, r2, c, s, e, hc⟩ := positive_read hP hq
    have hd := (decimal_spec hP hq).2.2
    refine ⟨?_, r2⟩
    rw [e, unsigned hc, ← e, r1, abs_of_pos hq]
    exact hd

/-- The text for a positive integer of at most `P` digits. -/
theorem decimal_int {P n : ℕ} (hP : 0 < P) (h0 : 0 < n) (hn : n < 10 ^ P) :
    ((decimal P (n : ℚ)).1 : ℚ) * 10 ^ ((decimal P (n : ℚ)).2 - ((P : ℤ) - 1)) = n := by
  set e := Int.log 10 (n : ℚ) with he
  have hx : (0 : ℚ) < n := by exact_mod_cast h0
  have h1 : (10 : ℚ) ^ e ≤ n := log_le hx
  have heP : e ≤ (P : ℤ) - 1 := by
    have : (10 : ℚ) ^ e < 10 ^ (P : ℤ) := lt_of_le_of_lt h1 (by rw [zpow_natCast]; exact_mod_cast hn)
    have := (zpow_lt_zpow_iff_right₀ (by norm_num : (1 : ℚ) < 10)).1 this
    omega
  set u : ℚ := 10 ^ (e - ((P : ℤ) - 1)) with hu
  obtain ⟨k, hk⟩ : ∃ k : ℕ, e - ((P : ℤ) - 1) = -(k : ℤ) := ⟨((P : ℤ) - 1 - e).toNat, by omega⟩
  have hnu : (n : ℚ) / u = ((n * 10 ^ k : ℕ) : ℤ) := by
    rw [hu, hk, zpow_neg, zpow_natCast, div_inv_eq_mul]; push_cast; rfl
  have hnear : (nearInt ((n : ℚ) / u)).toNat = n * 10 ^ k := by rw [hnu, nearInt_int]; rfl
  have hd : decimal P (n : ℚ) = if (nearInt ((n : ℚ) / u)).toNat = 10 ^ P then (10 ^ (P - 1), e + 1) else ((nearInt ((n : ℚ) / u)).toNat, e) := rfl
  have hval : ((nearInt ((n : ℚ) / u)).toNat : ℚ) * u = n := by
    rw [hnear, hu, hk, zpow_neg, zpow_natCast]; push_cast; field_simp
  rw [hd]
  split_ifs with hc
  · dsimp only
    rw [← hval, hc, hu]
    push_cast
    rw [← zpow_natCast, ← zpow_natCast, ← zpow_add₀ (by norm_num), ← zpow_add₀ (by norm_num)]
    congr 1; omega
  · exact hval

theorem double_print_int {P : ℕ} (hP : 0 < P) (n : ℤ) (hn : |n| < 10 ^ P) : read ((stream P).double (.num (.fin n))) = n := by
  have key : ∀ k : ℕ, 0 < k → k < 10 ^ P → readUnsigned (positive P (k : ℚ)) = k ∧ read (positive P (k : ℚ)) = k := by
    intro k k0 hk
    obtain ⟨r1, -, c, s, e, hc⟩ := positive_read hP (x := (k : ℚ)) (by exact_mod_cast k0)
    rw [decimal_int hP k0 hk] at r1
    refine ⟨r1, ?_⟩
    have h1 : c ≠ '-' := isDigit_ne hc (by decide)
    have : read (c :: s) = readUnsigned (c :: s) := by
      unfold Decimal.read
      split
      · rename_i h; injection h with h; exact absurd h h1
      · rfl
    rw [e] at r1 ⊢
    rw [this, r1]
  show read (if (n : ℚ) = 0 then ['0'] else if (n : ℚ) < 0 then '-' :: positive P (-(n : ℚ)) else positive P (n : ℚ)) = n
  obtain ⟨k, rfl | rfl⟩ := n.eq_nat_or_neg
  · split_ifs with h0 h1
    · rw [h0]; decide +kernel
    · exact absurd h1 (not_lt.2 (by push_cast; positivity))
    · rw [Int.cast_natCast] at h0 ⊢
      rw [abs_of_nonneg (by positivity)] at hn
      exact (key k (Nat.pos_of_ne_zero (by exact_mod_cast h0)) (by exact_mod_cast hn)).2
  · split_ifs with h0 h1
    · rw [h0]; decide +kernel
    · rw [abs_neg, abs_of_nonneg (by positivity)] at hn
      have h0' : k ≠ 0 := by rintro rfl; simp at h0
      show -readUnsigned (positive P (-((-(k : ℤ) : ℤ) : ℚ))) = _
      rw [Int.cast_neg, Int.cast_natCast, neg_neg, (key k (Nat.pos_of_ne_zero h0') (by exact_mod_cast hn)).1]
    · exfalso
      apply h1
      have h0' : k ≠ 0 := by rintro rfl; simp at h0
      have : (0 : ℚ) < k := by exact_mod_cast Nat.pos_of_ne_zero h0'
      push_cast; linarith

/-- C60/C79. Integers of at most as many decimal digits as the precision of the stream are printed exactly: what is printed stands for the number. -/
theorem arf_print_integer {P : ℕ} (hP : 0 < P) (n : ℤ) (hn : |n| < 10 ^ P) (h53 : |n| ≤ 2 ^ 53) : read (XArf.print (stream P) (.fin n)) = n := by
  show read (if (n : ℚ) = 0 then ['0'] else if 0 ≤ Arf.exponent (n : ℚ) then (stream P).double (XArf.toDouble (.fin n)) else _) = _
  split_ifs with h0 h1
  · rw [h0]; decide +kernel
  · have hr : Double.IsRep (n : ℚ) := ⟨n, 0, h53, by norm_num, by simp⟩
    have hd : Double.ofArf (n : ℚ) = .fin n := by
      have h2 : |(n : ℚ)| < 2 ^ 1024 := by
        have : |(n : ℚ)| ≤ 2 ^ 53 := by exact_mod_cast h53
        exact lt_of_le_of_lt this (pow_lt_pow_right₀ (by norm_num) (by norm_num))
      rw [abs_lt] at h2
      rw [Double.ofArf, Double.near_eq_self hr, if_neg (not_le.2 h2.2), if_neg (not_le.2 h2.1)]
    rw [XArf.toDouble, hd]
    exact double_print_int hP n hn
  · exfalso
    apply h1
    simp only [Arf.exponent, Arf.mantissaExponent]
    rw [if_neg h0]
    simp

/-- C60 fails (finding F31) already for small integers: with the default settings of a stream, 1000000 and 1000001 are printed alike. -/
theorem arf_print_default_fails : XArf.print Format.default (.fin 1000000) = "1e+06".toList ∧ XArf.print Format.default (.fin 1000001) = "1e+06".toList := by
  decide +kernel

/-! ### Real numbers -/

/-- Characters that separate numbers or factors. -/
def Separator (c : Char) : Prop := c = '*' ∨ c = '^' ∨ c = ',' ∨ c = '/'

theorem plain_free {c : Char} (h : Plain c) : ¬Separator c := by
  rintro (rfl | rfl | rfl | rfl) <;> revert h <;> unfold Plain <;> decide

theorem int_chars {z : ℤ} : ∀ c ∈ getStr 10 z, IsDigit c ∨ c = '-' := by
  intro c hc
  unfold getStr at hc
  rcases List.mem_append.1 hc with hc | hc
  · split_ifs at hc
    · rw [List.mem_singleton] at hc; exact Or.inr hc
    · cases hc
  · split_ifs at hc with h
    · rw [List.mem_singleton] at hc; subst hc; exact Or.inl (by unfold IsDigit; decide)
    · obtain ⟨d, hd, rfl⟩ := List.mem_map.1 hc
      exact Or.inl (digitChar_isDigit (mem_digits (by norm_num) hd)).1

theorem int_free (z : ℤ) : ∀ c ∈ getStr 10 z, ¬Separator c := fun c hc =>
  plain_free (by rcases int_chars c hc with h | rfl; exacts [Or.inl h, Or.inr (Or.inr (Or.inl rfl))])

theorem literal_free (s : List Char) (h : ∀ c ∈ s, c ≠ '*' ∧ c ≠ '^' ∧ c ≠ ',' ∧ c ≠ '/') : ∀ c ∈ s, ¬Separator c := by
  rintro c hc (e | e | e | e)
  exacts [(h c hc).1 e, (h c hc).2.1 e, (h c hc).2.2.1 e, (h c hc).2.2.2 e]

theorem double_free {P : ℕ} (hP : 0 < P) (d : XDouble) : ∀ c ∈ (stream P).double d, ¬Separator c := by
  match d with
  | .num (.fin q) => exact fun c hc => plain_free ((double_print hP q).2 c hc)
  | .num .posInf => exact literal_free "inf".toList (by decide)
  | .num .negInf => exact literal_free "-inf".toList (by decide)
  | .nan => exact literal_free "nan".toList (by decide)

theorem arf_free {P : ℕ} (hP : 0 < P) (x : XArf) : ∀ c ∈ XArf.print (stream P) x, ¬Separator c := by
  match x with
  | .fin q =>
    show ∀ c ∈ (if q = 0 then ['0'] else if 0 ≤ Arf.exponent q then (stream P).double (XArf.toDouble (.fin q))
      else (stream P).double (XArf.toDouble (.fin q)) ++ ['='] ++ getStr 10 (Arf.mantissa q) ++ ['p'] ++ getStr 10 (Arf.exponent q)), ¬Separator c
    split_ifs
    · exact literal_free _ (by decide)
    · exact double_free hP _
    · intro c hc
      simp only [List.mem_append] at hc
      rcases hc with (((hc | hc) | hc) | hc) | hc
      · exact double_free hP _ c hc
      · exact literal_free _ (by decide) c hc
      · exact int_free _ c hc
      · exact literal_free _ (by decide) c hc
      · exact int_free _ c hc
  | .posInf => exact literal_free "+∞".toList (by decide)
  | .negInf => exact literal_free "-∞".toList (by decide)
  | .nan => exact literal_free "NaN".toList (by decide)

theorem random_free {P : ℕ} (hP : 0 < P) (d : Digits) : ∀ c ∈ randomText (stream P) d, ¬Separator c := by
  intro c hc
  simp only [randomText, List.mem_append] at hc
  rcases hc with (hc | hc) | hc
  · exact literal_free _ (by decide) c hc
  · exact double_free hP _ c hc
  · exact literal_free _ (by decide) c hc

theorem atom_free {P : ℕ} (hP : 0 < P) (a : Atom) : ∀ c ∈ atomText (stream P) a, ¬Separator c := by
  cases a with
  | random d => exact random_free hP d
  | constrained m e inner =>
    intro c hc
    simp only [atomText, List.mem_append] at hc
    rcases hc with ((((((hc | hc) | hc) | hc) | hc) | hc) | hc) | hc
    · exact literal_free _ (by decide) c hc
    · exact arf_free hP _ c hc
    · exact literal_free _ (by decide) c hc
    · exact random_free hP _ c hc
    · exact literal_free _ (by decide) c hc
    · exact int_free _ c hc
    · exact literal_free _ (by decide) c hc
    · split_ifs at hc
      · cases hc
      · simp only [List.mem_append] at hc
        rcases hc with (hc | hc) | hc
        · exact literal_free _ (by decide) c hc
        · exact double_free hP _ c hc
        · exact literal_free _ (by decide) c hc

theorem atom_head (f : XArf.Format) (a : Atom) : ∃ s, atomText f a = 'ℝ' :: s := by
  cases a <;> exact ⟨_, rfl⟩

theorem int_injective : Function.Injective (getStr 10) := text_injective.1

theorem int_ne_nil (z : ℤ) : getStr 10 z ≠ [] := by
  unfold getStr
  split_ifs with h1 h2 h2 <;> simp [h2]

/-- Strings without the first character of the separator can be recovered from the joined string. -/
theorem join_injective {c : Char} {r : Str} : ∀ {l l' : List Str}, (∀ s ∈ l, c ∉ s ∧ s ≠ []) → (∀ s ∈ l', c ∉ s ∧ s ≠ []) →
    join (c :: r) l = join (c :: r) l' → l = l'
  | [], [], _, _, _ => rfl
  | [], [t], _, h', e => absurd e.symm (h' t (by simp)).2
  | [], t :: t' :: l', _, h', e => by simp [join] at e
  | [s], [], h, _, e => absurd e (h s (by simp)).2
  | s :: s' :: l, [], h, _, e => by simp [join] at e
  | [s], [t], _, _, e => by rw [show s = t from e]
  | [s], t :: t' :: l', h, _, e => by
    exfalso
    apply (h s (by simp)).1
    rw [show s = t ++ (c :: r) ++ join (c :: r) (t' :: l') from e]
    simp
  | s :: s' :: l, [t], _, h', e => by
    exfalso
    apply (h' t (by simp)).1
    rw [← show s ++ (c :: r) ++ join (c :: r) (s' :: l) = t from e]
    simp
  | s :: s' :: l, t :: t' :: l', h, h', e => by
    have e : s ++ c :: (r ++ join (c :: r) (s' :: l)) = t ++ c :: (r ++ join (c :: r) (t' :: l')) := by simpa [join] using e
    obtain ⟨e1, e2⟩ := split_unique (h s (by simp)).1 (h' t (by simp)).1 e
    have e3 := join_injective (fun u hu => h u (List.mem_cons_of_mem _ hu)) (fun u hu => h' u (List.mem_cons_of_mem _ hu)) (List.append_cancel_left e2)
    rw [e1, e3]

/-- Overflow of a `double` is far away. -/
theorem double_range_big : (2 : ℝ) ≤ 2 ^ 1024 - 2 ^ 970 := by
  have h1 : (1 : ℝ) ≤ 2 ^ 970 := one_le_pow₀ (by norm_num)
  have h2 : (2 : ℝ) ^ 1024 = 2 ^ 54 * 2 ^ 970 := by rw [← pow_add]
  rw [h2]
  generalize (2 : ℝ) ^ 970 = z at h1
  norm_num
  linarith

/-- C79. What is printed for a random number is `ℝ(t…)` where `t` is a decimal number that agrees with the number up to half a unit of the last
of `P` decimal digits (and the error of a double).  (The dots suggest that `t` consists of the first digits of the number, but `t` is rounded.)
Missing in C79: random numbers in an interval, where the claim is false (`constrained_print_fails`). -/
theorem random_print_partial {P : ℕ} (hP : 0 < P) (d : Digits) : ∃ t, randomText (stream P) d = "ℝ(".toList ++ t ++ "…)".toList ∧ (∀ c ∈ t, Plain c) ∧
    |(read t : ℝ) - d.value| ≤ 1 / 2 * 10 ^ (1 - (P : ℤ)) + 2 ^ (-51 : ℤ) := by
  obtain ⟨v0, v1⟩ := random_value_mem d
  obtain ⟨h1, h2, h3⟩ := toDouble_partial (fun _ => .random d) (.atom 0) trivial
  have hv : (RN.atom 0).real (fun _ => Atom.random d) = d.value := rfl
  have ht : (RN.atom 0).toDouble (fun _ => Atom.random d) = Double.ofArf (d.arf 54) := rfl
  rw [hv] at h1 h2 h3
  rw [abs_of_pos v0] at h1 h2 h3
  refine ⟨_, rfl, ?_⟩
  rw [← ht]
  cases hd : (RN.atom 0).toDouble (fun _ => Atom.random d) with
  | posInf =>
    have := h2 hd
    exact absurd this (not_le.2 (by
      calc d.value + 3 * 2 ^ (-55 : ℤ) * d.value ≤ 1 + 3 * 2 ^ (-55 : ℤ) * 1 := by gcongr
        _ < 2 := by norm_num
        _ ≤ _ := double_range_big))
  | negInf =>
    have := h3 hd
    exfalso
    have h4 : d.value - 3 * 2 ^ (-55 : ℤ) * d.value = d.value * (1 - 3 * 2 ^ (-55 : ℤ)) := by ring
    rw [h4] at this
    have h5 : 0 < d.value * (1 - 3 * 2 ^ (-55 : ℤ)) := mul_pos v0 (by norm_num)
    have h6 := (h5.trans_le this).trans_le (neg_le_neg double_range_big)
    norm_num at h6
  | fin q =>
    obtain ⟨g1, g2⟩ := double_print hP q
    refine ⟨g2, ?_⟩
    -- a double close to the number
    have near : |(q : ℝ) - d.value| ≤ 2 ^ (-52 : ℤ) := by
      have hz : Double.IsRep ((⌊d.value * 2 ^ 53⌋ : ℚ) * 2 ^ (-53 : ℤ)) := by
        refine ⟨⌊d.value * 2 ^ 53⌋, -53, ?_, by norm_num, rfl⟩
        rw [abs_le]
        constructor
        · have : (0 : ℤ) ≤ ⌊d.value * 2 ^ 53⌋ := Int.floor_nonneg.2 (by positivity)
          linarith [show (0 : ℤ) ≤ 2 ^ 53 by norm_num]
        · refine Int.cast_le.1 (le_trans (Int.floor_le (d.value * 2 ^ 53)) ?_)
          push_cast; nlinarith
      have := ((h1 q hd).2 _ hz).1 (by simp)
      have b : |((((⌊d.value * 2 ^ 53⌋ : ℚ) * 2 ^ (-53 : ℤ) : ℚ)) : ℝ) - d.value| ≤ 2 ^ (-53 : ℤ) := by
        have f1 := Int.floor_le (d.value * 2 ^ 53)
        have f2 := Int.lt_floor_add_one (d.value * 2 ^ 53)
        push_cast
        rw [show (2 : ℝ) ^ (-53 : ℤ) = 1 / 2 ^ 53 by norm_num]
        rw [abs_le]
        constructor
        · rw [neg_le_sub_iff_le_add, ← sub_le_iff_le_add]
          rw [mul_one_div, le_div_iff₀ (by positivity), sub_mul]
          have : 1 / 2 ^ 53 * (2 : ℝ) ^ 53 = 1 := by norm_num
          rw [this]; linarith
        · rw [sub_le_iff_le_add, mul_one_div, div_le_iff₀ (by positivity), add_mul]
          have : 1 / 2 ^ 53 * (2 : ℝ) ^ 53 = 1 := by norm_num
          rw [this]; linarith
      have c : (2 : ℝ) ^ (-53 : ℤ) * d.value ≤ 2 ^ (-53 : ℤ) := mul_le_of_le_one_right (by positivity) v1
      have e : (2 : ℝ) ^ (-52 : ℤ) = 2 ^ (-53 : ℤ) + 2 ^ (-53 : ℤ) := by norm_num
      rw [e]; linarith
    have hq : |(q : ℝ)| ≤ 1 + 2 ^ (-52 : ℤ) := by
      have := abs_sub_abs_le_abs_sub (q : ℝ) d.value
      rw [abs_of_pos v0] at this
      linarith
    have g1' : |(read ((stream P).double (.num (.fin q))) : ℝ) - q| ≤ 1 / 2 * 10 ^ (1 - (P : ℤ)) * |(q : ℝ)| := by
      have g := (Rat.cast_le (K := ℝ)).2 g1
      push_cast at g
      exact g
    have hp1 : (10 : ℝ) ^ (1 - (P : ℤ)) ≤ 1 := zpow_le_one_of_nonpos₀ (by norm_num) (by omega)
    have hp0 : (0 : ℝ) < 10 ^ (1 - (P : ℤ)) := by positivity
    calc |(read ((stream P).double (.num (.fin q))) : ℝ) - d.value| ≤ |(read ((stream P).double (.num (.fin q))) : ℝ) - q| + |(q : ℝ) - d.value| := abs_sub_le _ _ _
      _ ≤ 1 / 2 * 10 ^ (1 - (P : ℤ)) * (1 + 2 ^ (-52 : ℤ)) + 2 ^ (-52 : ℤ) := by gcongr; exact g1'.trans (by gcongr)
      _ = 1 / 2 * 10 ^ (1 - (P : ℤ)) + (1 / 2 * 2 ^ (-52 : ℤ)) * 10 ^ (1 - (P : ℤ)) + 2 ^ (-52 : ℤ) := by ring
      _ ≤ 1 / 2 * 10 ^ (1 - (P : ℤ)) + (1 / 2 * 2 ^ (-52 : ℤ)) * 1 + 2 ^ (-52 : ℤ) := by gcongr
      _ ≤ _ := by
        have e : (2 : ℝ) ^ (-51 : ℤ) = 2 ^ (-52 : ℤ) + 2 ^ (-52 : ℤ) := by norm_num
        have : (0 : ℝ) < 2 ^ (-52 : ℤ) := by positivity
        rw [e]; linarith

/-- C79 fails for a random number in an interval (finding F37): what is printed is `ℝ(A + BpE)` where `A` is the initial segment, `B` stands for a random
number in `[0, 1]` and `E` is an exponent of two; but the number is not `A + B * 2^E`, it is `A + B * 2^(E - 1)`. -/
theorem constrained_print_fails (f : XArf.Format) (m e : ℤ) (inner : Digits) :
    (∃ rest, atomText f (.constrained m e inner) = "ℝ(".toList ++ XArf.print f (.fin (m * 2 ^ e)) ++ " + ".toList ++ randomText f inner ++ "p".toList ++
      f.int e ++ ")".toList ++ rest) ∧
    (Atom.constrained m e inner).value = m * 2 ^ e + inner.value * 2 ^ (e - 1) ∧ (Atom.constrained m e inner).value ≠ m * 2 ^ e + inner.value * 2 ^ e := by
  refine ⟨⟨_, rfl⟩, rfl, ?_⟩
  show (m : ℝ) * 2 ^ e + inner.value * 2 ^ (e - 1) ≠ m * 2 ^ e + inner.value * 2 ^ e
  intro h
  have h := add_left_cancel h
  have h := mul_left_cancel₀ (random_value_mem inner).1.ne' h
  rw [zpow_sub_one₀ (by norm_num)] at h
  have : (0 : ℝ) < 2 ^ e := by positivity
  linarith

variable (atoms : Atoms)

theorem factor_free {P : ℕ} (hP : 0 < P) (p : ℕ × ℕ) : '*' ∉ factorText (stream P) atoms p ∧ ',' ∉ factorText (stream P) atoms p ∧
    ∃ s, factorText (stream P) atoms p = 'ℝ' :: s := by
  have h := atom_free hP (atoms p.1)
  obtain ⟨s, hs⟩ := atom_head (stream P) (atoms p.1)
  have key : ∀ c, (c = '*' ∨ c = ',') → c ∉ factorText (stream P) atoms p := by
    intro c hc hm
    rcases List.mem_append.1 hm with hm | hm
    · apply h c hm; unfold Separator; tauto
    · split_ifs at hm
      · rcases List.mem_cons.1 hm with rfl | hm
        · revert hc; decide
        · apply int_free _ c hm; unfold Separator; tauto
      · cases hm
  exact ⟨key _ (Or.inl rfl), key _ (Or.inr rfl), _, by rw [factorText, hs]; rfl⟩

theorem factor_injective {P : ℕ} (hP : 0 < P) {p q : ℕ × ℕ} (h : factorText (stream P) atoms p = factorText (stream P) atoms q) :
    atomText (stream P) (atoms p.1) = atomText (stream P) (atoms q.1) ∧ p.2 = q.2 := by
  have hp : '^' ∉ atomText (stream P) (atoms p.1) := fun hm => atom_free hP _ _ hm (Or.inr (Or.inl rfl))
  have hq : '^' ∉ atomText (stream P) (atoms q.1) := fun hm => atom_free hP _ _ hm (Or.inr (Or.inl rfl))
  unfold factorText at h
  split_ifs at h with h1 h2 h2
  · obtain ⟨e1, e2⟩ := split_unique hp hq h
    exact ⟨e1, by exact_mod_cast int_injective e2⟩
  · exfalso; apply hq; rw [← List.append_nil (atomText _ (atoms q.1)), ← h]; simp
  · exfalso; apply hp; rw [← List.append_nil (atomText _ (atoms p.1)), h]; simp
  · push Not at h1 h2
    exact ⟨by simpa using h, by rw [h1, h2]⟩

theorem join_head {c : Char} {sep : Str} : ∀ {l : List Str}, l ≠ [] → (∀ s ∈ l, ∃ t, s = c :: t) → ∃ t, join sep l = c :: t
  | [], h, _ => absurd rfl h
  | [s], _, h => h s (by simp)
  | s :: t :: l, _, h => by
    obtain ⟨u, hu⟩ := h s (by simp)
    exact ⟨_, by rw [join, hu]; rfl⟩

theorem mem_join {c : Char} {sep : Str} : ∀ {l : List Str}, c ∈ join sep l → c ∈ sep ∨ ∃ s ∈ l, c ∈ s
  | [], h => by cases h
  | [s], h => Or.inr ⟨s, by simp, h⟩
  | s :: t :: l, h => by
    rw [join, List.mem_append, List.mem_append] at h
    rcases h with (h | h) | h
    · exact Or.inr ⟨s, by simp, h⟩
    · exact Or.inl h
    · rcases mem_join h with h | ⟨u, hu, h⟩
      · exact Or.inl h
      · exact Or.inr ⟨u, List.mem_cons_of_mem _ hu, h⟩

theorem prod_ne_nil {m : Mono} (h : (RN.prod m).WF) : m ≠ [] := by
  rintro rfl
  have := h.2
  simp at this

/-- The text of a product contains `*` or `^`. -/
theorem prod_separator {P : ℕ} {m : Mono} (h : (RN.prod m).WF) :
    '*' ∈ realText (stream P) atoms (.prod m) ∨ '^' ∈ realText (stream P) atoms (.prod m) := by
  match m, h with
  | [], h => exact absurd rfl (prod_ne_nil h)
  | [p], h =>
    refine Or.inr ?_
    have h2 : p.2 ≠ 1 := by have := h.2; simp at this; omega
    show '^' ∈ factorText _ _ p
    rw [factorText, if_pos h2]
    simp
  | p :: q :: m, h =>
    refine Or.inl ?_
    show '*' ∈ join ['*'] (factorText _ _ p :: factorText _ _ q :: _)
    rw [join]
    simp

theorem real_head {P : ℕ} (hP : 0 < P) {x : RN} (hx : x.WF) :
    (∃ s, realText (stream P) atoms x = 'ℝ' :: s) ↔ ∀ q, x ≠ .rat q := by
  cases x with
  | rat q =>
    refine ⟨?_, fun h => absurd rfl (h q)⟩
    rintro ⟨s, hs⟩
    exfalso
    have hm : 'ℝ' ∈ getStr 10 q.num := by
      change getStr 10 q.num ++ _ = 'ℝ' :: s at hs
      cases hg : getStr 10 q.num with
      | nil => exact absurd hg (int_ne_nil _)
      | cons c t =>
        rw [hg] at hs
        injection hs with hs
        rw [hs]; simp
    rcases int_chars _ hm with h | h
    · exact isDigit_ne h (by decide) rfl
    · exact absurd h (by decide)
  | atom i => exact ⟨fun _ _ h => (by cases h), fun _ => atom_head _ _⟩
  | prod m =>
    refine ⟨fun _ _ h => (by cases h), fun _ => ?_⟩
    refine join_head (by simpa using prod_ne_nil hx) ?_
    intro s hs
    obtain ⟨p, -, rfl⟩ := List.mem_map.1 hs
    exact (factor_free atoms hP p).2.2

theorem real_noComma {P : ℕ} (hP : 0 < P) (x : RN) : ',' ∉ realText (stream P) atoms x := by
  have sep : Separator ',' := Or.inr (Or.inr (Or.inl rfl))
  cases x with
  | rat q =>
    intro h
    rcases List.mem_append.1 h with h | h
    · exact int_free _ _ h sep
    · split_ifs at h
      · cases h
      · rcases List.mem_cons.1 h with h | h
        · exact absurd h (by decide)
        · exact int_free _ _ h sep
  | atom i => exact fun h => atom_free hP _ _ h sep
  | prod m =>
    intro h
    rcases mem_join h with h | ⟨s, hs, h⟩
    · exact absurd h (by decide)
    · obtain ⟨p, -, rfl⟩ := List.mem_map.1 hs
      exact (factor_free atoms hP p).2.1 h

theorem real_ne_nil {P : ℕ} (hP : 0 < P) {x : RN} (hx : x.WF) : realText (stream P) atoms x ≠ [] := by
  by_cases h : ∀ q, x ≠ .rat q
  · obtain ⟨s, hs⟩ := (real_head atoms hP hx).2 h
    rw [hs]; simp
  · push Not at h
    obtain ⟨q, rfl⟩ := h
    intro h
    exact int_ne_nil _ (List.append_eq_nil_iff.1 h).1

/-- C79. What is printed for a rational number is the rational in lowest terms; read as a rational (as in C78) it is this number.
Missing in C79: random numbers in an interval, where the claim is false (`constrained_print_fails`). -/
theorem rational_print_partial (P : ℕ) (q : ℚ) : realText (stream P) atoms (.rat q) = saveMpq q ∧ loadMpq (realText (stream P) atoms (.rat q)) = .ok (q.num, q.den) :=
  ⟨rfl, mpq_text q⟩

/-- C79. What is printed for a number identifies it: if no two of the random numbers that occur in two numbers are printed alike, then the numbers are printed
differently unless they are the same. -/
theorem real_print_injective {P : ℕ} (hP : 0 < P) {x y : RN} (hx : x.WF) (hy : y.WF)
    (hd : ∀ i j, i ∈ x.mult.support → j ∈ y.mult.support → realText (stream P) atoms (.atom i) = realText (stream P) atoms (.atom j) → i = j)
    (h : realText (stream P) atoms x = realText (stream P) atoms y) : x = y := by
  by_cases h1 : ∃ q, x = .rat q
  · obtain ⟨q, rfl⟩ := h1
    by_cases h2 : ∃ r, y = .rat r
    · obtain ⟨r, rfl⟩ := h2
      rw [show q = r from text_injective.2 h]
    · push Not at h2
      exact absurd rfl ((real_head atoms hP hx).1 (h ▸ (real_head atoms hP hy).2 h2) q)
  · push Not at h1
    have h2 := (real_head atoms hP hy).1 (h ▸ (real_head atoms hP hx).2 h1)
    have sup : ∀ {m : Mono}, m.Canon → ∀ p ∈ m, p.1 ∈ (RN.prod m).mult.support := by
      intro m hm p hp
      rw [Finsupp.mem_support_iff]
      show Mono.mult m p.1 ≠ 0
      have : p.2 ≤ Mono.mult m p.1 := by
        have := List.single_le_sum (l := m.map fun p => Finsupp.single p.1 p.2) (by intro x _; exact bot_le) _ (List.mem_map_of_mem hp)
        have := this p.1
        simpa [Mono.mult] using this
      have := hm.pos p hp
      omega
    cases x with
    | rat q => exact absurd rfl (h1 q)
    | atom i =>
      cases y with
      | rat q => exact absurd rfl (h2 q)
      | atom j => rw [hd i j (by simp [RN.mult]) (by simp [RN.mult]) h]
      | prod m =>
        exfalso
        have hs := prod_separator atoms (P := P) hy
        rw [← h] at hs
        rcases hs with hs | hs
        · exact atom_free hP _ _ hs (Or.inl rfl)
        · exact atom_free hP _ _ hs (Or.inr (Or.inl rfl))
    | prod m =>
      cases y with
      | rat q => exact absurd rfl (h2 q)
      | atom j =>
        exfalso
        have hs := prod_separator atoms (P := P) hx
        rw [h] at hs
        rcases hs with hs | hs
        · exact atom_free hP _ _ hs (Or.inl rfl)
        · exact atom_free hP _ _ hs (Or.inr (Or.inl rfl))
      | prod n =>
        have free : ∀ (m : Mono), ∀ s ∈ m.map (factorText (stream P) atoms), '*' ∉ s ∧ s ≠ [] := by
          intro m s hs
          obtain ⟨p, -, rfl⟩ := List.mem_map.1 hs
          obtain ⟨h1, -, t, ht⟩ := factor_free atoms hP p
          exact ⟨h1, by rw [ht]; simp⟩
        have e := join_injective (c := '*') (r := []) (free m) (free n) h
        have : m = n := by
          have hm := sup hx.1
          have hn := sup hy.1
          have aux : ∀ (l k : Mono), (∀ p ∈ l, p ∈ m) → (∀ p ∈ k, p ∈ n) → l.map (factorText (stream P) atoms) = k.map (factorText (stream P) atoms) → l = k := by
            intro l
            induction l with
            | nil => intro k _ _ h; cases k with
              | nil => rfl
              | cons q k => cases h
            | cons p l ih =>
              intro k hl hk h
              cases k with
              | nil => cases h
              | cons q k =>
                rw [List.map_cons, List.map_cons] at h
                injection h with e1 e2
                obtain ⟨a, b⟩ := factor_injective atoms hP e1
                have := hd p.1 q.1 (hm p (hl p (by simp))) (hn q (hk q (by simp))) a
                rw [ih k (fun x hx => hl x (List.mem_cons_of_mem _ hx)) (fun x hx => hk x (List.mem_cons_of_mem _ hx)) e2]
                rw [Prod.ext this b]
          exact aux m n (fun _ h => h) (fun _ h => h) e
        rw [this]

theorem ring_print {r r' : RingName} {a b : Str} (h : r.text ++ a = r'.text ++ b) : r = r' ∧ a = b := by
  have hd : ∀ r : RingName, r.text.head? = some (match r with | .integers => 'ℤ' | .rationals => 'ℚ' | .numberField => 'K') ∧ r.text ≠ [] := by
    intro r; cases r <;> exact ⟨by decide, by decide⟩
  have e : r = r' := by
    have h1 := congrArg List.head? h
    rw [List.head?_append, List.head?_append, (hd r).1, (hd r').1] at h1
    injection h1 with h1
    cases r <;> cases r' <;> first | rfl | exact absurd h1 (by decide)
  subst e
  exact ⟨rfl, List.append_cancel_left h⟩

/-- C79. What is printed for a module identifies its generators and the kind of its ring: if no two of the random numbers that occur in the generators of two
modules are printed alike, then different modules are printed differently (up to the choice of the number field, which is not printed). -/
theorem module_print_injective {r r' : RingName} {P : Type} {M N : Mod P} (hM : M.WF) (hN : N.WF)
    (hd : ∀ x ∈ M.basis, ∀ y ∈ N.basis, ∀ i j, i ∈ x.mult.support → j ∈ y.mult.support →
      realText Format.default atoms (.atom i) = realText Format.default atoms (.atom j) → i = j)
    (h : moduleText Format.default atoms r M.basis = moduleText Format.default atoms r' N.basis) : r = r' ∧ M.basis = N.basis := by
  rw [show Format.default = stream 6 from rfl] at *
  unfold moduleText at h
  obtain ⟨e, h⟩ := ring_print (List.append_cancel_right h)
  rw [show ", ".toList = [',', ' '] by decide] at h
  refine ⟨e, ?_⟩
  have free : ∀ {M : Mod P}, M.WF → ∀ s ∈ M.basis.map (realText (stream 6) atoms), ',' ∉ s ∧ s ≠ [] := by
    intro M hM s hs
    obtain ⟨x, hx, rfl⟩ := List.mem_map.1 hs
    exact ⟨real_noComma atoms (P := 6) (by norm_num) x, real_ne_nil atoms (P := 6) (by norm_num) (hM.gens x hx)⟩
  have e := join_injective (c := ',') (r := [' ']) (free hM) (free hN) h
  have aux : ∀ (l k : List RN), (∀ p ∈ l, p ∈ M.basis) → (∀ p ∈ k, p ∈ N.basis) → l.map (realText (stream 6) atoms) = k.map (realText (stream 6) atoms) → l = k := by
    intro l
    induction l with
    | nil => intro k _ _ h; cases k with
      | nil => rfl
      | cons q k => cases h
    | cons p l ih =>
      intro k hl hk h
      cases k with
      | nil => cases h
      | cons q k =>
        rw [List.map_cons, List.map_cons] at h
        injection h with e1 e2
        have hp := hl p (by simp)
        have hq := hk q (by simp)
        rw [real_print_injective atoms (P := 6) (by norm_num) (hM.gens p hp) (hN.gens q hq) (hd p hp q hq) e1,
          ih k (fun x hx => hl x (List.mem_cons_of_mem _ hx)) (fun x hx => hk x (List.mem_cons_of_mem _ hx)) e2]
  exact aux _ _ (fun _ h => h) (fun _ h => h) e

/-- C60. The streams of the C++ library satisfy what C60 asks of a stream. -/
theorem stream_valid {P : ℕ} (hP : 0 < P) : (stream P).Valid where
  double_eq d hd := by
    match d with
    | .num (.fin q) =>
      have := (double_print hP q).2 _ hd
      revert this
      unfold Plain
      decide
    | .num .posInf => revert hd; exact (by decide : '=' ∉ "inf".toList)
    | .num .negInf => revert hd; exact (by decide : '=' ∉ "-inf".toList)
    | .nan => revert hd; exact (by decide : '=' ∉ "nan".toList)
  int_p n hn := by
    rcases int_chars _ hn with h | h
    · exact isDigit_ne h (by decide) rfl
    · exact absurd h (by decide)
  int_injective := int_injective

/-! ### Examples -/

theorem loop_fuel {digit : ℕ → Bool} {prec : ℕ} {v : ℚ} : ∀ {fuel fuel' pos digits : ℕ} {acc : ℤ}, fuel ≤ fuel' →
    Digits.loop digit prec fuel pos digits acc = .ok v → Digits.loop digit prec fuel' pos digits acc = .ok v
  | 0, _, _, _, _, _, h => by cases h
  | fuel + 1, 0, _, _, _, hf, _ => by omega
  | fuel + 1, fuel' + 1, pos, digits, acc, hf, h => by
    unfold Digits.loop at h ⊢
    by_cases h1 : digits < prec + 1
    · rw [if_pos h1] at h ⊢
      by_cases h2 : digits = 0 ∧ digit pos = false
      · rw [if_pos h2] at h ⊢; exact loop_fuel (by omega) h
      · rw [if_neg h2] at h ⊢; exact loop_fuel (by omega) h
    · rw [if_neg h1] at h ⊢; exact h

/-- What the loop of `arf` returns after some digits is the approximation. -/
theorem rand48_arf {seed : UInt32} {prec fuel : ℕ} {v : ℚ} (h : Digits.arfLoop (Rand48.digit seed) prec fuel = .ok v) :
    (Rand48.digits seed).arf prec = v := by
  have h1 := random_arf_returns seed prec (max fuel (2 ^ 47 + prec + 2)) (le_max_right _ _)
  have h2 : Digits.arfLoop _ _ _ = _ := loop_fuel (le_max_left _ (2 ^ 47 + prec + 2)) h
  rw [h2] at h1
  injection h1 with h1
  exact h1.symm

/-- The first random numbers of a session print like in `/repo/doc/manual/python_overview.rst:44` and `pyexactreal/test/module.py`. -/
theorem random_print_1337 : randomText Format.default (Rand48.digits 1337) = "ℝ(0.303644…)".toList := by
  rw [randomText, rand48_arf (prec := 54) (fuel := 80) (v := 21879840461097009 / 2 ^ 56) (by decide +kernel)]
  decide +kernel

theorem random_print_1338 : randomText Format.default (Rand48.digits 1338) = "ℝ(0.120809…)".toList := by
  rw [randomText, rand48_arf (prec := 54) (fuel := 80) (v := 34820906212745460 / 2 ^ 58) (by decide +kernel)]
  decide +kernel

/-- The first two random numbers of a session. -/
def twoAtoms : Atoms := fun i => if i = 0 then .random (Rand48.digits 1337) else .random (Rand48.digits 1338)

/-- Hypotheses of `real_print_injective` and `module_print_injective`: the first two random numbers are printed differently. -/
example : ∀ i j, i ∈ (RN.prod [(0, 1), (1, 2)]).mult.support → j ∈ (RN.prod [(0, 2), (1, 1)]).mult.support →
    realText Format.default twoAtoms (.atom i) = realText Format.default twoAtoms (.atom j) → i = j := by
  have key : ∀ {a b i : ℕ}, i ∈ (RN.prod [(0, a), (1, b)]).mult.support → i = 0 ∨ i = 1 := by
    intro a b i hi
    by_contra hc
    push Not at hc
    refine Finsupp.mem_support_iff.1 hi ?_
    simp [RN.mult, Mono.mult, Finsupp.single_apply, Ne.symm hc.1, Ne.symm hc.2]
  have h0 : realText Format.default twoAtoms (.atom 0) = "ℝ(0.303644…)".toList := random_print_1337
  have h1 : realText Format.default twoAtoms (.atom 1) = "ℝ(0.120809…)".toList := random_print_1338
  intro i j hi hj h
  rcases key hi with rfl | rfl <;> rcases key hj with rfl | rfl
  · rfl
  · rw [h0, h1] at h; exact absurd h (by decide)
  · rw [h0, h1] at h; exact absurd h (by decide)
  · rfl

/-- A module with two generators, printed. -/
example : moduleText Format.default twoAtoms .integers [.rat (1 / 2), .prod [(0, 1), (1, 2)]] = "ℤ-Module(1/2, ℝ(0.303644…)*ℝ(0.120809…)^2)".toList := by
  have h0 : atomText Format.default (twoAtoms 0) = "ℝ(0.303644…)".toList := random_print_1337
  have h1 : atomText Format.default (twoAtoms 1) = "ℝ(0.120809…)".toList := random_print_1338
  simp only [moduleText, List.map, realText, factorText, join, h0, h1]
  decide +kernel

end ExactReal.Props
