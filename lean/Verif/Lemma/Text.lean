import Verif.Model.Text
import Verif.Lemma.Arf
import Mathlib.Data.Nat.Digits.Lemmas
import Mathlib.Tactic.IntervalCases

/-! # Writing and parsing numbers -/

namespace ExactReal.Text

/-- A digit is read as its value, and it is neither white space nor one of the separators. -/
theorem digit_facts {d : ℕ} (h : d < 16) : digitValue (digitChar d) = d ∧ isSpace (digitChar d) = false ∧ digitChar d ≠ '-' ∧
    digitChar d ≠ '/' ∧ digitChar d ≠ ' ' ∧ (d ≠ 0 → digitChar d ≠ '0') := by
  revert d; decide

theorem setDigits_digits {base : ℕ} (hb : base ≤ 16) (l : List ℕ) (hl : ∀ d ∈ l, d < base) (n : ℕ) :
    setDigits base (l.map digitChar) n = some (l.foldl (fun a d => a * base + d) n) := by
  induction l generalizing n with
  | nil => rfl
  | cons d l ih =>
    obtain ⟨h1, h2, -⟩ := digit_facts (lt_of_lt_of_le (hl d (by simp)) hb)
    rw [List.map_cons, setDigits, h2, h1, if_neg (by simp), if_pos (hl d (by simp)), ih fun x hx => hl x (by simp [hx])]
    rfl

theorem foldl_digits (base : ℕ) (l : List ℕ) : l.reverse.foldl (fun a d => a * base + d) 0 = Nat.ofDigits base l := by
  induction l with
  | nil => rfl
  | cons d l ih => rw [List.reverse_cons, List.foldl_append, ih, Nat.ofDigits_cons]; simp; ring

/-- The digits of a positive number: the first one is not zero. -/
theorem digits_head {base n : ℕ} (hb : 2 ≤ base) (hn : n ≠ 0) : ∃ d l, (Nat.digits base n).reverse = d :: l ∧ d ≠ 0 ∧ d < base := by
  have hne : Nat.digits base n ≠ [] := Nat.digits_ne_nil_iff_ne_zero.2 hn
  have hlast := Nat.getLast_digit_ne_zero base hn
  refine ⟨(Nat.digits base n).getLast hne, (Nat.digits base n).dropLast.reverse, ?_, hlast, Nat.digits_lt_base hb (List.getLast_mem hne)⟩
  conv_lhs => rw [← List.dropLast_append_getLast hne]
  simp

theorem mem_digits {base n d : ℕ} (hb : 2 ≤ base) (h : d ∈ (Nat.digits base n).reverse) : d < base :=
  Nat.digits_lt_base hb (List.mem_reverse.1 h)

/-- Numbers are written without blanks and slashes. -/
theorem getStr_free {base : ℕ} (h2 : 2 ≤ base) (hb : base ≤ 16) (z : ℤ) : ∀ c ∈ getStr base z, c ≠ '/' ∧ c ≠ ' ' := by
  intro c hc
  rw [getStr, List.mem_append] at hc
  rcases hc with hc | hc
  · split_ifs at hc
    · simp at hc; subst hc; decide
    · cases hc
  · split_ifs at hc
    · simp at hc; subst hc; decide
    · obtain ⟨d, hd, rfl⟩ := List.mem_map.1 hc
      obtain ⟨-, -, -, h3, h4, -⟩ := digit_facts (lt_of_lt_of_le (mem_digits h2 hd) hb)
      exact ⟨h3, h4⟩

theorem detectBase_of_ne {c : Char} (h : c ≠ '0') (cs : Str) : detectBase (c :: cs) = (10, c :: cs) := by
  unfold detectBase
  split <;> simp_all

theorem sign_of_ne {c : Char} (h : c ≠ '-') (cs : Str) : sign (c :: cs) = (false, c :: cs) := by
  unfold sign
  split <;> simp_all

/-- What is read behind the sign. -/
theorem setUnsigned_digits {base : ℕ} (hb : base = 0 ∨ 2 ≤ base ∧ base ≤ 16) {n : ℕ} (hn : n ≠ 0) :
    setUnsigned base ((Nat.digits (if base = 0 then 10 else base) n).reverse.map digitChar) = some n := by
  set b := if base = 0 then 10 else base with hbdef
  have h2 : 2 ≤ b := by rw [hbdef]; split_ifs with h <;> omega
  have h16 : b ≤ 16 := by rw [hbdef]; split_ifs with h <;> omega
  obtain ⟨d, l, hdl, hd0, hd⟩ := digits_head h2 hn
  obtain ⟨v1, v2, v3, -, -, v6⟩ := digit_facts (lt_of_lt_of_le hd h16)
  have hval : setDigits b ((Nat.digits b n).reverse.map digitChar) 0 = some n := by
    rw [setDigits_digits h16 _ (fun x hx => mem_digits h2 hx), foldl_digits, Nat.ofDigits_digits]
  rw [hdl] at hval ⊢
  rw [List.map_cons] at hval ⊢
  have key : ∀ cs : Str, (if base = 0 then detectBase (digitChar d :: cs) else (base, digitChar d :: cs)) = (b, digitChar d :: cs) := by
    intro cs
    rw [hbdef]
    split_ifs with h
    · exact detectBase_of_ne (v6 hd0) cs
    · rfl
  simp only [setUnsigned, v1, key]
  rw [if_pos (by rw [← hbdef]; exact hd)]
  exact hval

/-- A number is read as it was written, with the base or with base 0 if it was written in base 10. -/
theorem setStr_getStr {base : ℕ} (hb : base = 0 ∨ 2 ≤ base ∧ base ≤ 16) (z : ℤ) :
    setStr base (getStr (if base = 0 then 10 else base) z) = some z := by
  set b := if base = 0 then 10 else base with hbdef
  have h2 : 2 ≤ b := by rw [hbdef]; split_ifs with h <;> omega
  have h16 : b ≤ 16 := by rw [hbdef]; split_ifs with h <;> omega
  by_cases hz : z = 0
  · subst hz
    have : setUnsigned base ['0'] = some 0 := by
      rcases hb with rfl | hb
      · decide
      · have h0 : base ≠ 0 := by omega
        have hv : digitValue '0' = 0 := by decide
        have hp : 0 < base := by omega
        simp [setUnsigned, h0, hv, hp, setDigits, show isSpace '0' = false from by decide]
    simp only [getStr, setStr]
    simp only [lt_irrefl, if_false, if_true, List.nil_append, show List.dropWhile isSpace ['0'] = ['0'] from by decide,
      show sign ['0'] = (false, ['0']) from by decide, this]
    simp
  · have hn : z.natAbs ≠ 0 := Int.natAbs_ne_zero.2 hz
    have hu := setUnsigned_digits hb hn
    rw [← hbdef] at hu
    obtain ⟨d, l, hdl, hd0, hd⟩ := digits_head h2 hn
    obtain ⟨v1, v2, v3, -, -, v6⟩ := digit_facts (lt_of_lt_of_le hd h16)
    rw [hdl] at hu
    simp only [getStr, if_neg hz, setStr, hdl]
    rw [List.map_cons] at hu ⊢
    by_cases hneg : z < 0
    · rw [if_pos hneg, List.cons_append, List.nil_append, List.dropWhile_cons_of_neg (by decide)]
      simp only [sign, hu, Option.map_some, if_true]
      congr 1
      omega
    · rw [if_neg hneg, List.nil_append, List.dropWhile_cons_of_neg (by rw [v2]; simp), sign_of_ne v3]
      simp only [hu, Option.map_some, Bool.false_eq_true, if_false]
      congr 1
      omega

theorem splitAt_append {c : Char} {s : Str} (h : ∀ d ∈ s, d ≠ c) (r : Str) : splitAt c (s ++ c :: r) = some (s, r) := by
  induction s with
  | nil => simp [splitAt]
  | cons d s ih =>
    rw [List.cons_append, splitAt, if_neg (h d (by simp)), ih fun x hx => h x (by simp [hx])]
    rfl

theorem splitAt_none {c : Char} {s : Str} (h : ∀ d ∈ s, d ≠ c) : splitAt c s = none := by
  induction s with
  | nil => rfl
  | cons d s ih =>
    rw [splitAt, if_neg (h d (by simp)), ih fun x hx => h x (by simp [hx])]
    rfl

theorem setStr_hex (z : ℤ) : setStr 16 (getStr 16 z) = some z := setStr_getStr (base := 16) (Or.inr ⟨by norm_num, le_rfl⟩) z

theorem setStr_dec (z : ℤ) : setStr 0 (getStr 10 z) = some z := setStr_getStr (base := 0) (Or.inl rfl) z

theorem parseArf_pair (m e : ℤ) : parseArf (getStr 16 m ++ ' ' :: getStr 16 e) =
    if m = 0 ∧ e ≠ 0 then
      if e = -1 then some .posInf else if e = -2 then some .negInf else if e = -3 then some .nan else none
    else some (.fin (m * 2 ^ e)) := by
  rw [parseArf, splitAt_append fun d hd => (getStr_free (by norm_num) le_rfl m d hd).2]
  simp only [setStr_hex]

theorem setDigits_bad {base : ℕ} (hb : base ≤ 255) {c : Char} (h1 : digitValue c = 255) (h2 : isSpace c = false) (s : Str) (hc : c ∈ s) (n : ℕ) :
    setDigits base s n = none := by
  induction s generalizing n with
  | nil => cases hc
  | cons d s ih =>
    rcases List.mem_cons.1 hc with rfl | hc
    · rw [setDigits, h2, if_neg (by simp), if_neg (by omega)]
    · rw [setDigits]
      split_ifs
      · exact ih hc n
      · exact ih hc _
      · rfl

theorem detectBase_le (s : Str) : (detectBase s).1 ≤ 255 ∧ ∀ c ∈ s, digitValue c = 255 → c ∈ (detectBase s).2 := by
  have hx : digitValue '0' ≠ 255 ∧ digitValue 'x' ≠ 255 ∧ digitValue 'X' ≠ 255 ∧ digitValue 'b' ≠ 255 ∧ digitValue 'B' ≠ 255 := by decide
  obtain ⟨h0, h1, h2, h3, h4⟩ := hx
  unfold detectBase
  split <;> refine ⟨by norm_num, fun c hc hv => ?_⟩ <;> simp only [List.mem_cons] at hc ⊢ <;> grind

theorem setStr_bad {c : Char} (h1 : digitValue c = 255) (h2 : isSpace c = false) (h3 : c ≠ '-') {s : Str} (hc : c ∈ s) : setStr 0 s = none := by
  have hd : c ∈ s.dropWhile isSpace := by
    rw [← List.takeWhile_append_dropWhile (p := isSpace) (l := s), List.mem_append] at hc
    rcases hc with hc | hc
    · have := List.all_eq_true.1 (List.all_takeWhile (p := isSpace) (l := s)) c hc
      rw [h2] at this; cases this
    · exact hc
  have hs : c ∈ (sign (s.dropWhile isSpace)).2 := by
    unfold sign
    split
    · rename_i e
      rw [e] at hd
      rcases List.mem_cons.1 hd with h | h
      · exact absurd h h3
      · exact h
    · exact hd
  have : setUnsigned 0 (sign (s.dropWhile isSpace)).2 = none := by
    generalize (sign (s.dropWhile isSpace)).2 = u at hs
    cases u with
    | nil => cases hs
    | cons d u =>
      obtain ⟨b1, b2⟩ := detectBase_le (d :: u)
      simp only [setUnsigned, if_true]
      split_ifs
      · exact setDigits_bad b1 h1 h2 _ (b2 c hs h1) 0
      · rfl
  simp only [setStr, this, Option.map_none]

theorem setDigits_space {base : ℕ} {w : Str} (hw : ∀ c ∈ w, isSpace c = true) : ∀ (s : Str) (n : ℕ), setDigits base (s ++ w) n = setDigits base s n
  | [], n => by
    rw [List.nil_append]
    induction w with
    | nil => rfl
    | cons c w ih =>
      have : setDigits base (c :: w) n = setDigits base w n := by rw [setDigits, hw c (by simp), if_pos rfl]
      rw [this, ih fun x hx => hw x (by simp [hx])]
  | c :: s, n => by
    rw [List.cons_append, setDigits, setDigits, setDigits_space hw s, setDigits_space hw s]

theorem detectBase_space {w : Str} (hw : ∀ c ∈ w, isSpace c = true) {s : Str} (hs : s ≠ []) :
    detectBase (s ++ w) = ((detectBase s).1, (detectBase s).2 ++ w) := by
  have hx : ∀ c ∈ w, c ≠ 'x' ∧ c ≠ 'X' ∧ c ≠ 'b' ∧ c ≠ 'B' := by
    intro c hc
    have := hw c hc
    refine ⟨?_, ?_, ?_, ?_⟩ <;> (rintro rfl; revert this; decide)
  match s, hs with
  | [c], _ =>
    by_cases h0 : c = '0'
    · subst h0
      cases w with
      | nil => rfl
      | cons d w =>
        obtain ⟨h1, h2, h3, h4⟩ := hx d (by simp)
        show detectBase ('0' :: d :: w) = (8, d :: w)
        unfold detectBase
        split <;> simp_all
    · rw [List.cons_append, detectBase_of_ne h0, detectBase_of_ne h0]; rfl
  | c :: d :: s, _ =>
    by_cases h0 : c = '0'
    · subst h0
      rw [List.cons_append, List.cons_append]
      by_cases h1 : d = 'x'
      · subst h1; rfl
      by_cases h2 : d = 'X'
      · subst h2; rfl
      by_cases h3 : d = 'b'
      · subst h3; rfl
      by_cases h4 : d = 'B'
      · subst h4; rfl
      have : ∀ r, detectBase ('0' :: d :: r) = (8, d :: r) := by
        intro r
        unfold detectBase
        split <;> simp_all
      rw [this, this]; rfl
    · rw [List.cons_append, detectBase_of_ne h0, detectBase_of_ne h0]; rfl

theorem setUnsigned_space {base : ℕ} {w : Str} (hw : ∀ c ∈ w, isSpace c = true) {s : Str} (hs : s ≠ []) :
    setUnsigned base (s ++ w) = setUnsigned base s := by
  have hd := detectBase_space hw hs
  match s, hs with
  | c :: s, _ =>
    rw [List.cons_append] at hd
    rw [List.cons_append, setUnsigned, setUnsigned]
    congr 1
    by_cases h0 : base = 0
    · simp only [if_pos h0, hd, setDigits_space hw]
    · simp only [if_neg h0]
      rw [← List.cons_append, setDigits_space hw]

end ExactReal.Text
