import Verif.Lemma.Text
import Verif.Props.Arf

/-!
# C78: numbers as text

What is written to an archive for an integer, a rational, a floating point number or a ball is read as the same number.
-/

namespace ExactReal.Props
open ExactReal Text

/-- C78. An integer is read as it was written, although it is written in base 10 and read with a base that is guessed from its first digits. -/
theorem mpz_text (z : ℤ) : loadMpz (saveMpz z) = .ok z := by
  simp only [loadMpz, saveMpz, setStr_dec]

/-- C78. A rational is read as it was written, in lowest terms and with a positive denominator. -/
theorem mpq_text (q : ℚ) : loadMpq (saveMpq q) = .ok (q.num, q.den) := by
  have free := fun z d hd => (getStr_free (base := 10) (by norm_num) (by norm_num) z d hd).1
  unfold loadMpq saveMpq mpqSetStr
  by_cases h : q.den = 1
  · rw [if_pos h, List.append_nil, splitAt_none (free _)]
    simp only [setStr_dec, Option.map_some, h, Nat.cast_one]
  · rw [if_neg h, splitAt_append (free _)]
    simp only [setStr_dec, Option.map_some]

/-- C78. A floating point number is read as it was written; so are the infinities and NaN. -/
theorem arf_text (x : XArf) (hx : ∀ q, x = .fin q → Arf.Dyadic q) : loadArf (saveArf x) = .ok x := by
  unfold loadArf saveArf
  cases x with
  | fin q =>
    rw [dumpArf, parseArf_pair, if_neg]
    · rw [Arf.mantissa_mul (hx q rfl)]
    · rintro ⟨h1, h2⟩
      apply h2
      by_cases hq : q = 0
      · subst hq; exact Arf.exponent_zero
      · have := Arf.mantissa_odd hq
        rw [h1] at this
        cases this
  | posInf => rw [dumpArf, parseArf_pair]; rfl
  | negInf => rw [dumpArf, parseArf_pair]; rfl
  | nan => rw [dumpArf, parseArf_pair]; rfl

/-- C78. A ball is read as it was written. -/
theorem arb_text (x : XBall) (hm : ∀ q, x.mid = .fin q → Arf.Dyadic q) (hr : ∀ r, x.rad = some r → Arf.Dyadic r ∧ 0 ≤ r) :
    loadArb (saveArb x) = .ok x := by
  have free := fun z d hd => (getStr_free (base := 16) (by norm_num) le_rfl z d hd).2
  have arf : ∀ y : XArf, (∀ q, y = .fin q → Arf.Dyadic q) → parseArf (dumpArf y) = some y := by
    intro y hy
    have := arf_text y hy
    unfold loadArf saveArf at this
    split at this
    · rename_i h; rw [h]; injection this with this; rw [this]
    · cases this
  have split : ∀ y : XArf, ∃ m e : Str, dumpArf y = m ++ ' ' :: e ∧ (∀ d ∈ m, d ≠ ' ') ∧ ∀ d ∈ e, d ≠ ' ' := by
    intro y
    cases y <;> exact ⟨_, _, rfl, free _, free _⟩
  obtain ⟨m, e, h1, h2, h3⟩ := split x.mid
  have hp : parseMag (dumpMag x.rad) = some x.rad := by
    cases h : x.rad with
    | none => rw [parseMag, dumpMag, arf .posInf (by simp)]
    | some r =>
      obtain ⟨g1, g2⟩ := hr r h
      rw [parseMag, dumpMag, arf (.fin r) (by rintro q h; injection h with h; subst h; exact g1)]
      simp only [if_neg (not_lt.2 g2)]
  have ha := arf x.mid hm
  rw [h1] at ha
  have : parseArb (dumpArb x) = some x := by
    unfold parseArb dumpArb
    rw [h1, List.append_assoc, List.cons_append, splitAt_append h2]
    simp only
    rw [splitAt_append h3]
    simp only [ha, hp]
  simp only [loadArb, saveArb, this]

/-- C78. Different numbers are written differently. -/
theorem text_injective : Function.Injective saveMpz ∧ Function.Injective saveMpq := by
  constructor
  · intro a b h
    have := mpz_text a
    rw [h, mpz_text] at this
    injection this with this
    exact this.symm
  · intro a b h
    have := mpq_text a
    rw [h, mpq_text] at this
    injection this with this
    simp only [Prod.mk.injEq, Nat.cast_inj] at this
    exact Rat.ext this.1.symm this.2.symm

/-- C78. A text with a character that is neither a letter, a digit, a minus sign nor white space is rejected as an integer, and so is the empty
text. -/
theorem mpz_text_rejects {s : Str} (h : s = [] ∨ ∃ c ∈ s, digitValue c = 255 ∧ isSpace c = false ∧ c ≠ '-') :
    loadMpz s = .throws .invalidArgument := by
  rcases h with rfl | ⟨c, hc, h1, h2, h3⟩
  · rfl
  · simp only [loadMpz, setStr_bad h1 h2 h3 hc]

example : saveMpz (-1234) = "-1234".toList ∧ saveMpq (-3 / 40) = "-3/40".toList ∧ saveArf (.fin (-5 / 2)) = "-5 -1".toList ∧
    saveArb ⟨.fin 48, some (1 / 2)⟩ = "3 4 1 -1".toList ∧ loadMpz "1.5".toList = .throws .invalidArgument := by
  refine ⟨by decide +kernel, by decide +kernel, by decide +kernel, by decide +kernel, by decide +kernel⟩

/-- White space in the C locale: blank, tab, line feed, vertical tab, form feed, carriage return. -/
def WhiteSpace (c : Char) : Prop := c ∈ [' ', '\t', '\n', '\x0b', '\x0c', '\r']

theorem whiteSpace_iff (c : Char) : isSpace c = true ↔ WhiteSpace c := by
  have : WhiteSpace c ↔ c.toNat ∈ [32, 9, 10, 11, 12, 13] := by
    simp only [WhiteSpace, List.mem_cons, List.not_mem_nil, or_false, ← Char.toNat_inj]
    rfl
  rw [this]
  simp [isSpace]
  omega

/-- C78. White space around an integer is ignored. -/
theorem mpz_text_space (z : ℤ) {v w : Str} (hv : ∀ c ∈ v, WhiteSpace c) (hw : ∀ c ∈ w, WhiteSpace c) : loadMpz (v ++ saveMpz z ++ w) = .ok z := by
  have hv' : ∀ c ∈ v, isSpace c = true := fun c hc => (whiteSpace_iff c).2 (hv c hc)
  have hw' : ∀ c ∈ w, isSpace c = true := fun c hc => (whiteSpace_iff c).2 (hw c hc)
  have h := setStr_dec z
  have : setStr 0 (v ++ getStr 10 z ++ w) = setStr 0 (getStr 10 z) := by
    unfold setStr
    rw [List.append_assoc, List.dropWhile_append_of_pos hv']
    obtain ⟨c, cs, hg, hc⟩ : ∃ c cs, getStr 10 z = c :: cs ∧ isSpace c = false := by
      unfold getStr
      by_cases hn : z < 0
      · exact ⟨'-', _, by rw [if_pos hn]; rfl, by decide⟩
      by_cases h0 : z = 0
      · exact ⟨'0', [], by rw [if_neg hn, if_pos h0]; rfl, by decide⟩
      obtain ⟨d, l, hdl, -, hd⟩ := digits_head (base := 10) (by norm_num) (Int.natAbs_ne_zero.2 h0)
      exact ⟨digitChar d, l.map digitChar, by rw [if_neg hn, if_neg h0, hdl]; rfl, (digit_facts (by omega)).2.1⟩
    rw [hg, List.cons_append, List.dropWhile_cons_of_neg (by simp [hc]), List.dropWhile_cons_of_neg (by simp [hc])]
    by_cases hm : c = '-'
    · subst hm
      have : cs ≠ [] := by
        rintro rfl
        rw [hg] at h
        revert h
        rw [show setStr 0 ['-'] = none by decide]
        exact fun h => by cases h
      simp only [sign, setUnsigned_space hw' this]
    · simp only [sign_of_ne hm]
      rw [← List.cons_append, setUnsigned_space hw' (by simp)]
  simp only [loadMpz, saveMpz, this, h]

/-- C78. Which base the first digits select: `0x` and `0X` base 16, `0b` and `0B` base 2, another `0` base 8. -/
theorem mpz_text_base (neg : Bool) {p : String} {b : ℕ} (hp : (p, b) ∈ [("0x", 16), ("0X", 16), ("0b", 2), ("0B", 2), ("0", 8)]) (l : List ℕ)
    (hl : ∀ d ∈ l, d < b) :
    loadMpz ((if neg then ['-'] else []) ++ p.toList ++ l.map digitChar) = .ok ((if neg then -1 else 1) * ((Nat.ofDigits b l.reverse : ℕ) : ℤ)) := by
  have hb : b ≤ 16 := by
    simp only [List.mem_cons, List.not_mem_nil, or_false, Prod.mk.injEq] at hp
    omega
  have hval : setDigits b (l.map digitChar) 0 = some (Nat.ofDigits b l.reverse) := by
    rw [setDigits_digits hb _ hl, ← foldl_digits, List.reverse_reverse]
  have hd : ∀ r : Str, ∃ cs, p.toList = '0' :: cs := by
    intro r
    simp only [List.mem_cons, List.not_mem_nil, or_false, Prod.mk.injEq] at hp
    rcases hp with ⟨rfl, -⟩ | ⟨rfl, -⟩ | ⟨rfl, -⟩ | ⟨rfl, -⟩ | ⟨rfl, -⟩
    exacts [⟨['x'], by decide⟩, ⟨['X'], by decide⟩, ⟨['b'], by decide⟩, ⟨['B'], by decide⟩, ⟨[], by decide⟩]
  have hdet : detectBase (p.toList ++ l.map digitChar) = (b, l.map digitChar) := by
    simp only [List.mem_cons, List.not_mem_nil, or_false, Prod.mk.injEq] at hp
    rcases hp with ⟨rfl, rfl⟩ | ⟨rfl, rfl⟩ | ⟨rfl, rfl⟩ | ⟨rfl, rfl⟩ | ⟨rfl, rfl⟩
    · rw [show "0x".toList = ['0', 'x'] by decide]; rfl
    · rw [show "0X".toList = ['0', 'X'] by decide]; rfl
    · rw [show "0b".toList = ['0', 'b'] by decide]; rfl
    · rw [show "0B".toList = ['0', 'B'] by decide]; rfl
    · rw [show "0".toList = ['0'] by decide]
      cases l with
      | nil => rfl
      | cons d l =>
        have hd : d < 8 := hl d (by simp)
        have : digitChar d ≠ 'x' ∧ digitChar d ≠ 'X' ∧ digitChar d ≠ 'b' ∧ digitChar d ≠ 'B' := by
          interval_cases d <;> decide
        show detectBase ('0' :: digitChar d :: l.map digitChar) = _
        unfold detectBase
        split <;> simp_all
  have hun : setUnsigned 0 (p.toList ++ l.map digitChar) = some (Nat.ofDigits b l.reverse) := by
    obtain ⟨cs, hcs⟩ := hd []
    rw [← hval]
    rw [hcs] at hdet ⊢
    simp only [List.cons_append] at hdet ⊢
    simp only [setUnsigned, if_true, hdet]
    rw [if_pos (by decide)]
  obtain ⟨cs, hcs⟩ := hd []
  have : setStr 0 ((if neg then ['-'] else []) ++ p.toList ++ l.map digitChar) = some ((if neg then -1 else 1) * ((Nat.ofDigits b l.reverse : ℕ) : ℤ)) := by
    cases neg with
    | true =>
      simp only [if_true, List.cons_append, List.nil_append, setStr]
      rw [List.dropWhile_cons_of_neg (by decide)]
      simp [sign, hun]
    | false =>
      have : p.toList ++ l.map digitChar = '0' :: (cs ++ l.map digitChar) := by rw [hcs]; rfl
      simp only [Bool.false_eq_true, if_false, List.nil_append, setStr]
      rw [this] at hun ⊢
      rw [List.dropWhile_cons_of_neg (by decide), sign_of_ne (by decide)]
      simp [hun]
  simp only [loadMpz, this]

/-- Examples: the hypotheses of the two theorems above. -/
example : loadMpz (" \t".toList ++ saveMpz (-12) ++ "\r\n".toList) = .ok (-12) :=
  mpz_text_space (-12) (by unfold WhiteSpace; decide) (by unfold WhiteSpace; decide)

example : loadMpz "-0Xfe".toList = .ok (-254) := by
  have := mpz_text_base true (p := "0X") (b := 16) (by decide) [15, 14] (by decide)
  have e : (if true = true then ['-'] else []) ++ "0X".toList ++ [15, 14].map digitChar = "-0Xfe".toList := by decide
  rw [e] at this
  rw [this]
  decide

/-- C78 fails for texts that the library does not write: a leading zero selects base 8, and fractions are neither reduced nor checked, such that
`mpq_class` operations on the result are undefined. -/
theorem text_fails : loadMpz "010".toList = .ok 8 ∧ loadMpq "2/4".toList = .ok (2, 4) ∧ loadMpq "1/0".toList = .ok (1, 0) := by
  refine ⟨by decide +kernel, by decide +kernel, by decide +kernel⟩

end ExactReal.Props
