import Verif.Spec.ArfSpecial
import Verif.Lemma.DoubleRound
import Verif.Props.Arf

/-!
# `Arf` with infinities and NaN: order, hash, conversion from and to `double`, printing (C59, C60)
-/

namespace ExactReal.Props

open XArf (fin posInf negInf nan print toDouble ofDouble Format longLt longGt longLe longGe)

/-- `arf_cmp` is the order of the extended reals. -/
theorem xarf_cmp {a b : XArf} (ha : a ≠ nan) (hb : b ≠ nan) : (XArf.cmp a b < 0 ↔ a.ereal < b.ereal) ∧ (XArf.cmp a b > 0 ↔ b.ereal < a.ereal) := by
  cases a <;> cases b <;> simp_all [XArf.cmp, XArf.ereal]
  case fin.fin p q =>
    rcases lt_trichotomy p q with h | h | h
    · simp [h, h.le]
    · simp [h]
    · simp [h, h.le, not_lt.2 h.le]

theorem ereal_injective {a b : XArf} (ha : a ≠ nan) (hb : b ≠ nan) : a.ereal = b.ereal ↔ a = b := by
  cases a <;> cases b <;> simp_all [XArf.ereal]

/-- **C59**: for all values but NaN, the six comparison operators are the order of the extended real line. -/
theorem arf_order {a b : XArf} (ha : a ≠ nan) (hb : b ≠ nan) :
    (a.eq b = true ↔ a.ereal = b.ereal) ∧ (a.ne b = true ↔ a.ereal ≠ b.ereal) ∧ (a.lt b = true ↔ a.ereal < b.ereal) ∧
    (a.gt b = true ↔ a.ereal > b.ereal) ∧ (a.le b = true ↔ a.ereal ≤ b.ereal) ∧ (a.ge b = true ↔ a.ereal ≥ b.ereal) := by
  have h1 := xarf_cmp ha hb
  have h2 := xarf_cmp hb ha
  have h3 := ereal_injective ha hb
  simp only [XArf.eq, XArf.ne, XArf.lt, XArf.gt, XArf.le, XArf.ge, Bool.not_eq_true', decide_eq_false_iff_not, decide_eq_true_eq, h1, h2, h3, not_lt, true_and, ge_iff_le, gt_iff_lt]
  simp [h3]

/-- **C59**: for all values but NaN, the comparison operators with an integer on either side are the order of the extended real line. -/
theorem arf_order_long {a : XArf} (ha : a ≠ nan) (n : ℤ) :
    (a.eqLong n = true ↔ a.ereal = ((n : ℝ) : EReal)) ∧ (a.ltLong n = true ↔ a.ereal < ((n : ℝ) : EReal)) ∧
    (a.gtLong n = true ↔ a.ereal > ((n : ℝ) : EReal)) ∧
    (a.leLong n = true ↔ a.ereal ≤ ((n : ℝ) : EReal)) ∧ (a.geLong n = true ↔ a.ereal ≥ ((n : ℝ) : EReal)) ∧
    (longLt n a = true ↔ ((n : ℝ) : EReal) < a.ereal) ∧ (longGt n a = true ↔ ((n : ℝ) : EReal) > a.ereal) ∧
    (longLe n a = true ↔ ((n : ℝ) : EReal) ≤ a.ereal) ∧ (longGe n a = true ↔ ((n : ℝ) : EReal) ≥ a.ereal) := by
  have h1 := xarf_cmp ha (b := fin n) (by simp)
  have h3 := ereal_injective ha (b := fin n) (by simp)
  have e : (fin n).ereal = ((n : ℝ) : EReal) := by simp [XArf.ereal]
  rw [e] at h1 h3
  simp only [XArf.eqLong, XArf.ltLong, XArf.gtLong, XArf.leLong, XArf.geLong, longLt, longGt, longLe, longGe, Bool.not_eq_true', decide_eq_false_iff_not, decide_eq_true_eq, h1, h3,
    not_lt, true_and, ge_iff_le, gt_iff_lt, and_self]

/-- **C59** needs the exception of NaN (finding F30): NaN is equal to itself and to nothing else, but `<=` and `>=` hold between NaN and everything. -/
theorem arf_order_nan (a : XArf) : nan.eq nan = true ∧ (a ≠ nan → nan.eq a = false) ∧ nan.lt a = false ∧ a.lt nan = false ∧ nan.le a = true ∧
    a.le nan = true ∧ nan.ge a = true ∧ a.ge nan = true := by
  cases a <;> simp [XArf.eq, XArf.lt, XArf.le, XArf.ge, XArf.cmp]

/-- **C59**: equal values have equal hashes, whatever hash is used for doubles. -/
theorem arf_hash (h : XDouble → UInt64) {a b : XArf} (hab : a.eq b = true) : a.hash h = b.hash h := by
  rw [of_decide_eq_true hab]

/-- **C59**: `-x` and `abs(x)` are the negative and the absolute value. -/
theorem arf_neg_abs {a : XArf} (ha : a ≠ nan) : a.neg ≠ nan ∧ a.neg.ereal = -a.ereal ∧ a.abs ≠ nan ∧ a.abs.ereal = max a.ereal (-a.ereal) := by
  cases a with
  | fin q =>
    refine ⟨by simp [XArf.neg], by simp [XArf.neg, XArf.ereal], by simp [XArf.abs], ?_⟩
    simp only [XArf.abs, XArf.ereal]
    rw [← EReal.coe_neg, Rat.cast_abs, abs_eq_max_neg]
    exact (EReal.coe_strictMono.monotone.map_max)
  | posInf => simp [XArf.neg, XArf.abs, XArf.ereal]
  | negInf => simp [XArf.neg, XArf.abs, XArf.ereal]
  | nan => exact absurd rfl ha

/-- **C59**: every double survives the conversion to `Arf` and back, and the conversion is exact. -/
theorem arf_double_round_trip {d : XDouble} (hd : d.Valid) : (ofDouble d).toDouble = d ∧ ∀ x, d = .num x → (ofDouble d).ereal = x.ereal := by
  refine ⟨?_, ?_⟩
  · cases d with
    | nan => rfl
    | num d =>
      cases d with
      | posInf => rfl
      | negInf => rfl
      | fin q =>
        have h2 := abs_lt.1 hd.2
        rw [ofDouble, toDouble, Double.ofArf, Double.near_eq_self hd.1, if_neg (not_le.2 h2.2), if_neg (not_le.2 h2.1)]
  · rintro x rfl
    cases x <;> rfl

/-- **C59**: the conversion to double rounds to a nearest double (to an infinity only beyond the largest double), and it is monotone. -/
theorem arf_to_double : (∀ q, ∃ d, (fin q).toDouble = .num d ∧ Double.NearestUpTo 0 q d) ∧
    ∀ a b, a ≠ nan → b ≠ nan → a.ereal ≤ b.ereal → ∃ c d, a.toDouble = .num c ∧ b.toDouble = .num d ∧ c.ereal ≤ d.ereal := by
  refine ⟨fun q => ⟨_, rfl, Double.ofArf_nearest q⟩, fun a b ha hb h => ?_⟩
  cases a with
  | nan => exact absurd rfl ha
  | negInf =>
    cases b with
    | nan => exact absurd rfl hb
    | _ => exact ⟨_, _, rfl, rfl, bot_le⟩
  | posInf =>
    cases b with
    | nan => exact absurd rfl hb
    | posInf => exact ⟨_, _, rfl, rfl, le_rfl⟩
    | negInf => simp [XArf.ereal] at h
    | fin q => simp [XArf.ereal] at h
  | fin p =>
    cases b with
    | nan => exact absurd rfl hb
    | posInf => exact ⟨_, _, rfl, rfl, le_top⟩
    | negInf => simp [XArf.ereal] at h
    | fin q =>
      refine ⟨_, _, rfl, rfl, ?_⟩
      have hpq : p ≤ q := by
        simp only [XArf.ereal, EReal.coe_le_coe_iff] at h
        exact_mod_cast h
      have hn := Double.near_mono hpq
      have hpos : (0 : ℚ) < 2 ^ 1024 := by positivity
      unfold Double.ofArf
      generalize (2 : ℚ) ^ 1024 = P at hpos
      by_cases h1 : P ≤ Double.near q
      · rw [if_pos h1]; exact le_top
      · have h2 : ¬P ≤ Double.near p := fun h => h1 (h.trans hn)
        rw [if_neg h1, if_neg h2]
        by_cases h3 : Double.near p ≤ -P
        · rw [if_pos h3]; exact bot_le
        · have h4 : ¬Double.near q ≤ -P := fun h => h3 (hn.trans h)
          rw [if_neg h3, if_neg h4]
          simp only [Double.ereal, EReal.coe_le_coe_iff]
          exact_mod_cast hn

/-- **C59**: `floor` and `ceil` of an infinity or NaN end the process; of a finite number they return the largest integer that is not larger, and
the smallest integer that is not smaller. -/
theorem arf_floor_special (a : XArf) : (a.floor = .abort ↔ ∀ q, a ≠ fin q) ∧ (a.ceil = .abort ↔ ∀ q, a ≠ fin q) ∧
    ∀ q, a = fin q → (∃ n : ℤ, a.floor = .ok n ∧ n ≤ q ∧ q < n + 1) ∧ ∃ n : ℤ, a.ceil = .ok n ∧ q ≤ n ∧ n - 1 < q := by
  refine ⟨by cases a <;> simp [XArf.floor], by cases a <;> simp [XArf.ceil], ?_⟩
  rintro q rfl
  refine ⟨⟨⌊q⌋, ?_, Int.floor_le q, Int.lt_floor_add_one q⟩, ⌈q⌉, ?_, Int.le_ceil q, ?_⟩
  · exact congrArg Out.ok (Rnd.toInt_int .near _)
  · exact congrArg Out.ok (Rnd.toInt_int .near _)
  · have := Int.ceil_lt_add_one q; linarith

theorem split_unique {c : Char} : ∀ {s t u v : List Char}, c ∉ s → c ∉ t → s ++ c :: u = t ++ c :: v → s = t ∧ u = v
  | [], [], _, _, _, _, h => by simpa using h
  | [], d :: t, _, _, _, ht, h => by simp at h ht; exact absurd h.1 ht.1
  | d :: s, [], _, _, hs, _, h => by simp at h hs; exact absurd h.1.symm hs.1
  | d :: s, e :: t, _, _, hs, ht, h => by
    simp only [List.mem_cons, not_or, List.cons_append, List.cons.injEq] at hs ht h
    obtain ⟨h1, h2⟩ := split_unique hs.2 ht.2 h.2
    exact ⟨by rw [h.1, h1], h2⟩

/-- **C60**: what is printed for a number that is not an integer is printed for no other value, infinities and NaN included.
Missing: integers, which are printed with the precision of a double (`arf_print_integer_fails`). -/
theorem arf_print_fraction_partial {f : Format} (hf : f.Valid) {q : ℚ} (hq : Arf.Dyadic q) (hint : ¬∃ n : ℤ, q = n) {b : XArf} (hb : ∀ r, b = fin r → Arf.Dyadic r)
    (h : print f (fin q) = print f b) : b = fin q := by
  have h0 : q ≠ 0 := fun h => hint ⟨0, by simpa using h⟩
  have he : ¬0 ≤ Arf.exponent q := by
    intro he
    obtain ⟨k, hk⟩ := Int.eq_ofNat_of_zero_le he
    refine hint ⟨Arf.mantissa q * 2 ^ k, ?_⟩
    have := (arf_mantissa_exponent hq).1
    rw [hk, zpow_natCast] at this
    push_cast
    exact this.symm
  have hmem : '=' ∈ print f b := by
    rw [← h]
    simp [print, h0, he]
  cases b with
  | posInf => simp [print] at hmem
  | negInf => simp [print] at hmem
  | nan => simp [print] at hmem
  | fin r =>
    by_cases r0 : r = 0
    · simp [print, r0] at hmem
    · by_cases re : 0 ≤ Arf.exponent r
      · simp only [print, r0, re, if_true, if_false] at hmem
        exact absurd hmem (hf.double_eq _)
      · simp only [print, h0, r0, he, re, if_false, List.append_assoc, List.cons_append, List.nil_append] at h
        obtain ⟨-, h⟩ := split_unique (hf.double_eq _) (hf.double_eq _) h
        obtain ⟨hm, hx⟩ := split_unique (hf.int_p _) (hf.int_p _) h
        have hm := hf.int_injective hm
        have hx := hf.int_injective hx
        have := (arf_mantissa_exponent hq).1
        rw [hm, hx, (arf_mantissa_exponent (hb r rfl)).1] at this
        rw [this]

/-- **C60** fails for integers (finding F31): however doubles and integers are written, `2^53` and `2^53 + 1` are printed alike, although the header
promises that large numbers are written exactly. -/
theorem arf_print_integer_fails (f : Format) : print f (fin (2 ^ 53)) = print f (fin (2 ^ 53 + 1)) ∧ (fin (2 ^ 53)).eq (fin (2 ^ 53 + 1)) = false := by
  refine ⟨?_, by decide +kernel⟩
  have e1 : 0 ≤ Arf.exponent (2 ^ 53) := by decide +kernel
  have e2 : 0 ≤ Arf.exponent (2 ^ 53 + 1) := by decide +kernel
  have e3 : toDouble (fin (2 ^ 53)) = toDouble (fin (2 ^ 53 + 1)) := by
    have h : Double.near (2 ^ 53) = Double.near (2 ^ 53 + 1) := by decide +kernel
    simp only [toDouble, Double.ofArf, h]
  simp only [print, e1, e2, if_true, e3]
  norm_num

/-- A way to write numbers that meets the requirements: lists of `1`s after a sign. -/
example : ∃ f : Format, f.Valid := by
  refine ⟨⟨fun _ => [], fun n => (if 0 ≤ n then '+' else '-') :: List.replicate n.natAbs '1'⟩, by simp, ?_, ?_⟩
  · intro n; dsimp only; split <;> simp
  · intro m n h
    simp only [List.cons.injEq] at h
    have hl := congrArg List.length h.2
    simp only [List.length_replicate] at hl
    have h1 := h.1
    by_cases hm : 0 ≤ m <;> by_cases hn : 0 ≤ n <;> simp_all <;> omega

example : Arf.Dyadic (3 / 4) ∧ ¬∃ n : ℤ, (3 / 4 : ℚ) = n := by
  refine ⟨⟨3, -2, by norm_num⟩, ?_⟩
  rintro ⟨n, hn⟩
  have : (3 : ℚ) = ((4 * n : ℤ) : ℚ) := by push_cast; linarith
  have : (3 : ℤ) = 4 * n := by exact_mod_cast this
  omega

end ExactReal.Props
