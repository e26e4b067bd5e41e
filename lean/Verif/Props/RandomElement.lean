import Verif.Props.RandomRoundTrip
import Verif.Props.ElementDouble
import Verif.Props.PythonRound
import Verif.Props.PrintReal

/-!
# The double of a random element close to a double

`float(ExactReals(K).random_element(d)) == d`.
-/

namespace ExactReal.Props
open ExactReal Arf Ball

variable (gen : Generators)

namespace RandomRoundTrip

/-- With any precision of at least 54 bits, the approximations of the number stay close to the double. -/
theorem arf_close {x : ℚ} (hx : Double.IsFinite x) {m e : ℤ} {d : Digits} (h1 : x - 3 / 8 * (x - nextDown x) < m * 2 ^ e)
    (h2 : ((m : ℚ) + 1) * 2 ^ e < x + 3 / 8 * (nextUp x - x)) {p : ℕ} (hp : 54 ≤ p) :
    x - 3 / 8 * (x - nextDown x) ≤ Atom.arfConstrained m e d p ∧ Atom.arfConstrained m e d p ≤ x + 3 / 8 * (nextUp x - x) := by
  have hp' := two_zpow_pos e
  have hq := two_zpow_pos (e - 1)
  have hh : (2 : ℚ) ^ e = 2 * 2 ^ (e - 1) := by rw [← zpow_one_add₀ (by norm_num)]; congr 1; ring
  have hlo := Digits.prefixValue_nonneg d.digit (innerDigits m e d p)
  have hhi : Digits.prefixValue d.digit (innerDigits m e d p) ≤ 1 := by
    have := (d.prefixValue_le (innerDigits m e d p)).trans d.value_le_one
    exact_mod_cast this
  have hlo' := mul_nonneg hlo hq.le
  have hhi' := mul_le_mul_of_nonneg_right hhi hq.le
  rw [arfConstrained_eq]
  constructor
  · refine le_round_near_of_lt (p := p + 1) (by omega) ((rep_down hx.1).mono (by omega)) ?_
    rw [truncated]; linarith
  · refine round_near_le_of_lt (p := p + 1) (by omega) ((rep_up hx.1).mono (by omega)) ?_
    rw [truncated]; linarith

/-- What is at most `3/8` of the way to the neighbours is rounded to the double. -/
theorem ofArf_close {x w : ℚ} (hx : Double.IsFinite x) (h1 : x - 3 / 8 * (x - nextDown x) ≤ w) (h2 : w ≤ x + 3 / 8 * (nextUp x - x)) :
    Double.ofArf w = .fin x := by
  obtain ⟨u1, u2, u3, u4⟩ := Double.nextUp_spec hx.1
  obtain ⟨d1, d2, d3, d4⟩ := nextDown_spec hx.1
  refine RandomSpecialLemma.ofArf_near hx fun z hz hne => ?_
  rcases lt_or_gt_of_ne hne with hlt | hgt
  · have := d4 z hz hlt
    rw [abs_sub_comm z, lt_abs]; left
    rw [abs_lt]; constructor <;> linarith
  · have := u4 z hz hgt
    rw [lt_abs]; left
    rw [abs_lt]; constructor <;> linarith

/-- An interval around a number that is rounded to `x`, whose ends are rounded to the same double. -/
theorem ofArf_squeeze {lo w hi x : ℚ} {d : Double} (hw : Double.ofArf w = .fin x) (h1 : lo ≤ w) (h2 : w ≤ hi) (hlo : Double.ofArf lo = d)
    (hhi : Double.ofArf hi = d) : d = .fin x := by
  have m1 := Double.near_mono h1
  have m2 := Double.near_mono h2
  have hpos : (0 : ℚ) < 2 ^ 1024 := by positivity
  unfold Double.ofArf at hw hlo hhi
  generalize (2 : ℚ) ^ 1024 = P at *
  split_ifs at hw with c1 c2
  push Not at c1 c2
  have hwx := Double.fin.inj hw
  rw [if_neg (by linarith)] at hlo
  rw [if_neg (show ¬ Double.near hi ≤ -P by linarith)] at hhi
  subst hhi
  by_cases c3 : P ≤ Double.near hi
  · rw [if_pos c3] at hlo
    split_ifs at hlo
  · rw [if_neg c3] at hlo ⊢
    split_ifs at hlo
    have := Double.fin.inj hlo
    rw [← hwx]; congr 1; linarith

end RandomRoundTrip

open RandomRoundTrip

section element
variable {P : Type} [DecidableEq P] {R : Type} [CommRing R] [DecidableEq R] [CRing P R] [LawfulCRing P]
variable {F : Arith} {coeff : ℕ → R → Ball}

/-- **C95**, **C35** for the random element close to a double: its conversion to `double` is the double it was created from; and the conversion
returns. -/
theorem random_element_double (hF : F.Lawful) (hco : CoeffLawful P coeff) {x : ℚ} (hx : Double.IsFinite x) (hmax : |x| < 2 ^ 1024 - 2 ^ 971)
    (seed : UInt32) (atoms : Atoms) (i : ℕ) (hi : randomDouble gen (.fin x) seed = .ok (atoms i)) (ring : P) :
    ∃ N, ∀ fuel, N ≤ fuel → (⟨⟨ring, [.atom i]⟩, [1]⟩ : Elt P R).toDouble atoms F coeff fuel = .ok (.fin x) := by
  obtain ⟨m, e, h1, h2, h3⟩ := randomDouble_form gen hx hmax seed
  rw [hi] at h1
  have ha : atoms i = .constrained m e (gen.digits seed) := Out.ok.inj h1
  generalize gen.digits seed = dg at ha
  set y : Elt P R := ⟨⟨ring, [.atom i]⟩, [1]⟩ with hy
  have one : (1 : R) ≠ 0 := by
    intro h
    have := map_one (LawfulCRing.emb P (R := R))
    rw [h, map_zero] at this
    exact zero_ne_one this
  have hq : y.rational? = none := by
    simp [Elt.rational?, Elt.rationalLoop, Elt.terms, hy, RN.rational?, one]
  have hwf : y.WF := Elt.term_WF (by trivial) (Subring.one_mem _)
  have hreal : y.real atoms.vals = (atoms i).value := by
    simp [Elt.real, Elt.value, Elt.terms, hy, RN.value, Atoms.vals]
  -- what is returned is the double
  have only : ∀ fuel d, y.toDouble atoms F coeff fuel = .ok d → d = .fin x := by
    intro fuel d h
    rw [Elt.toDouble, hq] at h
    simp only at h
    rw [doubleLoop_eq] at h
    obtain ⟨k, s, lo, hi', r, k1, -, k3, k4, k5, k6, k7⟩ := boundsBody_ok h
    have hA := le_start 55 k
    rcases Elt.arb_ok atoms k1 with ⟨h0, -⟩ | ⟨j, hs, -⟩
    · simp [Elt.toBool, hy, one] at h0
    set p := (55 * 2 ^ k + Nat.clog 2 y.mod.basis.length) * 2 ^ j with hpdef
    have hp : 55 ≤ p := hA.trans (Elt.le_prec _ _ _)
    obtain ⟨w1, w2⟩ := arf_close hx h2 h3 (d := dg) (show 54 ≤ p by omega)
    have hmid : ((RN.atom i).arb atoms p).mid = Atom.arfConstrained m e dg p := by
      rw [RN.arb_eq, RN.arf_nat]
      show Atom.arf (atoms i) p = _
      rw [ha]; rfl
    have hn : Near 1 ((RN.atom i).arb atoms p) (Atom.arfConstrained m e dg p : ℚ) := by
      obtain ⟨r', e1, e2, -⟩ := (RN.arb_near atoms (x := .atom i) (by trivial) (show 2 ≤ p by omega)).1
      refine ⟨r', e1, e2, ?_⟩
      rw [hmid, sub_self, abs_zero, _root_.one_mul]
      exact_mod_cast e2
    have hn2 := hF.add_near le_rfl p (near_exact 1 0) (hF.mul_near le_rfl p hn (hco.contains p (1 : R)) (hco.finite p 1))
    have hs' : s = F.add p (exact 0) (F.mul p ((RN.atom i).arb atoms p) (coeff p 1)) := by rw [hs]; rfl
    rw [← hs', Elt.num, map_one, _root_.mul_one, Rat.cast_zero, zero_add] at hn2
    obtain ⟨r', e1, e2, e3⟩ := hn2
    rw [k3] at e1; cases e1
    rw [_root_.one_mul, abs_le] at e3
    have k4' := (Rat.cast_le (K := ℝ)).2 k4
    have k5' := (Rat.cast_le (K := ℝ)).2 k5
    push_cast at k4' k5'
    have l1 : (lo : ℝ) ≤ (Atom.arfConstrained m e dg p : ℚ) := by linarith [e3.1]
    have l2 : ((Atom.arfConstrained m e dg p : ℚ) : ℝ) ≤ hi' := by linarith [e3.2]
    exact ofArf_squeeze (ofArf_close hx w1 w2) (by exact_mod_cast l1) (by exact_mod_cast l2) k6 k7
  -- it returns
  obtain ⟨u1, u2, u3, u4⟩ := Double.nextUp_spec hx.1
  obtain ⟨d1, d2, d3, d4⟩ := nextDown_spec hx.1
  have hpe := zposR (e - 1)
  have hh : (2 : ℝ) ^ e = 2 * 2 ^ (e - 1) := by linarith [two_halves e]
  have hv : (atoms i).value = (2 * m + dg.value) * 2 ^ (e - 1) := by
    rw [ha, Atom.value, hh]; ring
  have v0 := dg.value_pos
  have v1 := dg.value_le_one
  have hne : y.real atoms.vals ≠ 0 := by
    rw [hreal, hv]
    refine mul_ne_zero ?_ hpe.ne'
    intro h
    rcases le_or_gt 0 m with hm | hm
    · have : (0 : ℝ) ≤ m := by exact_mod_cast hm
      linarith
    · have : (m : ℝ) ≤ -1 := by exact_mod_cast (by omega : m ≤ -1)
      linarith
  have b1 : (x : ℝ) - 3 / 8 * (x - nextDown x) < m * 2 ^ e := by
    have := (Rat.cast_lt (K := ℝ)).2 h2; push_cast at this; exact this
  have b2 : ((m : ℝ) + 1) * 2 ^ e < x + 3 / 8 * (nextUp x - x) := by
    have := (Rat.cast_lt (K := ℝ)).2 h3; push_cast at this; exact this
  have g0 := mul_pos v0 hpe
  have g1 := mul_le_mul_of_nonneg_right v1 hpe.le
  have c1 : (m : ℝ) * 2 ^ e < (atoms i).value := by rw [hv, hh]; linarith
  have c2 : (atoms i).value < ((m : ℝ) + 1) * 2 ^ e := by rw [hv, hh]; linarith
  obtain ⟨n, N, hN⟩ := Elt.bounds_terminates atoms (g := Double.ofArf) hF hco hwf hne (start := 55) (by norm_num)
    (ε := min ((atoms i).value - m * 2 ^ e) (((m : ℝ) + 1) * 2 ^ e - (atoms i).value)) (lt_min (by linarith) (by linarith)) (c := .fin x) (by
      intro q hqv
      rw [hreal, abs_lt] at hqv
      have e1 := min_le_left ((atoms i).value - m * 2 ^ e) (((m : ℝ) + 1) * 2 ^ e - (atoms i).value)
      have e2 := min_le_right ((atoms i).value - m * 2 ^ e) (((m : ℝ) + 1) * 2 ^ e - (atoms i).value)
      refine ofArf_close hx ?_ ?_
      · have : (x : ℝ) - 3 / 8 * (x - nextDown x) ≤ q := by linarith [hqv.1]
        refine (Rat.cast_le (K := ℝ)).1 ?_
        push_cast; exact this
      · have : (q : ℝ) ≤ x + 3 / 8 * (nextUp x - x) := by linarith [hqv.2]
        refine (Rat.cast_le (K := ℝ)).1 ?_
        push_cast; exact this)
  have hret : ∀ fuel, N ≤ fuel → y.toDouble atoms F coeff fuel = .ok n := by
    intro fuel hf
    rw [Elt.toDouble, hq]
    simp only
    rw [doubleLoop_eq]
    exact hN fuel hf
  exact ⟨N, fun fuel hf => by rw [hret fuel hf, only N n (hret N le_rfl)]⟩

/-- **C95**, **C93** (rounding in Python): `float(ExactReals(K).random_element(d)) == d`. -/
theorem py_random_element_float [Build] (hF : F.Lawful) (hco : CoeffLawful P coeff) {x : ℚ} (hx : Double.IsFinite x)
    (hmax : |x| < 2 ^ 1024 - 2 ^ 971) (seed : UInt32) (atoms : Atoms) (i : ℕ) (hi : randomDouble gen (.fin x) seed = .ok (atoms i)) (ring : P) :
    ∃ y : Elt P R, Py.random ring i = .ok y ∧ ∃ N, ∀ fuel, N ≤ fuel → Py.float atoms F coeff fuel y = .ok (.fin x) := by
  refine ⟨⟨⟨ring, [.atom i]⟩, [1]⟩, ?_, random_element_double gen hF hco hx hmax seed atoms i hi ring⟩
  rw [Py.random, Elt.make_singleton]
  simp [Elt.ofCoefficients, assertThat]

end element

/-- **C95**, **C79** for the random number close to a double `x`: nothing is printed in `[∼…]`, i.e., the text consists of `initial` and `inner`; and if `x`
is not zero the text starts with `ℝ(` and `x`. -/
theorem random_double_print (f : XArf.Format) {x : ℚ} (hx : Double.IsFinite x) (hmax : |x| < 2 ^ 1024 - 2 ^ 971) (seed : UInt32) :
    ∃ m e : ℤ, ∃ d, randomDouble gen (.fin x) seed = .ok (.constrained m e d) ∧
      Print.atomText f (.constrained m e d) = "ℝ(".toList ++ XArf.print f (.fin (m * 2 ^ e)) ++ " + ".toList ++ Print.randomText f d ++ "p".toList ++ f.int e ++ ")".toList ∧
      (x ≠ 0 → ∃ s, Print.atomText f (.constrained m e d) = "ℝ(".toList ++ f.double (.num (.fin x)) ++ s) := by
  obtain ⟨m, e, h1, h2, h3⟩ := randomDouble_form gen hx hmax seed
  have hp := two_zpow_pos e
  have hi : Double.ofArf (ofMantissaExponent m e) = .fin x := ofArf_close hx h2.le (by rw [ofMantissaExponent]; linarith)
  obtain ⟨w1, w2⟩ := arf_close hx h2 h3 (d := gen.digits seed) (p := 54) le_rfl
  have hs : Double.ofArf (Atom.arf (.constrained m e (gen.digits seed)) 54) = .fin x := ofArf_close hx w1 w2
  have ht : Print.atomText f (.constrained m e (gen.digits seed)) =
      "ℝ(".toList ++ XArf.print f (.fin (m * 2 ^ e)) ++ " + ".toList ++ Print.randomText f (gen.digits seed) ++ "p".toList ++ f.int e ++ ")".toList := by
    rw [Print.atomText]
    simp only [hi, hs, if_true, List.append_nil]
    rfl
  refine ⟨m, e, _, h1, ht, fun hx0 => ?_⟩
  have hm : (m : ℚ) * 2 ^ e ≠ 0 := by
    intro h0
    rw [ofMantissaExponent, h0] at hi
    rw [Double.ofArf, Double.near_zero, if_neg (by norm_num), if_neg (by norm_num)] at hi
    exact hx0 (Double.fin.inj hi).symm
  have hd : XArf.toDouble (.fin ((m : ℚ) * 2 ^ e)) = .num (.fin x) := by rw [XArf.toDouble]; exact congrArg _ hi
  rw [ht, XArf.print, if_neg hm, hd]
  split_ifs
  · exact ⟨" + ".toList ++ Print.randomText f (gen.digits seed) ++ "p".toList ++ f.int e ++ ")".toList, by simp only [List.append_assoc]⟩
  · exact ⟨['='] ++ f.int (Arf.mantissa (m * 2 ^ e)) ++ ['p'] ++ f.int (Arf.exponent (m * 2 ^ e)) ++ (" + ".toList ++ Print.randomText f (gen.digits seed) ++ "p".toList ++ f.int e ++ ")".toList), by simp only [List.append_assoc]⟩

/-- For example for `1/4`, over the integers. -/
example [Build] : ∃ (atoms : Atoms) (y : Elt IntegerRing ℤ), randomDouble sampleGenerators (.fin (1 / 4)) 7 = .ok (atoms 0) ∧
    Py.random IntegerRing.mk 0 = .ok y ∧ ∃ N, ∀ fuel, N ≤ fuel → Py.float atoms FlintLike.arith IntegerRing.arb fuel y = .ok (.fin (1 / 4)) := by
  have h : |(1 / 4 : ℚ)| < 2 ^ 1024 - 2 ^ 971 := by
    obtain ⟨e1, e2, e3⟩ := big_powers (K := ℚ)
    rw [abs_of_pos (by norm_num), e1, e2]; clear e1 e2
    generalize (2 : ℚ) ^ 970 = P at *; linarith
  have hf : Double.IsFinite (1 / 4) := ⟨⟨1, -2, by norm_num, by norm_num, by norm_num⟩, h.trans_le (sub_le_self _ (by positivity))⟩
  obtain ⟨a, h1, -⟩ := random_double_round_trip sampleGenerators hf h 7
  obtain ⟨y, h2, h3⟩ := py_random_element_float sampleGenerators FlintLike.lawful coeffLawful_int hf h 7 (fun _ => a) 0 h1 IntegerRing.mk
  exact ⟨fun _ => a, y, h1, h2, h3⟩

end ExactReal.Props
