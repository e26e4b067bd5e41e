import Verif.Props.RandomElement

/-!
# The conversion to double does not cross doubles

C34: `double(x)` is faithful for numbers that are not products: no double lies strictly between `x` and `double(x)`.  C95: numbers in an
interval of doubles are converted to doubles in the interval.
-/

namespace ExactReal.Props
open ExactReal Arf Ball

variable (gen : Generators)

namespace DoubleFaithful

/-- The range of the finite results. -/
theorem ofArf_cases (w : ℚ) : (∃ d, Double.ofArf w = .fin d ∧ d = Double.near w) ∨ (Double.ofArf w = .posInf ∧ 2 ^ 1024 ≤ Double.near w) ∨
    (Double.ofArf w = .negInf ∧ Double.near w ≤ -2 ^ 1024) := by
  unfold Double.ofArf
  by_cases h1 : 2 ^ 1024 ≤ Double.near w
  · rw [if_pos h1]; exact .inr (.inl ⟨rfl, h1⟩)
  · rw [if_neg h1]
    by_cases h2 : Double.near w ≤ -2 ^ 1024
    · rw [if_pos h2]; exact .inr (.inr ⟨rfl, h2⟩)
    · rw [if_neg h2]; exact .inl ⟨_, rfl, rfl⟩

/-- A number between two finite doubles is rounded to a finite double between them. -/
theorem ofArf_between {a b w : ℚ} (ha : Double.IsFinite a) (hb : Double.IsFinite b) (h1 : a ≤ w) (h2 : w ≤ b) :
    ∃ d, Double.ofArf w = .fin d ∧ a ≤ d ∧ d ≤ b := by
  have e1 := Double.le_near ha.1 h1
  have e2 := Double.near_le hb.1 h2
  have a1 := abs_lt.1 ha.2
  have b1 := abs_lt.1 hb.2
  have hpos : (0 : ℚ) < 2 ^ 1024 := by positivity
  generalize hP : (2 : ℚ) ^ 1024 = P at *
  rcases ofArf_cases w with ⟨d, h, hd⟩ | ⟨-, h⟩ | ⟨-, h⟩
  · exact ⟨d, h, hd ▸ e1, hd ▸ e2⟩
  · rw [hP] at h; linarith
  · rw [hP] at h; linarith

/-- Approximations of atoms do not get larger than floating point numbers that bound the atom. -/
theorem atom_arf_le (a : Atom) {q : ℕ} {z : ℚ} (hz : Rep (q + 1) z) (h : a.value ≤ z) : a.arf q ≤ z := by
  obtain ⟨m, e, d, h1, h2⟩ := a.exists_constrained
  rw [h1, arfConstrained_eq]
  refine round_le .near (by omega) hz ?_
  have := (truncated_le m e d (innerDigits m e d q)).trans (h2 ▸ h)
  exact_mod_cast this

end DoubleFaithful

open DoubleFaithful

/-- **C34** for numbers that are not products: the conversion to `double` is faithful, i.e., no double lies strictly between the number and
the result; infinities are returned only for numbers beyond the largest finite double. -/
theorem toDouble_faithful_partial (atoms : Atoms) (x : RN) (hx : ∀ m, x ≠ .prod m) :
    (∀ d, x.toDouble atoms = .fin d → Double.IsFinite d ∧ ∀ z, Double.IsFinite z → ((z : ℝ) < x.real atoms → z ≤ d) ∧ (x.real atoms < z → d ≤ z)) ∧
    (x.toDouble atoms = .posInf → ∀ z, Double.IsFinite z → (z : ℝ) ≤ x.real atoms) ∧
    (x.toDouble atoms = .negInf → ∀ z, Double.IsFinite z → x.real atoms ≤ z) := by
  have side : ∀ z, Double.IsRep z → ((z : ℝ) < x.real atoms → z ≤ Double.near (x.arf atoms 54)) ∧ (x.real atoms < z → Double.near (x.arf atoms 54) ≤ z) := by
    intro z hz
    obtain ⟨h1, h2⟩ := RN.arf_side_succ atoms hx (prec := 54) (by norm_num) (hz.rep.mono (show 53 ≤ 54 + 1 by norm_num))
    exact ⟨fun h => Double.le_near hz (by exact_mod_cast h1 h), fun h => Double.near_le hz (by exact_mod_cast h2 h)⟩
  have hfin : ∀ z : ℚ, Double.IsFinite z → |z| < 2 ^ 1024 := fun z hz => hz.2
  unfold RN.toDouble
  refine ⟨fun d hd => ?_, fun h z hz => ?_, fun h z hz => ?_⟩
  · have hd' : d = Double.near (x.arf atoms 54) ∧ |d| < 2 ^ 1024 := by
      unfold Double.ofArf at hd
      by_cases c1 : 2 ^ 1024 ≤ Double.near (x.arf atoms 54)
      · rw [if_pos c1] at hd; cases hd
      rw [if_neg c1] at hd
      by_cases c2 : Double.near (x.arf atoms 54) ≤ -2 ^ 1024
      · rw [if_pos c2] at hd; cases hd
      rw [if_neg c2] at hd
      have hd' := Double.fin.inj hd
      subst hd'
      exact ⟨rfl, abs_lt.2 ⟨not_le.1 c2, not_le.1 c1⟩⟩
    obtain ⟨rfl, hb⟩ := hd'
    exact ⟨⟨Double.isRep_near _, hb⟩, fun z hz => side z hz.1⟩
  · rcases ofArf_cases (x.arf atoms 54) with ⟨d, h', -⟩ | ⟨-, h'⟩ | ⟨h', -⟩
    · rw [h] at h'; cases h'
    · by_contra hlt
      have h3 := (side z hz.1).2 (not_le.1 hlt)
      have h4 := (abs_lt.1 (hfin z hz)).2
      generalize (2 : ℚ) ^ 1024 = P at *
      linarith
    · rw [h] at h'; cases h'
  · rcases ofArf_cases (x.arf atoms 54) with ⟨d, h', -⟩ | ⟨h', -⟩ | ⟨-, h'⟩
    · rw [h] at h'; cases h'
    · rw [h] at h'; cases h'
    · by_contra hlt
      have h3 := (side z hz.1).1 (not_le.1 hlt)
      have h4 := (abs_lt.1 (hfin z hz)).1
      generalize (2 : ℚ) ^ 1024 = P at *
      linarith

/-- **C34**: the conversion preserves the order of rational numbers. -/
theorem toDouble_rational_mono (atoms : Atoms) {p q : ℚ} (h : p ≤ q) :
    ∃ a b, (RN.rat p).toDouble atoms = Double.ofArf a ∧ (RN.rat q).toDouble atoms = Double.ofArf b ∧ Double.near a ≤ Double.near b :=
  ⟨_, _, rfl, rfl, Double.near_mono (by
    show (RN.rat p).arf_ atoms 54 ≤ (RN.rat q).arf_ atoms 54
    rw [RN.arf_, RN.arf_, if_neg (by norm_num), Rat.num_div_den, Rat.num_div_den]
    exact round_mono .near (by norm_num) h)⟩

/-- **C34** is false: the conversion does not preserve the order of real numbers. The rational `x = 1 + 2^-52 + 0.6·2^-53` is smaller than the random
number `y`, which is close to `1 + 2^-52 + 0.7·2^-53` but `double(x)` is larger than `double(y)`. -/
theorem toDouble_not_monotone (d : Digits) : ∃ (atoms : Atoms) (x y : RN) (p q : ℚ), x.WF ∧ y.WF ∧ atoms 0 = .constrained (2 ^ 60 + 2 ^ 8 + 90) (-60) d ∧ y = .atom 0 ∧
    x.real atoms < y.real atoms ∧ x.toDouble atoms = .fin p ∧ y.toDouble atoms = .fin q ∧ q < p := by
  refine ⟨fun _ => .constrained (2 ^ 60 + 2 ^ 8 + 90) (-60) d, .rat (1 + 2 ^ (-52 : ℤ) + 77 * 2 ^ (-60 : ℤ)), .atom 0, 1 + 2 ^ (-51 : ℤ), 1 + 2 ^ (-52 : ℤ),
    trivial, trivial, rfl, rfl, ?_, ?_, ?_, by norm_num⟩
  · show ((1 + 2 ^ (-52 : ℤ) + 77 * 2 ^ (-60 : ℤ) : ℚ) : ℝ) < (Atom.constrained (2 ^ 60 + 2 ^ 8 + 90) (-60) d).value
    rw [Atom.value]
    have := mul_pos d.value_pos (zposR (-60 - 1))
    push_cast at this ⊢
    norm_num at this ⊢
    linarith
  · show Double.ofArf (Arf.round .near 54 (((1 + 2 ^ (-52 : ℤ) + 77 * 2 ^ (-60 : ℤ) : ℚ).num : ℚ) / (1 + 2 ^ (-52 : ℤ) + 77 * 2 ^ (-60 : ℤ) : ℚ).den)) = _
    decide +kernel
  · show Double.ofArf (Atom.arfConstrained (2 ^ 60 + 2 ^ 8 + 90) (-60) d 54) = _
    rw [arfConstrained_eq, truncated, show innerDigits (2 ^ 60 + 2 ^ 8 + 90) (-60) d 54 = 0 by
      rw [innerDigits, if_neg (by decide +kernel)]]
    simp only [Digits.prefixValue]
    decide +kernel

/-- **C95** for an interval: for doubles `a < b`, `double(random(a, b))` is in `[a, b]`. -/
theorem random_between_double {a b : ℚ} (ha : Double.IsFinite a) (hb : Double.IsFinite b) (hab : a < b) (seed : UInt32) :
    ∃ x, randomIn gen a b seed = .ok x ∧ ∀ (atoms : Atoms) (i : ℕ), atoms i = x → ∃ d, (RN.atom i).toDouble atoms = .fin d ∧ a ≤ d ∧ d ≤ b := by
  obtain ⟨x, h1, h2, h3, -⟩ := randomIn_mem gen (rep_dyadic ha.1.rep) (rep_dyadic hb.1.rep) hab seed
  refine ⟨x, h1, fun atoms i hi => ofArf_between ha hb ?_ ?_⟩
  · show a ≤ Atom.arf (atoms i) 54
    exact Atom.le_arf_of_lt_succ _ (ha.1.rep.mono (by norm_num)) (hi ▸ h2)
  · show Atom.arf (atoms i) 54 ≤ b
    exact atom_arf_le _ (hb.1.rep.mono (by norm_num)) (hi ▸ h3)

section element
variable {P : Type} [DecidableEq P] {R : Type} [CommRing R] [DecidableEq R] [CRing P R] [LawfulCRing P]
variable {F : Arith} {coeff : ℕ → R → Ball}

/-- The conversion of a generator, as an element, is the rounding of an approximation of the generator. -/
theorem generator_double (hF : F.Lawful) (hco : CoeffLawful P coeff) (atoms : Atoms) (i : ℕ) (ring : P) {fuel : ℕ} {d : Double}
    (h : (⟨⟨ring, [.atom i]⟩, [1]⟩ : Elt P R).toDouble atoms F coeff fuel = .ok d) :
    ∃ p lo hi, 55 ≤ p ∧ lo ≤ (atoms i).arf p ∧ (atoms i).arf p ≤ hi ∧ Double.ofArf lo = d ∧ Double.ofArf hi = d := by
  set y : Elt P R := ⟨⟨ring, [.atom i]⟩, [1]⟩ with hy
  have one : (1 : R) ≠ 0 := by
    intro h
    have := map_one (LawfulCRing.emb P (R := R))
    rw [h, map_zero] at this
    exact zero_ne_one this
  have hq : y.rational? = none := by
    simp [Elt.rational?, Elt.rationalLoop, Elt.terms, hy, RN.rational?, one]
  rw [Elt.toDouble, hq] at h
  simp only at h
  rw [doubleLoop_eq] at h
  obtain ⟨k, s, lo, hi', r, k1, -, k3, k4, k5, k6, k7⟩ := boundsBody_ok h
  have hA := le_start 55 k
  rcases Elt.arb_ok atoms k1 with ⟨h0, -⟩ | ⟨j, hs, -⟩
  · simp [Elt.toBool, hy, one] at h0
  set p := (55 * 2 ^ k + Nat.clog 2 y.mod.basis.length) * 2 ^ j with hpdef
  have hp : 55 ≤ p := hA.trans (Elt.le_prec _ _ _)
  have hmid : ((RN.atom i).arb atoms p).mid = (atoms i).arf p := by rw [RN.arb_eq, RN.arf_nat]; rfl
  have hn : Near 1 ((RN.atom i).arb atoms p) ((atoms i).arf p : ℚ) := by
    obtain ⟨r', e1, e2, -⟩ := (RN.arb_near atoms (x := .atom i) (by trivial) (show 2 ≤ p by omega)).1
    refine ⟨r', e1, e2, ?_⟩
    rw [hmid, sub_self, abs_zero, _root_.one_mul]
    exact_mod_cast e2
  have hn2 := hF.add_near le_rfl p (near_exact 1 0) (hF.mul_near le_rfl p hn (hco.contains p (1 : R)) (hco.finite p 1))
  have hs' : s = F.add p (exact 0) (F.mul p ((RN.atom i).arb atoms p) (coeff p 1)) := by rw [hs]; rfl
  rw [← hs', Elt.num, map_one, _root_.mul_one, Rat.cast_zero, zero_add] at hn2
  obtain ⟨r', e1, e2, e3⟩ := hn2
  rw [k3] at e1; cases e1
  rw [_root_.one_mul, abs_le] at e3
  have k4' := (Rat.cast_le (K := ℝ)).2 k4
  have k5' := (Rat.cast_le (K := ℝ)).2 k5
  push_cast at k4' k5'
  have l1 : (lo : ℝ) ≤ ((atoms i).arf p : ℚ) := by linarith [e3.1]
  have l2 : (((atoms i).arf p : ℚ) : ℝ) ≤ hi' := by linarith [e3.2]
  exact ⟨p, lo, hi', hp, by exact_mod_cast l1, by exact_mod_cast l2, k6, k7⟩

/-- **C95** for an interval: for doubles `a < b`, if the element whose only generator is `random(a, b)` is converted to a double, then that
double is in `[a, b]`. -/
theorem random_element_between (hF : F.Lawful) (hco : CoeffLawful P coeff) {a b : ℚ} (ha : Double.IsFinite a) (hb : Double.IsFinite b) (hab : a < b)
    (seed : UInt32) (atoms : Atoms) (i : ℕ) (hi : randomIn gen a b seed = .ok (atoms i)) (ring : P) {fuel : ℕ} {r : Double}
    (h : (⟨⟨ring, [.atom i]⟩, [1]⟩ : Elt P R).toDouble atoms F coeff fuel = .ok r) : ∃ d, r = .fin d ∧ a ≤ d ∧ d ≤ b := by
  obtain ⟨x, h1, h2, h3, -⟩ := randomIn_mem gen (rep_dyadic ha.1.rep) (rep_dyadic hb.1.rep) hab seed
  rw [hi] at h1
  have hx := Out.ok.inj h1
  obtain ⟨p, lo, up, hp, l1, l2, d1, d2⟩ := generator_double hF hco atoms i ring h
  obtain ⟨d, e1, e2, e3⟩ := ofArf_between ha hb (w := (atoms i).arf p)
    (Atom.le_arf_of_lt_succ _ (ha.1.rep.mono (by omega)) (by rw [hx]; exact h2)) (atom_arf_le _ (hb.1.rep.mono (by omega)) (by rw [hx]; exact h3))
  exact ⟨d, RandomRoundTrip.ofArf_squeeze e1 l1 l2 d1 d2, e2, e3⟩

end element

/-- The hypotheses are met. -/
example : Double.IsFinite (1 / 4) ∧ Double.IsFinite (3 / 2) ∧ ∃ x, randomIn sampleGenerators (1 / 4) (3 / 2) 7 = .ok x ∧
    ∃ d, (RN.atom 0).toDouble (fun _ => x) = .fin d ∧ 1 / 4 ≤ d ∧ d ≤ 3 / 2 := by
  have small : ∀ q : ℚ, |q| ≤ 2 → |q| < 2 ^ 1024 := by
    intro q hq
    obtain ⟨e1, e2, e3⟩ := big_powers (K := ℚ)
    rw [e1]; clear e1 e2
    generalize (2 : ℚ) ^ 970 = P at *; linarith
  have h1 : Double.IsFinite (1 / 4) := ⟨⟨1, -2, by norm_num, by norm_num, by norm_num⟩, small _ (by norm_num [abs_of_pos])⟩
  have h2 : Double.IsFinite (3 / 2) := ⟨⟨3, -1, by norm_num, by norm_num, by norm_num⟩, small _ (by norm_num [abs_of_pos])⟩
  obtain ⟨x, e1, e2⟩ := random_between_double sampleGenerators h1 h2 (by norm_num) 7
  exact ⟨h1, h2, x, e1, e2 _ 0 rfl⟩

end ExactReal.Props
