import Verif.Lemma.Rand48
import Verif.Lemma.ZeroElement
import Verif.Props.RealOrderExact
import Verif.Props.ElementRound
import Verif.Props.ElementDouble
import Verif.Lemma.FlintLike

/-!
# What the generator of random digits guarantees (C57, C58)

`Rand48.digits seed` are the digits that `rand48` produces (`Verif/Model/Rand48.lean`), `(Rand48.digits seed).value` is the real number with these
digits.
-/

namespace ExactReal.Props

open Arf Ball

/-- The model of the generator agrees with the documentation: `/repo/doc/manual/python_overview.rst:44` shows `ℝ(0.303644…)` for the first random number
of a session, which has the seed 1337 (`src/seed.cc:24`). -/
theorem rand48_documented : 0.30364378 < (Rand48.digits 1337).value ∧ (Rand48.digits 1337).value < 0.30364379 := by
  have h1 := (Rand48.digits 1337).prefixValue_le 30
  have h2 := (Rand48.digits 1337).value_le 30
  have e : Digits.prefixValue (Rand48.digits 1337).digit 30 = 326035029 / 2 ^ 30 := by
    rw [Digits.prefixValue_eq_int]
    have : Digits.prefixInt (Rand48.digit 1337) 30 = 326035029 := by decide +kernel
    show (Digits.prefixInt (Rand48.digit 1337) 30 : ℚ) * _ = _
    rw [this]; norm_num
  rw [e] at h1 h2
  push_cast at h1 h2
  constructor
  · refine lt_of_lt_of_le ?_ h1; norm_num
  · refine lt_of_le_of_lt h2 ?_; norm_num

/-! ### C57 -/

/-- **C57**: random numbers with different seeds are different real numbers. -/
theorem random_distinct {s t : UInt32} (h : s ≠ t) : (Rand48.digits s).value ≠ (Rand48.digits t).value := by
  have hz : ∀ (u : UInt32) (n : ℕ), ∃ i, n ≤ i ∧ (Rand48.digits u).digit i = false := fun u n =>
    let ⟨i, h1, _, h2⟩ := Rand48.exists_digit u false n; ⟨i, h1, h2⟩
  exact Digits.value_ne (hz s) (hz t) fun hd => h (Rand48.digit_injective hd)

/-- **C57**: every approximation of every random number returns: the loop of `arf(prec)` needs at most `2^47 + prec + 2` digits. -/
theorem random_arf_returns (seed : UInt32) (prec fuel : ℕ) (h : 2 ^ 47 + prec + 2 ≤ fuel) :
    Digits.arfLoop (Rand48.digit seed) prec fuel = .ok ((Rand48.digits seed).arf prec) := by
  refine (Rand48.digits seed).arfLoop_eq prec fuel (le_trans ?_ h)
  obtain ⟨i, -, h1, h2⟩ := Rand48.exists_digit seed true 0
  have : (Rand48.digits seed).first ≤ i := Nat.find_min' _ h2
  omega

/-- **C57**: random numbers are strictly between zero and one. -/
theorem random_strictly_between (seed : UInt32) : 0 < (Rand48.digits seed).value ∧ (Rand48.digits seed).value < 1 := by
  refine ⟨Digits.value_pos _, ?_⟩
  obtain ⟨i, h1, -, h2⟩ := Rand48.exists_digit seed false 0
  simpa [Digits.prefixValue] using (Rand48.digits seed).value_lt h1 h2

/-- **C57**: for two random numbers with different seeds, `<` returns and is the order of the real numbers. -/
theorem random_lt_returns (atoms : Atoms) {i j : ℕ} {s t : UInt32} (hi : atoms i = .random (Rand48.digits s)) (hj : atoms j = .random (Rand48.digits t))
    (hst : s ≠ t) : ∃ r N, (∀ fuel, N ≤ fuel → RN.ltRN atoms fuel (.atom i) (.atom j) = .ok r) ∧
      (r = true ↔ (Rand48.digits s).value < (Rand48.digits t).value) := by
  have ei : (RN.atom i).real atoms = (Rand48.digits s).value := by rw [RN.real_atom, hi]; rfl
  have ej : (RN.atom j).real atoms = (Rand48.digits t).value := by rw [RN.real_atom, hj]; rfl
  have hne := random_distinct hst
  obtain ⟨r, N, h⟩ := real_lt_terminates atoms (x := .atom i) (y := .atom j) trivial trivial (.inr (by rw [ei, ej]; exact hne))
  refine ⟨r, N, h, ?_⟩
  have := real_lt_random atoms hi hj (h N le_rfl) (.inr hne)
  rwa [ei, ej] at this

/-- The digits flipped. -/
theorem value_compl {d₁ d₂ : Digits} (h : ∀ i, d₂.digit i = !d₁.digit i) : d₂.value = 1 - d₁.value := by
  have h1 : d₁.value + d₂.value = ∑' i : ℕ, (1 / 2 : ℝ) ^ (i + 0 + 1) := by
    rw [Digits.value, Digits.value, ← (Digits.summable_term _).tsum_add (Digits.summable_term _)]
    refine tsum_congr fun i => ?_
    rw [h i]
    cases d₁.digit i <;> simp
  have h2 := h1.trans (Digits.tsum_tail 0)
  rw [pow_zero] at h2
  linarith

/-- A number whose digits are flipped after `n` digits. -/
theorem flip_rational {d : Digits} {n : ℕ} (h : ∀ i, d.digit (i + n) = !d.digit i) (hz : ∃ i, d.digit i = false) :
    d.value * (2 ^ n + 1) = ((Digits.prefixInt d.digit n + 1 : ℤ) : ℝ) := by
  have h1 := Digits.value_shift (d₁ := d) (d₂ := ⟨fun i => !d.digit i, let ⟨i, h⟩ := hz; ⟨i, by simpa using h⟩⟩) (n := n) (fun i => (h i).symm)
  rw [value_compl (d₁ := d) fun i => rfl] at h1
  push_cast
  linarith

/-- A number whose digits are flipped after `2^k` digits is a fraction with the `k`-th Fermat number as denominator. -/
theorem flip_fermat {d : Digits} {n k : ℕ} (hn : n = 2 ^ k) (h : ∀ i, d.digit (i + n) = !d.digit i) (hz : ∃ i, d.digit i = false) :
    ∃ c : ℤ, d.value * (Nat.fermatNumber k : ℝ) = c := by
  refine ⟨_, Eq.trans ?_ (flip_rational h hz)⟩
  rw [Nat.fermatNumber, ← hn]
  push_cast
  ring

/-- Random numbers are rational: their digits are periodic, and in the second half of a period they are flipped. -/
theorem random_rational (seed : UInt32) : ∃ c : ℤ, (Rand48.digits seed).value * (Nat.fermatNumber 47 : ℝ) = c := by
  obtain ⟨i, -, -, hi⟩ := Rand48.exists_digit seed false 0
  obtain ⟨n, hn⟩ : ∃ n, n = 2 ^ 47 := ⟨_, rfl⟩
  have h := Rand48.digit_half seed
  rw [← hn] at h
  exact flip_fermat hn h ⟨i, hi⟩

/-- A common factor of a Fermat number is large. -/
theorem fermat_divisor {n : ℕ} (hn : 1 < n) {q : ℕ} (h1 : q ∣ Nat.fermatNumber n) (hq : q ≠ 1) : 2 ^ (n + 2) < q := by
  obtain ⟨p, hp, hpq⟩ := Nat.exists_prime_and_dvd hq
  obtain ⟨k, rfl⟩ := Nat.fermat_primeFactors_one_lt n p hn hp (hpq.trans h1)
  have hk : k ≠ 0 := by
    rintro rfl
    simp at hp
    exact Nat.not_prime_one hp
  have hq0 : 0 < q := Nat.pos_of_ne_zero fun h => by
    rw [h, zero_dvd_iff] at h1
    have := Nat.three_le_fermatNumber n
    omega
  have := Nat.le_of_dvd hq0 hpq
  have h2 : 2 ^ (n + 2) ≤ k * 2 ^ (n + 2) := Nat.le_mul_of_pos_left _ (Nat.pos_of_ne_zero hk)
  omega

/-- The denominator of a fraction `c / F` strictly between zero and one, for a Fermat number `F`, is large. -/
theorem fermat_fraction {n : ℕ} (hn : 1 < n) {v : ℝ} (v0 : 0 < v) (v1 : v < 1) {c : ℤ} (hr : v * (Nat.fermatNumber n : ℝ) = c) {a b : ℤ} (ha : a ≠ 0)
    (h : a * v = b) : 2 ^ (n + 2) < a.natAbs := by
  obtain ⟨f, hf⟩ : ∃ f, f = Nat.fermatNumber n := ⟨_, rfl⟩
  have h3 := Nat.three_le_fermatNumber n
  have hdiv : ∀ q, q ∣ f → q ≠ 1 → 2 ^ (n + 2) < q := fun q h1 h2 => fermat_divisor hn (hf ▸ h1) h2
  rw [← hf] at hr h3
  have hf0 : (0 : ℝ) < f := by exact_mod_cast (by omega : 0 < f)
  have hz : b * (f : ℤ) = a * c := by
    have : (b : ℝ) * f = a * c := by rw [← h, ← hr]; ring
    exact_mod_cast this
  -- the fraction `c / f` is not an integer
  have hg : ¬ (f : ℤ) ∣ c := by
    rintro ⟨k, hk⟩
    rw [hk] at hr
    push_cast at hr
    have hv : v = k := mul_right_cancel₀ hf0.ne' (by rw [hr]; ring)
    rw [hv] at v0 v1
    have k0 : 0 < k := by exact_mod_cast v0
    have k1 : k < 1 := by exact_mod_cast v1
    omega
  have hd : (f : ℤ) ∣ a * c := ⟨b, by rw [← hz, _root_.mul_comm]⟩
  -- the common divisor of `a` and `f`
  by_cases hq : Nat.gcd a.natAbs f = 1
  · exfalso
    apply hg
    have hco : IsCoprime (f : ℤ) a := by
      rw [Int.isCoprime_iff_gcd_eq_one, Int.gcd_comm]
      simpa [Int.gcd] using hq
    exact hco.dvd_of_dvd_mul_left hd
  · exact lt_of_lt_of_le (hdiv _ (Nat.gcd_dvd_right a.natAbs f) hq) (Nat.le_of_dvd (Int.natAbs_pos.2 ha) (Nat.gcd_dvd_left a.natAbs f))

/-- A fraction with an odd denominator strictly between zero and one is not a floating point number. -/
theorem odd_fraction {f : ℕ} (hodd : Odd f) {v : ℝ} (v0 : 0 < v) (v1 : v < 1) {c : ℤ} (hr : v * (f : ℝ) = c) {q : ℚ} (hq : Dyadic q) : v ≠ q := by
  intro h
  obtain ⟨m, e, rfl⟩ := hq
  have hf0 : (0 : ℝ) < f := by exact_mod_cast hodd.pos
  -- clear the power of two
  obtain ⟨k, b, hk⟩ : ∃ (k : ℕ) (b : ℤ), (2 ^ k : ℝ) * v = b := by
    rcases le_or_gt 0 e with he | he
    · refine ⟨0, m * 2 ^ e.toNat, ?_⟩
      rw [h]; push_cast
      rw [pow_zero, _root_.one_mul, ← zpow_natCast, Int.toNat_of_nonneg he]
    · refine ⟨(-e).toNat, m, ?_⟩
      rw [h]; push_cast
      rw [← zpow_natCast, Int.toNat_of_nonneg (by omega), mul_left_comm, ← zpow_add₀ (by norm_num)]
      simp
  have hz : b * (f : ℤ) = 2 ^ k * c := by
    have : (b : ℝ) * f = 2 ^ k * c := by rw [← hk, ← hr]; ring
    exact_mod_cast this
  have hco : IsCoprime (f : ℤ) (2 ^ k) := by
    refine IsCoprime.pow_right ?_
    rw [Int.isCoprime_iff_gcd_eq_one]
    exact (Nat.coprime_two_right).2 hodd
  obtain ⟨l, hl⟩ := hco.dvd_of_dvd_mul_left ⟨b, by rw [← hz, _root_.mul_comm]⟩
  rw [hl] at hr
  push_cast at hr
  have hv : v = l := mul_right_cancel₀ hf0.ne' (by rw [hr]; ring)
  rw [hv] at v0 v1
  have k0 : 0 < l := by exact_mod_cast v0
  have k1 : l < 1 := by exact_mod_cast v1
  omega

/-- **C57**: a random number is no fraction with a denominator up to `2^49`. -/
theorem random_denominator (seed : UInt32) {a b : ℤ} (ha : a ≠ 0) (h : a * (Rand48.digits seed).value = b) : 2 ^ 49 < a.natAbs := by
  obtain ⟨v0, v1⟩ := random_strictly_between seed
  obtain ⟨c, hr⟩ := random_rational seed
  exact fermat_fraction (n := 47) (by norm_num) v0 v1 hr ha h

/-- **C57**: a random number is not a floating point number of any precision. -/
theorem random_not_dyadic (seed : UInt32) {q : ℚ} (hq : Dyadic q) : (Rand48.digits seed).value ≠ q := by
  obtain ⟨v0, v1⟩ := random_strictly_between seed
  obtain ⟨c, hr⟩ := random_rational seed
  exact odd_fraction (Nat.odd_fermatNumber 47) v0 v1 hr hq

/-- **C57**: the comparison of a random number with an integer or a floating point number returns. -/
theorem random_lt_arf_returns (atoms : Atoms) {i : ℕ} {s : UInt32} (hi : atoms i = .random (Rand48.digits s)) {a : ℚ} (ha : Dyadic a) :
    ∃ r N, ∀ fuel, N ≤ fuel → RN.ltArf atoms fuel (.atom i) a = .ok r :=
  real_lt_arf_terminates atoms trivial (.inr (by rw [RN.real_atom, hi]; exact random_not_dyadic s ha))

example : ∃ atoms : Atoms, ∃ r N, ∀ fuel, N ≤ fuel → RN.ltRN atoms fuel (.atom 0) (.atom 1) = .ok r := by
  obtain ⟨r, N, h, -⟩ := random_lt_returns (fun i => .random (Rand48.digits (UInt32.ofNat i))) (i := 0) (j := 1) rfl rfl (by decide)
  exact ⟨_, r, N, h⟩

/-! ### C58 -/

/-- When the state for one seed is reached from the state for another one, the numbers are linearly dependent. -/
theorem value_of_init {s t : UInt32} {n : ℕ} (h : Rand48.init t = Rand48.next^[n] (Rand48.init s)) :
    (Rand48.digits t).value = 2 ^ n * (Rand48.digits s).value - Digits.prefixInt (Rand48.digit s) n := by
  refine Digits.value_shift fun i => ?_
  show Rand48.digit t i = Rand48.digit s (i + n)
  rw [Rand48.digit_eq, Rand48.digit_eq, h, ← Function.iterate_add_apply, Nat.add_right_comm]

/-- Some other seed is reached after 65536 steps. -/
theorem init_reached (s : UInt32) : ∃ t, t ≠ s ∧ Rand48.init t = Rand48.next^[65536] (Rand48.init s) := by
  have hx := Rand48.iter_lt (Rand48.init_lt s) 65536
  have hmod := Rand48.iter_pow (j := 16) (x := Rand48.init s) (by norm_num)
  rw [show 2 ^ 16 = 65536 from rfl] at hmod
  generalize Rand48.next^[65536] (Rand48.init s) = y at hx hmod
  unfold Nat.ModEq at hmod
  rw [Rand48.init_eq] at hmod
  have hlow : y % 2 ^ 16 = 0x330e := by omega
  have hinit : Rand48.init (UInt32.ofNat (y / 2 ^ 16)) = y := by
    rw [Rand48.init_eq, UInt32.toNat_ofNat', Nat.mod_eq_of_lt (by omega)]
    omega
  refine ⟨UInt32.ofNat (y / 2 ^ 16), ?_, hinit⟩
  intro h
  rw [h, Rand48.init_eq] at hinit
  omega

/-- **C58 is false** (finding F29): for every seed there is another one such that the two random numbers are linearly dependent: the digits of the second
are those of the first from the position 65536 on. -/
theorem random_dependent (s : UInt32) : ∃ t, t ≠ s ∧ ∃ m : ℤ, (Rand48.digits t).value = 2 ^ 65536 * (Rand48.digits s).value - m := by
  obtain ⟨t, hne, h⟩ := init_reached s
  exact ⟨t, hne, _, value_of_init h⟩

variable {P : Type} [DecidableEq P] {R : Type} [CommRing R] [DecidableEq R] [CRing P R] [LawfulCRing P]

/-- **C58**: what happens for an element that is zero although its coefficients are not: it is not equal to zero, and the comparison with zero and the
conversion to an enclosure never return (finding F24). -/
theorem zero_element_pending (atoms : Atoms) {F : Arith} {coeff : ℕ → R → Ball} (hF : F.Lawful) (hco : CoeffLawful P coeff) {x : Elt P R} (hx : x.WF)
    (hb : x.toBool = true) (h0 : x.real atoms.vals = 0) (hr : x.rational? = none) (fuel : ℕ) :
    x.eqZ 0 = false ∧ (∀ A, 4 ≤ A → x.arb atoms F coeff fuel A = .pending) ∧ Elt.ltZ atoms F coeff fuel x 0 = .pending ∧
      Elt.gtZ atoms F coeff fuel x 0 = .pending ∧ x.floor atoms F coeff fuel = .pending ∧ x.toDouble atoms F coeff fuel = .pending := by
  have ha := fun A hA => Elt.arb_zero_pending atoms hF hco (A := A) hA hx hb h0 fuel
  have he : x.eqZ 0 = false := by rw [Elt.eqZ, Elt.eqQ, hr]; rfl
  have hlt : Elt.ltZ atoms F coeff fuel x 0 = .pending := by
    rw [Elt.ltZ, he, if_neg (by simp)]
    cases fuel with
    | zero => rfl
    | succ fuel => rw [Elt.ltLoop, ha 64 (by norm_num)]; rfl
  have hint : x.integer? = none := by rw [Elt.integer?, hr]
  refine ⟨he, ha, hlt, ?_, ?_, ?_⟩
  · rw [Elt.gtZ, Elt.gtOf, he, hlt]; rfl
  · rw [Elt.floor, hint]
    cases fuel with
    | zero => rfl
    | succ fuel => simp only; rw [Elt.roundLoop, ha 64 (by norm_num)]; rfl
  · rw [Elt.toDouble, hr]
    cases fuel with
    | zero => rfl
    | succ fuel => simp only; rw [Elt.doubleLoop, ha 55 (by norm_num)]; rfl

/-- The module with the generators 1 and two random numbers. -/
def pairMod (i j : ℕ) : Mod IntegerRing := ⟨.mk, [.rat 1, .atom i, .atom j]⟩

theorem pairMod_wf {i j : ℕ} (h : i < j) : (pairMod i j).WF := by
  have hs : Mod.make IntegerRing.mk [.rat 1, .atom i, .atom j] = .ok (pairMod i j) := by
    have h1 : Mod.sort [.rat 1, .atom i, .atom j] = [.rat 1, .atom i, .atom j] := by
      rw [Mod.sort]
      refine List.Pairwise.insertionSort_eq ?_
      simp [RN.lt, RN.deglex, h.ne', h.le]
    rw [Mod.make, h1]
    simp [Mod.check, Mod.compatible, RN.isRat, RN.rational?, pairMod, h.ne]
  exact (Mod.make_ok (by simp [RN.WF]) hs).2.2

/-- An element that is zero although its coefficients are not. -/
theorem pair_zero (atoms : Atoms) {i j : ℕ} (hij : i < j) {p q r : ℤ} (h : r + q * (atoms i).value - p * (atoms j).value = 0) (hp : p ≠ 0)
    {F : Arith} (hF : F.Lawful) : Elt.WF (⟨pairMod i j, [r, q, -p]⟩ : Elt IntegerRing ℤ) ∧
    Elt.real atoms.vals (⟨pairMod i j, [r, q, -p]⟩ : Elt IntegerRing ℤ) = 0 ∧
    Elt.toBool (⟨pairMod i j, [r, q, -p]⟩ : Elt IntegerRing ℤ) = true ∧ Elt.eqZ (⟨pairMod i j, [r, q, -p]⟩ : Elt IntegerRing ℤ) 0 = false ∧
    ∀ fuel, Elt.ltZ atoms F IntegerRing.arb fuel (⟨pairMod i j, [r, q, -p]⟩ : Elt IntegerRing ℤ) 0 = .pending := by
  set x : Elt IntegerRing ℤ := ⟨pairMod i j, [r, q, -p]⟩ with hxd
  have hx : x.WF := ⟨pairMod_wf hij, rfl, fun _ _ => trivial⟩
  have hv : x.real atoms.vals = 0 := by
    rw [← h]
    simp [Elt.real, Elt.value, Elt.terms, hxd, pairMod, RN.value, Atoms.vals]
    ring
  have hb : x.toBool = true := by simp [Elt.toBool, hxd, hp]
  have hr : x.rational? = none := by
    by_cases hm : r = 0 <;> by_cases hc0 : q = 0 <;>
      simp [Elt.rational?, Elt.rationalLoop, Elt.terms, hxd, pairMod, RN.rational?, hm, hc0, hp] <;> split <;> rfl
  exact ⟨hx, hv, hb, (zero_element_pending atoms hF coeffLawful_int hx hb hv hr 0).1,
    fun fuel => (zero_element_pending atoms hF coeffLawful_int hx hb hv hr fuel).2.2.1⟩

/-- **C58 is false** (finding F29), for elements: for every seed `s` there is a seed `t` and an integer `m` such that the element
`2^65536 random(s) - random(t) - m` is zero but is not recognized as zero, and comparing it with zero never returns. -/
theorem independence_fails (s : UInt32) : ∃ t, t ≠ s ∧ ∃ m : ℤ, ∀ (atoms : Atoms) (i j : ℕ), i < j → atoms i = .random (Rand48.digits s) →
    atoms j = .random (Rand48.digits t) → ∀ F : Arith, F.Lawful →
    ∃ x : Elt IntegerRing ℤ, x = ⟨pairMod i j, [-m, 2 ^ 65536, -1]⟩ ∧ x.WF ∧ x.real atoms.vals = 0 ∧ x.toBool = true ∧ x.eqZ 0 = false ∧
      ∀ fuel, Elt.ltZ atoms F IntegerRing.arb fuel x 0 = .pending := by
  obtain ⟨t, hne, m, h⟩ := random_dependent s
  refine ⟨t, hne, m, fun atoms i j hij hi hj F hF => ⟨_, rfl, ?_⟩⟩
  generalize hc : (2 : ℤ) ^ 65536 = c
  have hcR : (2 : ℝ) ^ 65536 = c := by rw [← hc, Int.cast_pow, Int.cast_ofNat]
  rw [hcR] at h
  refine pair_zero atoms hij ?_ one_ne_zero hF
  rw [hi, hj]
  simp only [Atom.value]
  rw [h]
  push_cast
  ring

/-- **C58 is false** (finding F15): the random numbers `random(seed)` and `random(lower, upper, seed)` with the same seed are linearly dependent, for
every generator of digits. -/
theorem random_same_seed_dependent (gen : Generators) {lower upper : ℚ} (h : lower < upper) (seed : UInt32) {a : Atom}
    (ha : randomIn gen lower upper seed = .ok a) : ∃ p q r : ℤ, 0 < p ∧ 0 < q ∧ p * a.value = q * (gen.digits seed).value + r := by
  rw [randomIn] at ha
  by_cases h01 : lower = 0 ∧ upper = 1
  · rw [if_pos h01] at ha
    cases ha
    exact ⟨1, 1, 0, one_pos, one_pos, by simp [Atom.value]⟩
  rw [if_neg h01, if_neg (not_le.2 h)] at ha
  simp only [Out.ok.injEq] at ha
  obtain ⟨m, e, rfl⟩ : ∃ m e, a = .constrained m e (gen.digits seed) := ⟨_, _, ha.symm⟩
  clear ha
  refine ⟨2 ^ (e.natAbs + 1), 2 ^ (e + e.natAbs).toNat, m * 2 ^ (e + e.natAbs + 1).toNat, by positivity, by positivity, ?_⟩
  have h2 : (2 : ℝ) ≠ 0 := by norm_num
  simp only [Atom.value]
  push_cast
  simp only [← zpow_natCast]
  have he := neg_abs_le e
  rw [Int.toNat_of_nonneg (by omega), Int.toNat_of_nonneg (by omega)]
  push_cast
  rw [mul_add, mul_left_comm, ← zpow_add₀ h2, mul_left_comm, ← zpow_add₀ h2, _root_.mul_comm (2 ^ (e + _)), add_comm]
  congr 3 <;> ring

/-- **C58 is false** (finding F15), for elements: there is an element over the integers that is zero but is not recognized as zero, and comparing it with
zero never returns. -/
theorem same_seed_fails (gen : Generators) {lower upper : ℚ} (h : lower < upper) (h01 : ¬ (lower = 0 ∧ upper = 1)) (seed : UInt32) :
    ∃ a p q r, randomIn gen lower upper seed = .ok a ∧ 0 < p ∧ 0 < q ∧
    ∀ (atoms : Atoms) (i j : ℕ), i < j → atoms i = .random (gen.digits seed) → atoms j = a → ∀ F : Arith, F.Lawful →
      ∃ x : Elt IntegerRing ℤ, x = ⟨pairMod i j, [r, q, -p]⟩ ∧ x.WF ∧ x.real atoms.vals = 0 ∧ x.toBool = true ∧ x.eqZ 0 = false ∧
        ∀ fuel, Elt.ltZ atoms F IntegerRing.arb fuel x 0 = .pending := by
  obtain ⟨a, ha⟩ : ∃ a, randomIn gen lower upper seed = .ok a := by
    rw [randomIn, if_neg h01, if_neg (not_le.2 h)]; exact ⟨_, rfl⟩
  obtain ⟨p, q, r, hp, hq, hv⟩ := random_same_seed_dependent gen h seed ha
  exact ⟨a, p, q, r, ha, hp, hq, fun atoms i j hij hi hj F hF => ⟨_, rfl, pair_zero atoms hij (by
    have : (atoms i).value = (gen.digits seed).value := by rw [hi]; rfl
    rw [this, hj, hv]; ring) hp.ne' hF⟩⟩

/-- `b + a random(s)` -/
def singleX (i : ℕ) (b a : ℤ) : Elt IntegerRing ℤ := ⟨⟨.mk, [.rat 1, .atom i]⟩, [b, a]⟩

/-- **C58**, as far as it is proved: for a single random number and integer coefficients of at most 49 bits, an element is zero only if its
coefficients are; the comparison with zero returns and is right, and `floor` returns. -/
theorem independence_partial (atoms : Atoms) {F : Arith} (hF : F.Lawful) {i : ℕ} {s : UInt32} (hi : atoms i = .random (Rand48.digits s)) {a b : ℤ}
    (ha : |a| ≤ 2 ^ 49) :
    ((singleX i b a).real atoms.vals = 0 ↔ (singleX i b a).toBool = false) ∧
    (∃ r N, (∀ fuel, N ≤ fuel → Elt.ltZ atoms F IntegerRing.arb fuel (singleX i b a) 0 = .ok r) ∧
      (r = true ↔ (singleX i b a).real atoms.vals < 0)) ∧
    ∃ n N, ∀ fuel, N ≤ fuel → (singleX i b a).floor atoms F IntegerRing.arb fuel = .ok n := by
  have hm : (⟨.mk, [.rat 1, .atom i]⟩ : Mod IntegerRing).WF := by
    have h : Mod.make IntegerRing.mk [.rat 1, .atom i] = .ok ⟨.mk, [.rat 1, .atom i]⟩ := by
      simp [Mod.make, Mod.sort, RN.lt, RN.deglex, Mod.check, Mod.compatible, RN.isRat, RN.rational?]
    exact (Mod.make_ok (by simp [RN.WF]) h).2.2
  have hx : (singleX i b a).WF := ⟨hm, rfl, fun _ _ => trivial⟩
  have hv : (singleX i b a).real atoms.vals = b + a * (Rand48.digits s).value := by
    have ei : atoms.vals i = (Rand48.digits s).value := by rw [Atoms.vals, hi]; rfl
    simp [Elt.real, Elt.value, Elt.terms, singleX, RN.value, ei]
  have hni : a ≠ 0 → ∀ n : ℤ, (singleX i b a).real atoms.vals ≠ n := by
    intro ha0 n h
    rw [hv] at h
    have := random_denominator s ha0 (b := n - b) (by push_cast; linarith)
    rw [Int.abs_eq_natAbs] at ha
    omega
  have hiff : (singleX i b a).real atoms.vals = 0 ↔ (singleX i b a).toBool = false := by
    constructor
    · intro h
      have ha0 : a = 0 := by
        by_contra ha0
        exact hni ha0 0 (by simpa using h)
      rw [hv, ha0] at h
      have : b = 0 := by simpa using h
      simp [singleX, Elt.toBool, ha0, this]
    · exact fun h => Elt.real_of_toBool h _
  have hx0 : (singleX i b a).toBool = false ∨ (singleX i b a).real atoms.vals ≠ 0 := by
    by_cases h : (singleX i b a).toBool = false
    · exact .inl h
    · exact .inr fun h0 => h (hiff.1 h0)
  refine ⟨hiff, ?_, ?_⟩
  · have hret : ∃ r N, ∀ fuel, N ≤ fuel → Elt.ltZ atoms F IntegerRing.arb fuel (singleX i b a) 0 = .ok r := by
      rcases hx0 with h | h
      · have : a = 0 ∧ b = 0 := by
          simp [singleX, Elt.toBool] at h; exact h.symm
        have he : (singleX i b a).eqZ 0 = true := by
          rw [this.1, this.2]; simp [singleX, Elt.eqZ, Elt.eqQ, Elt.rational?, Elt.rationalLoop, Elt.terms]
        exact ⟨false, 0, fun fuel _ => by rw [Elt.ltZ, if_pos he]⟩
      · let _ : Build := ⟨true, true⟩
        exact (elt_lt_returns atoms hF coeffLawful_int hx (.inr h)).2.2.2 0 (by simpa using h)
    obtain ⟨r, N, h⟩ := hret
    exact ⟨r, N, h, elt_sign atoms hF coeffLawful_int hx (h N le_rfl)⟩
  · refine (elt_floor_returns atoms hF coeffLawful_int hx ?_).1
    intro hnone
    refine hni ?_
    rintro rfl
    rw [Elt.integer?] at hnone
    have : (singleX i b 0).rational? = some (b : ℚ) := by
      by_cases hb : b = 0 <;> simp [singleX, Elt.rational?, Elt.rationalLoop, Elt.terms, RN.rational?, hb]; rfl
    rw [this] at hnone
    simp at hnone

end ExactReal.Props
