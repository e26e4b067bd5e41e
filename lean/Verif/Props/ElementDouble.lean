import Verif.Lemma.DoubleRound
import Verif.Props.ElementRound

/-!
# C35, C36: the conversion of elements to `double`, and hashes

Rational elements are rounded correctly unless they are subnormal (there the conversion rounds twice); other elements are rounded correctly if the
balls of the generators contain the generators, and up to a relative error of `3·2^-53` in general.
-/

namespace ExactReal.Props

open Arf Ball

variable {P : Type} [DecidableEq P] {R : Type} [CommRing R] [DecidableEq R] [CRing P R] [LawfulCRing P]
variable (atoms : Atoms) {F : Arith} {coeff : ℕ → R → Ball}

theorem doubleLoop_eq (self : ℕ → Out Ball) (fuel prec : ℕ) : Elt.doubleLoop self fuel prec = search (boundsBody Double.ofArf self) fuel prec :=
  Elt.doubleLoop_eq_search self fuel prec

/-- The conversion of elements that are not rational, with a general inflation factor. -/
theorem elt_double_c (hF : F.Lawful) (hco : CoeffLawful P coeff) {c : ℝ} (hc : 1 ≤ c) (hc5 : c ≤ 5) {fuel : ℕ} {x : Elt P R}
    (gx : ∀ k, Elt.GenNear atoms c (55 * 2 ^ k) x.mod) (hq : x.rational? = none) {d : Double} (h : x.toDouble atoms F coeff fuel = .ok d) :
    Double.NearestUpTo (2 * ((c - 1) * (3 / 2 * 2 ^ (-(55 : ℤ)) * |x.real atoms.vals|))) (x.real atoms.vals) d := by
  have hE : 0 ≤ (c - 1) * (3 / 2 * 2 ^ (-(55 : ℤ)) * |x.real atoms.vals|) := mul_nonneg (by linarith) (by positivity)
  rw [Elt.toDouble, hq] at h
  simp only at h
  rw [doubleLoop_eq] at h
  obtain ⟨k, s, lo, hi, r, h1, -, h3, h4, h5, h6, h7⟩ := boundsBody_ok h
  have hA := le_start 55 k
  obtain ⟨hnear, -, ⟨r', hr', hs1, hs2⟩, -⟩ := Elt.arb_slack_c atoms hF hco hc hc5 (by omega) (gx k) h1
  have hm : (c - 1) * (3 / 2 * 2 ^ (-((55 * 2 ^ k : ℕ) : ℤ)) * |x.real atoms.vals|) ≤ (c - 1) * (3 / 2 * 2 ^ (-(55 : ℤ)) * |x.real atoms.vals|) :=
    mul_le_mul_of_nonneg_left (mul_le_mul_of_nonneg_right (mul_le_mul_of_nonneg_left (zmonoR (by omega)) (by norm_num)) (abs_nonneg _)) (by linarith)
  rw [h3] at hr'
  cases hr'
  have h4' := (Rat.cast_le (K := ℝ)).2 h4
  have h5' := (Rat.cast_le (K := ℝ)).2 h5
  push_cast at h4' h5'
  rw [abs_le] at hs2
  have hr0 : 0 ≤ r := by
    obtain ⟨r'', e1, e2, -⟩ := hnear
    rw [h3] at e1; cases e1; exact e2
  exact Double.nearest_almost (by linarith) h6 h7 hE (by linarith [hs2.1]) (by linarith [hs2.2])

set_option maxRecDepth 20000 in
/-- **C35** for elements whose value is rational (found out exactly): correctly rounded unless subnormal. -/
theorem elt_double_rational {fuel : ℕ} {x : Elt P R} {q : ℚ} (hq : x.rational? = some q) :
    ∃ d, x.toDouble atoms F coeff fuel = .ok d ∧ (q = 0 ∨ 2 ^ (-1022 : ℤ) ≤ |q| → Double.NearestUpTo 0 (x.real atoms.vals) d) ∧
      Double.NearestUpTo (2 * (2 ^ (-(53 : ℤ)) * |x.real atoms.vals|)) (x.real atoms.vals) d := by
  rw [rational_sound hq]
  refine ⟨_, by rw [Elt.toDouble, hq], fun h => ?_, ?_⟩
  · rcases h with rfl | h
    · have := Double.ofArf_nearest 0
      rwa [round_zero]
    · exact Double.ofArf_round53 h
  · have h := (Double.ofArf_nearest (Arf.round .near 53 q)).move (w := q) (e := 2 ^ (-(53 : ℤ)) * |(q : ℝ)|) (by
      have h1 := castR' (abs_round_near_sub_le_rel 53 q)
      push_cast at h1
      rw [abs_sub_comm, _root_.mul_comm]; exact h1)
    rwa [zero_add] at h
where
  castR' {a b : ℚ} (h : a ≤ b) : (a : ℝ) ≤ b := by exact_mod_cast h

/-- **C35**: if the balls of the generators contain the generators, then the conversion, whenever it returns, is correctly rounded, for elements that
are not rational, are zero, or not subnormal. -/
theorem elt_double_exact (hF : F.Lawful) (hco : CoeffLawful P coeff) {fuel : ℕ} {x : Elt P R} (hx : x.WF) (gx : x.mod.ContainedFrom atoms 55)
    (hn : x.rational? = none ∨ x.real atoms.vals = 0 ∨ 2 ^ (-1022 : ℤ) ≤ |x.real atoms.vals|) {d : Double} (h : x.toDouble atoms F coeff fuel = .ok d) :
    Double.NearestUpTo 0 (x.real atoms.vals) d := by
  have h2 : ∀ k, 2 ≤ 55 * 2 ^ k := fun k => by have := le_start 55 k; omega
  cases hq : x.rational? with
  | none =>
    have := elt_double_c atoms hF hco le_rfl (by norm_num) (fun k => Elt.genNear_one atoms hx.mod (h2 k) (gx k)) hq h
    rwa [sub_self, zero_mul, mul_zero] at this
  | some q =>
    obtain ⟨d', h1, h3, -⟩ := elt_double_rational (coeff := coeff) (F := F) (fuel := fuel) atoms hq
    rw [h] at h1
    cases h1
    refine h3 ?_
    rw [rational_sound hq] at hn
    rcases hn with hn | hn | hn
    · rw [hq] at hn; cases hn
    · exact .inl (by exact_mod_cast hn)
    · right
      have h4 : ((2 ^ (-1022 : ℤ) : ℚ) : ℝ) ≤ ((|q| : ℚ) : ℝ) := by rw [Rat.cast_zpow, Rat.cast_abs, Rat.cast_ofNat]; exact hn
      exact_mod_cast h4

/-- **C35** without hypothesis on the generators: correctly rounded up to a relative error of `3·2^-53`. -/
theorem elt_double_partial (hF : F.Lawful) (hco : CoeffLawful P coeff) {fuel : ℕ} {x : Elt P R} (hx : x.WF) {d : Double}
    (h : x.toDouble atoms F coeff fuel = .ok d) : Double.NearestUpTo (3 * 2 ^ (-(53 : ℤ)) * |x.real atoms.vals|) (x.real atoms.vals) d := by
  have h2 : ∀ k, 2 ≤ 55 * 2 ^ k := fun k => by have := le_start 55 k; omega
  have e55 : (2 : ℝ) ^ (-(53 : ℤ)) = 4 * 2 ^ (-(55 : ℤ)) := by norm_num
  have hpos : 0 ≤ (2 : ℝ) ^ (-(55 : ℤ)) * |x.real atoms.vals| := by positivity
  cases hq : x.rational? with
  | none =>
    refine (elt_double_c atoms hF hco (c := 5) (by norm_num) le_rfl (fun k => Elt.genNear_five atoms hx.mod (h2 k)) hq h).mono ?_
    rw [e55]
    generalize (2 : ℝ) ^ (-(55 : ℤ)) = e at *
    linarith
  | some q =>
    obtain ⟨d', h1, -, h3⟩ := elt_double_rational (coeff := coeff) (F := F) (fuel := fuel) atoms hq
    rw [h] at h1
    cases h1
    refine h3.mono ?_
    rw [e55]
    generalize (2 : ℝ) ^ (-(55 : ℤ)) = e at *
    linarith

theorem irrational_of_none {x : Elt P R} (hv : AlgebraicIndependent ℚ atoms.vals) (hx : x.WF) (zx : x.NoZeroGen) (h : x.rational? = none) :
    Irrational (x.real atoms.vals) := by
  rintro ⟨q, hq⟩
  rw [(rational_iff hv hx (.inl zx) q).2 hq.symm] at h
  cases h

/-- **C35** (termination): the conversion returns if the value is not a floating point number of any precision (or is recognized as a rational). -/
theorem elt_double_returns (hF : F.Lawful) (hco : CoeffLawful P coeff) {x : Elt P R} (hx : x.WF)
    (hd : x.rational? = none → ∀ q : ℚ, Dyadic q → x.real atoms.vals ≠ q) : ∃ d N, ∀ fuel, N ≤ fuel → x.toDouble atoms F coeff fuel = .ok d := by
  cases hq : x.rational? with
  | some q => exact ⟨_, 0, fun _ _ => by rw [Elt.toDouble, hq]⟩
  | none =>
    have hd := hd hq
    obtain ⟨ε, hε, d, hd'⟩ := Double.ofArf_locally_constant hd
    obtain ⟨n, N, hN⟩ := Elt.bounds_terminates atoms (g := Double.ofArf) hF hco hx (by simpa using hd 0 ⟨0, 0, by simp⟩) (start := 55) (by norm_num) hε hd'
    exact ⟨n, N, fun fuel hf => by rw [Elt.toDouble, hq]; simp only; rw [doubleLoop_eq]; exact hN fuel hf⟩

/-- **C35** (termination): for algebraically independent atoms the conversion returns. -/
theorem elt_double_terminates (hF : F.Lawful) (hco : CoeffLawful P coeff) (hv : AlgebraicIndependent ℚ atoms.vals) {x : Elt P R} (hx : x.WF)
    (zx : x.NoZeroGen) : ∃ d N, ∀ fuel, N ≤ fuel → x.toDouble atoms F coeff fuel = .ok d :=
  elt_double_returns atoms hF hco hx fun hq q _ h => irrational_of_none atoms hv hx zx hq ⟨q, h.symm⟩

/-! ### C36 -/

set_option maxRecDepth 20000 in
/-- A number that is rounded to an infinity has no nearest finite double. -/
theorem not_fin_of_inf {v : ℝ} (hv : Irrational v) {d : ℚ} (h1 : Double.NearestUpTo 0 v (.fin d)) (h2 : Double.NearestUpTo 0 v .posInf) : False := by
  obtain ⟨⟨hr, hlt⟩, hn⟩ := h1
  have h3 := hn _ (Double.isRep_zpow (k := 1024) (by norm_num))
  rw [show ((2 : ℚ) ^ (1024 : ℤ)) = 2 ^ 1024 from zpow_natCast 2 1024] at h3
  have hmax : d ≤ 2 ^ 1024 - 2 ^ 971 := by
    by_contra hgt
    push Not at hgt
    have hlog : Int.log 2 |d| = 1023 := by
      obtain ⟨e1, e2, e3⟩ := big_powers (K := ℚ)
      have hd : 2 ^ 1023 ≤ d := by
        have e4 : (2 : ℚ) ^ 1024 = 2 * 2 ^ 1023 := by rw [show (1024 : ℕ) = 1023 + 1 from rfl, pow_succ, _root_.mul_comm]
        have e5 : (2 : ℚ) ^ 971 ≤ 2 ^ 1023 := pow_le_pow_right₀ (by norm_num) (by norm_num)
        rw [e4] at hgt
        generalize (2 : ℚ) ^ 1023 = a at *
        generalize (2 : ℚ) ^ 971 = b at *
        linarith only [hgt, e5]
      apply log_eq
      · rw [show ((2 : ℚ) ^ (1023 : ℤ)) = 2 ^ 1023 from zpow_natCast 2 1023]
        exact hd.trans (le_abs_self d)
      · rw [show ((2 : ℚ) ^ ((1023 : ℤ) + 1)) = 2 ^ 1024 from zpow_natCast 2 1024]
        exact hlt
    obtain ⟨n, hn⟩ := Double.multiple_self hr
    rw [Double.ulp, hlog, show max ((1023 : ℤ) - 52) (-1074) = 971 by norm_num, show ((2 : ℚ) ^ (971 : ℤ)) = 2 ^ 971 from zpow_natCast 2 971] at hn
    have e : (2 : ℚ) ^ 1024 = 2 ^ 53 * 2 ^ 971 := by rw [← pow_add]
    have hp : (0 : ℚ) < 2 ^ 971 := by positivity
    have hle := (le_abs_self d).trans_lt hlt
    rw [hn, e] at hle hgt
    have k1 : (n : ℚ) < 2 ^ 53 := lt_of_mul_lt_mul_right hle hp.le
    have k2 : (2 ^ 53 - 1 : ℚ) < n := by
      have : (2 ^ 53 - 1 : ℚ) * 2 ^ 971 < n * 2 ^ 971 := by rw [sub_mul, _root_.one_mul]; exact hgt
      exact lt_of_mul_lt_mul_right this hp.le
    have k1' : n < 2 ^ 53 := by exact_mod_cast k1
    have k2' : 2 ^ 53 - 1 < n := by exact_mod_cast k2
    omega
  have hmax' : (d : ℝ) ≤ ((2 ^ 1024 - 2 ^ 971 : ℚ) : ℝ) := Double.castR hmax
  rw [Rat.cast_sub, Rat.cast_pow, Rat.cast_pow, Rat.cast_ofNat] at hmax'
  rw [Rat.cast_pow, Rat.cast_ofNat, add_zero] at h3
  have h4 : (2 : ℝ) ^ 1024 - 2 ^ 970 ≤ v := by have : (2 : ℝ) ^ 1024 - 2 ^ 970 ≤ v + 0 := h2; rwa [add_zero] at this
  have h5 : (2 : ℝ) ^ 1024 - 2 ^ 970 ≠ v := by
    intro h
    refine hv ⟨2 ^ 1024 - 2 ^ 970, ?_⟩
    rw [Rat.cast_sub, Rat.cast_pow, Rat.cast_pow, Rat.cast_ofNat]; exact h
  obtain ⟨e1, e2, e3⟩ := big_powers (K := ℝ)
  have h6 := lt_of_le_of_ne h4 h5
  rw [e2] at hmax'
  clear e1 e2 hn hmax h2 h4 h5
  generalize (2 : ℝ) ^ 1024 = T at *
  generalize (2 : ℝ) ^ 970 = Q at *
  rw [abs_of_nonpos (show (d : ℝ) - v ≤ 0 by linarith)] at h3
  rcases abs_cases (T - v) with ⟨k, -⟩ | ⟨k, -⟩ <;> rw [k] at h3 <;> linarith

/-- The negative of a double. -/
def negDouble : Double → Double
  | .fin d => .fin (-d)
  | .posInf => .negInf
  | .negInf => .posInf

theorem nearest_neg {v : ℝ} {d : Double} (h : Double.NearestUpTo 0 v d) : Double.NearestUpTo 0 (-v) (negDouble d) := by
  cases d with
  | fin d =>
    obtain ⟨⟨h1, h2⟩, h3⟩ := h
    refine ⟨⟨h1.neg, by rwa [abs_neg]⟩, fun z hz => ?_⟩
    have := h3 _ hz.neg
    rw [← abs_neg, ← abs_neg ((z : ℝ) - -v)]
    convert this using 3 <;> push_cast <;> ring
  | posInf =>
    have h' : (2 : ℝ) ^ 1024 - 2 ^ 970 ≤ v + 0 := h
    show -v - 0 ≤ -((2 : ℝ) ^ 1024 - 2 ^ 970)
    generalize (2 : ℝ) ^ 1024 - 2 ^ 970 = T at *
    linarith
  | negInf =>
    have h' : v - 0 ≤ -((2 : ℝ) ^ 1024 - 2 ^ 970) := h
    show (2 : ℝ) ^ 1024 - 2 ^ 970 ≤ -v + 0
    generalize (2 : ℝ) ^ 1024 - 2 ^ 970 = T at *
    linarith

theorem not_both_inf {v : ℝ} (h1 : Double.NearestUpTo 0 v .posInf) (h2 : Double.NearestUpTo 0 v .negInf) : False := by
  have h1' : (2 : ℝ) ^ 1024 - 2 ^ 970 ≤ v + 0 := h1
  have h2' : v - 0 ≤ -((2 : ℝ) ^ 1024 - 2 ^ 970) := h2
  obtain ⟨e1, -, e3⟩ := big_powers (K := ℝ)
  rw [e1] at h1' h2'
  clear e1 h1 h2
  generalize (2 : ℝ) ^ 970 = Q at *
  have hp : (2 : ℝ) ^ 54 * Q = 18014398509481984 * Q := by norm_num
  rw [hp] at *
  linarith

/-- The correctly rounded double of an irrational number is unique. -/
theorem nearest_unique {v : ℝ} (hv : Irrational v) {d e : Double} (h1 : Double.NearestUpTo 0 v d) (h2 : Double.NearestUpTo 0 v e) : d = e := by
  cases d <;> cases e
  case fin.fin d e =>
    have k1 := h1.2 e h2.1.1
    have k2 := h2.2 d h1.1.1
    rw [add_zero] at k1 k2
    have k := abs_eq_abs.1 (le_antisymm k1 k2)
    rcases k with k | k
    · have : (d : ℝ) = e := by linarith
      rw [show d = e by exact_mod_cast this]
    · exact absurd ⟨(d + e) / 2, by push_cast; linarith⟩ hv
  case fin.posInf d => exact (not_fin_of_inf hv h1 h2).elim
  case posInf.fin d => exact (not_fin_of_inf hv h2 h1).elim
  case fin.negInf d => exact (not_fin_of_inf hv.neg (nearest_neg h1) (nearest_neg h2)).elim
  case negInf.fin d => exact (not_fin_of_inf hv.neg (nearest_neg h2) (nearest_neg h1)).elim
  case posInf.negInf => exact (not_both_inf h1 h2).elim
  case negInf.posInf => exact (not_both_inf h2 h1).elim
  all_goals rfl

variable [build : Build]

/-- **C36**, as far as it holds: for algebraically independent atoms, elements that compare equal have the same hash if they are rational, or if the
balls of the generators contain the generators. -/
theorem elt_hash_partial (hF : F.Lawful) (hco : CoeffLawful P coeff) (hv : AlgebraicIndependent ℚ atoms.vals) (hashDouble : Double → UInt64)
    {fuel fuel' : ℕ} {x y : Elt P R} (hx : x.WF) (hy : y.WF) (zx : x.NoZeroGen) (zy : y.NoZeroGen) (he : x.eq y = .ok true)
    (hc : (∃ q : ℚ, x.real atoms.vals = q) ∨ x.mod.ContainedFrom atoms 55 ∧ y.mod.ContainedFrom atoms 55) {h k : UInt64}
    (h1 : x.hash atoms F coeff hashDouble fuel = .ok h) (h2 : y.hash atoms F coeff hashDouble fuel' = .ok k) : h = k := by
  have hval := eq_sound hx hy he atoms.vals
  obtain ⟨d, d1, d2⟩ := Out.bind_eq_ok.1 h1
  obtain ⟨e, e1, e2⟩ := Out.bind_eq_ok.1 h2
  cases d2
  cases e2
  congr 1
  by_cases hr : ∃ q : ℚ, x.real atoms.vals = q
  · obtain ⟨q, hq⟩ := hr
    have q1 := (rational_iff hv hx (.inl zx) q).2 hq
    have q2 := (rational_iff hv hy (.inl zy) q).2 (hval ▸ hq)
    rw [Elt.toDouble, q1] at d1
    rw [Elt.toDouble, q2] at e1
    simp only at d1 e1
    rw [d1] at e1
    cases e1; rfl
  · obtain ⟨c1, c2⟩ := hc.resolve_left hr
    have n1 : x.rational? = none := by
      cases h : x.rational? with
      | none => rfl
      | some q => exact absurd ⟨q, rational_sound h _⟩ hr
    have n2 : y.rational? = none := by
      cases h : y.rational? with
      | none => rfl
      | some q => exact absurd ⟨q, hval.trans (rational_sound h _)⟩ hr
    have k1 := elt_double_exact atoms hF hco hx c1 (.inl n1) d1
    have k2 := elt_double_exact atoms hF hco hy c2 (.inl n2) e1
    rw [← hval] at k2
    exact nearest_unique (irrational_of_none atoms hv hx zx n1) k1 k2

end ExactReal.Props
