import Verif.Lemma.Effort
import Verif.Lemma.Interval
import Verif.Props.ElementRound
import Verif.Props.RealOrder

/-!
# C88: how far approximations are refined

Comparisons, rounding and approximations refine approximations until they are good enough.  Here: a bound for the precision that they need, in terms of how
close the numbers are to each other (or to an integer) and of how much the terms of an element cancel; and nothing is ever approximated with more bits
than that.
-/

namespace ExactReal.Props
open ExactReal Ball Arf

section
variable (atoms : Atoms)

theorem two_pow_neg_mul {p : ℕ} {a b c : ℝ} (h : c * a < 2 ^ p * b) : c * 2 ^ (-(p : ℤ)) * a < b := by
  have hpos : (0 : ℝ) < 2 ^ p := by positivity
  rw [zpow_neg, zpow_natCast, show c * (2 ^ p : ℝ)⁻¹ * a = c * a / 2 ^ p by field_simp, div_lt_iff₀ hpos]
  linarith

/-! ### Real numbers -/

/-- C88. `x < y` for real numbers has an answer by the time the precision (2, 4, 8, …) suffices to tell the numbers apart. -/
theorem real_lt_effort {x y : RN} (hx : x.WF) (hy : y.WF) {n : ℕ}
    (h : 3 * (magnitude (x.real atoms) + magnitude (y.real atoms)) ≤ 2 ^ (2 * 2 ^ n) * |x.real atoms - y.real atoms|) {fuel : ℕ} (hf : n < fuel) :
    ∃ r, RN.ltRN atoms fuel x y = .ok r := by
  by_cases he : x = y
  · exact ⟨false, by rw [RN.ltRN, if_pos he]⟩
  · rw [RN.ltRN, if_neg he, RN.ltLoop_eq_search atoms x y fuel 2 _ _ le_rfl (hasAccuracy_zeroPmInf _) (hasAccuracy_zeroPmInf _)]
    refine search_within n (fun k _ => ⟨_, rfl⟩) ?_ hf
    have hp : 2 ≤ 2 * 2 ^ n := le_start 2 n
    generalize 2 * 2 ^ n = p at h hp
    obtain ⟨r, r1, r2, r3, r4⟩ := RN.arb_error atoms hx hp
    obtain ⟨s, s1, s2, s3, s4⟩ := RN.arb_error atoms hy hp
    have mx := magnitude_pos (x.real atoms)
    have my := magnitude_pos (y.real atoms)
    have ax := abs_le_magnitude (x.real atoms)
    have ay := abs_le_magnitude (y.real atoms)
    have hu := zposR (-(p : ℤ))
    have := two_pow_neg_mul (c := 5 / 2) (a := magnitude (x.real atoms) + magnitude (y.real atoms)) (lt_of_lt_of_le (by linarith) h)
    obtain ⟨z, hz⟩ := lt_isSome_of_far r1 s1 r4 s4 (by nlinarith)
    exact ⟨z, by rw [hz]⟩

/-- C88. The same for floating point numbers and integers. -/
theorem real_lt_arf_effort {x : RN} (hx : x.WF) {a : ℚ} {n : ℕ} (h : 3 * magnitude (x.real atoms) ≤ 2 ^ (2 * 2 ^ n) * |x.real atoms - a|) {fuel : ℕ}
    (hf : n < fuel) : ∃ r, RN.ltArf atoms fuel x a = .ok r := by
  by_cases he : x.eqArf a = true
  · exact ⟨false, by rw [RN.ltArf, if_pos he]⟩
  · rw [RN.ltArf, if_neg he, RN.ltArfLoop_eq_search atoms x _ fuel 2 _ le_rfl (hasAccuracy_zeroPmInf _)]
    refine search_within n (fun k _ => ⟨_, rfl⟩) ?_ hf
    have hp : 2 ≤ 2 * 2 ^ n := le_start 2 n
    generalize 2 * 2 ^ n = p at h hp
    obtain ⟨r, r1, r2, r3, r4⟩ := RN.arb_error atoms hx hp
    have mx := magnitude_pos (x.real atoms)
    have ax := abs_le_magnitude (x.real atoms)
    have hu := zposR (-(p : ℤ))
    have := two_pow_neg_mul (c := 5 / 2) (a := magnitude (x.real atoms)) (lt_of_lt_of_le (by linarith) h)
    obtain ⟨z, hz⟩ := lt_isSome_of_far (b := exact a) (y := a) (e := 0) (s := 0) r1 rfl r4 (by simp [exact]) (by push_cast; nlinarith)
    exact ⟨z, by rw [hz]⟩

variable {F : Arith}

/-- The scaled ball in comparisons with rationals. -/
theorem scaled_error (hF : F.Lawful) {b : Ball} {x : ℝ} {r : ℚ} (h1 : b.rad = some r) (h2 : 0 ≤ r) {d : ℝ} (h3 : |x - b.mid| ≤ d) (q : ℚ)
    (h : d + 2 * r < |x - q|) : (∃ z, b.ltQ F q = some z) ∧ ∃ z, b.gtQ F q = some z := by
  have hb : b.Finite := ⟨r, h1, h2⟩
  have hd : (0 : ℝ) < q.den := by exact_mod_cast q.den_pos
  obtain ⟨s, s1, s2⟩ := hF.mul_finite ARF_PREC_EXACT b (exact q.den) hb (finite_exact _)
  have s3 := hF.mul_exact_radius b (exact q.den) hb (finite_exact _)
  rw [radius_eq s1, radius_eq h1] at s3
  have hm := hF.mul_exact_mid b (exact q.den)
  have s4 := (Rat.cast_le (K := ℝ)).2 s3
  simp only [exact, Ball.radius, Option.getD_some, mul_zero, zero_add, add_zero] at s4
  push_cast at s4
  rw [abs_of_pos hd] at s4
  have hm' : ((b.scaled F q).mid : ℝ) = b.mid * q.den := by rw [scaled, hm]; simp [exact]
  have hnum : (q : ℝ) * q.den = ((q.num : ℚ) : ℝ) := by
    have := Rat.mul_den_eq_num q
    exact_mod_cast this
  have h4 : |x * q.den - ((b.scaled F q).mid : ℝ)| ≤ d * q.den := by
    rw [hm', ← sub_mul, abs_mul, abs_of_pos hd]
    exact mul_le_mul_of_nonneg_right h3 hd.le
  have h5 : d * q.den + s + (0 + ((0 : ℚ) : ℝ)) < |x * q.den - ((q.num : ℚ) : ℝ)| := by
    rw [← hnum, ← sub_mul, abs_mul, abs_of_pos hd]
    have := mul_lt_mul_of_pos_right h hd
    push_cast
    linarith
  have h6 : d * q.den + s + (0 + ((0 : ℚ) : ℝ)) < |((q.num : ℚ) : ℝ) - x * q.den| := by rw [abs_sub_comm]; exact h5
  have e : |((q.num : ℚ) : ℝ) - ((exact (q.num : ℚ)).mid : ℝ)| ≤ 0 := by simp [exact]
  obtain ⟨z, hz⟩ := lt_isSome_of_far (a := b.scaled F q) (b := exact q.num) s1 rfl h4 e h5
  obtain ⟨z', hz'⟩ := lt_isSome_of_far (a := exact q.num) (b := b.scaled F q) rfl s1 e h4 (by linarith)
  exact ⟨⟨z, hz⟩, ⟨z', hz'⟩⟩

/-- C88. Comparison of real numbers with rationals (precisions 64, 128, …). -/
theorem real_lt_rational_effort (hF : F.Lawful) {x : RN} (hx : x.WF) {q : ℚ} {n : ℕ}
    (h : 4 * magnitude (x.real atoms) ≤ 2 ^ (64 * 2 ^ n) * |x.real atoms - q|) {fuel : ℕ} (hf : n < fuel) :
    (∃ r, RN.ltQ atoms F fuel x q = .ok r) ∧ ∃ r, RN.gtQ atoms F fuel x q = .ok r := by
  unfold RN.ltQ RN.gtQ
  cases hr : x.rational? with
  | some p => exact ⟨⟨_, rfl⟩, ⟨_, rfl⟩⟩
  | none =>
    simp only [RN.cmpQLoop_eq_search]
    have hp : 2 ≤ 64 * 2 ^ n := by have := le_start 64 n; omega
    have key : (∃ z, (x.arb atoms (64 * 2 ^ n)).ltQ F q = some z) ∧ ∃ z, (x.arb atoms (64 * 2 ^ n)).gtQ F q = some z := by
      generalize 64 * 2 ^ n = p at h hp
      obtain ⟨r, r1, r2, r3, r4⟩ := RN.arb_error atoms hx hp
      have mx := magnitude_pos (x.real atoms)
      have ax := abs_le_magnitude (x.real atoms)
      have hu := zposR (-(p : ℤ))
      have := two_pow_neg_mul (c := 7 / 2) (a := magnitude (x.real atoms)) (lt_of_lt_of_le (by linarith) h)
      exact scaled_error hF r1 r2 r4 q (by nlinarith)
    obtain ⟨⟨z, hz⟩, ⟨z', hz'⟩⟩ := key
    exact ⟨search_within n (fun k _ => ⟨_, rfl⟩) ⟨z, by rw [hz]⟩ hf, search_within n (fun k _ => ⟨_, rfl⟩) ⟨z', by rw [hz']⟩ hf⟩

end

/-! ### Elements -/

section
variable {P : Type} [DecidableEq P] {R : Type} [CommRing R] [DecidableEq R] [CRing P R] [LawfulCRing P]
variable (atoms : Atoms) {F : Arith} {coeff : ℕ → R → Ball}

/-- A loop that starts with more bits needs no more iterations. -/
theorem enough_mono {start A n : ℕ} (h : start ≤ A) {x : Elt P R} (hx : x.Enough atoms start n) : x.Enough atoms A n := by
  rcases hx with hx | ⟨h0, hx⟩
  · exact .inl hx
  · refine .inr ⟨h0, ?_⟩
    change (2 : ℝ) ^ (start + 2 * x.mod.basis.length + 9) * x.size atoms ≤ 2 ^ (start * 2 ^ n) * |x.real atoms.vals| at hx
    change (2 : ℝ) ^ (A + 2 * x.mod.basis.length + 9) * x.size atoms ≤ 2 ^ (A * 2 ^ n) * |x.real atoms.vals|
    obtain ⟨d, rfl⟩ := Nat.exists_eq_add_of_le h
    have hn : 1 ≤ 2 ^ n := Nat.one_le_two_pow
    have hd : d ≤ d * 2 ^ n := Nat.le_mul_of_pos_right _ (by positivity)
    have hS : 0 ≤ x.size atoms := Elt.termsSize_nonneg (P := P) atoms x.terms
    rw [show start + d + 2 * x.mod.basis.length + 9 = d + (start + 2 * x.mod.basis.length + 9) by ring, pow_add, add_mul, pow_add _ (start * 2 ^ n),
      _root_.mul_assoc]
    calc (2 : ℝ) ^ d * (2 ^ (start + 2 * x.mod.basis.length + 9) * x.size atoms) ≤ 2 ^ (d * 2 ^ n) * (2 ^ (start * 2 ^ n) * |x.real atoms.vals|) := by
          refine mul_le_mul (pow_le_pow_right₀ (by norm_num) hd) hx (by positivity) (by positivity)
      _ = _ := by ring

/-- C88. `arb(A)` has an answer by the time the precision makes up for the cancellation. -/
theorem elt_arb_effort (hF : F.Lawful) (hco : CoeffLawful P coeff) (hac : CoeffAccurate P coeff) {A : ℕ} (hA : 2 ≤ A) {x : Elt P R} (hx : x.WF) {n : ℕ}
    (h : x.Enough atoms A n) {fuel : ℕ} (hf : n < fuel) : ∃ b, x.arb atoms F coeff fuel A = .ok b := by
  rw [Elt.arb]
  split_ifs with h0
  · exact ⟨_, rfl⟩
  · rcases h with h | ⟨h1, h⟩
    · simp [h] at h0
    · rw [Elt.arbLoop_eq_search]
      refine search_within n (fun k _ => ⟨_, rfl⟩) ?_ hf
      have hle : A * 2 ^ n ≤ (A + Nat.clog 2 x.mod.basis.length) * 2 ^ n := Nat.mul_le_mul_right _ (Nat.le_add_right _ _)
      have hp : 2 ≤ (A + Nat.clog 2 x.mod.basis.length) * 2 ^ n := hA.trans ((Nat.le_mul_of_pos_right _ (by positivity)).trans hle)
      have := Elt.arbSum_accuracy atoms hF hco hac (A := A) (by omega) hp hx h1
        (h.trans (mul_le_mul_of_nonneg_right (pow_le_pow_right₀ (by norm_num) hle) (abs_nonneg _)))
      exact ⟨_, by rw [if_pos this]⟩

/-- What `arb` returns in the loops that double the accuracy. -/
theorem arb_within (hF : F.Lawful) (hco : CoeffLawful P coeff) (hac : CoeffAccurate P coeff) {start : ℕ} (hs : 4 ≤ start) {x : Elt P R} (hx : x.WF) {n : ℕ}
    (h : x.Enough atoms start n) {fuel : ℕ} (hf : n < fuel) (k : ℕ) : ∃ b r, x.arb atoms F coeff fuel (start * 2 ^ k) = .ok b ∧ b.rad = some r ∧ 0 ≤ r ∧
      (r : ℝ) ≤ 3 / 2 * 2 ^ (-((start * 2 ^ k : ℕ) : ℤ)) * |x.real atoms.vals| ∧ |x.real atoms.vals - b.mid| ≤ 5 * r ∧ b.hasAccuracy (start * 2 ^ k : ℕ) = true := by
  have hA : start ≤ start * 2 ^ k := le_start start k
  obtain ⟨b, hb⟩ := elt_arb_effort atoms hF hco hac (by omega) hx (enough_mono atoms hA h) hf
  obtain ⟨h1, h2⟩ := Elt.arb_near_five atoms hF hco (by omega) hx hb
  obtain ⟨-, h4⟩ := Elt.slack_of_near (by omega) h1 h2
  obtain ⟨r, r1, r2, r3⟩ := h1
  rw [radius_eq r1] at h4
  exact ⟨b, r, hb, r1, r2, h4, r3, h2⟩

variable [build : Build]

/-- C88. `x < y` for elements (accuracies 64, 128, …) has an answer by the time that the accuracy suffices to tell the numbers apart (`k`), if in each
iteration the approximations have enough precision (`n`). -/
theorem elt_lt_effort (hF : F.Lawful) (hco : CoeffLawful P coeff) (hac : CoeffAccurate P coeff) {x y : Elt P R} (hx : x.WF) (hy : y.WF) {n k : ℕ}
    (nx : x.Enough atoms 64 n) (ny : y.Enough atoms 64 n)
    (h : 9 * (|x.real atoms.vals| + |y.real atoms.vals|) < 2 ^ (64 * 2 ^ k) * |x.real atoms.vals - y.real atoms.vals|) {e : Bool} (he : x.eq y = .ok e)
    {fuel : ℕ} (hn : n < fuel) (hk : k < fuel) : ∃ r, Elt.lt atoms F coeff fuel x y = .ok r := by
  rw [Elt.lt, he]
  cases e with
  | true => exact ⟨false, rfl⟩
  | false =>
    rw [Out.ok_bind, if_neg (by simp), Elt.ltLoop_eq_search]
    refine search_within k (fun i _ => ?_) ?_ hk
    · obtain ⟨b, r, b1, -⟩ := arb_within atoms hF hco hac (by norm_num) hx nx hn i
      obtain ⟨c, s, c1, -⟩ := arb_within atoms hF hco hac (by norm_num) hy ny hn i
      exact ⟨_, by rw [b1, Out.ok_bind, c1, Out.ok_bind]⟩
    · obtain ⟨b, r, b1, b2, b3, b4, b5, -⟩ := arb_within atoms hF hco hac (by norm_num) hx nx hn k
      obtain ⟨c, s, c1, c2, c3, c4, c5, -⟩ := arb_within atoms hF hco hac (by norm_num) hy ny hn k
      have := two_pow_neg_mul h
      obtain ⟨z, hz⟩ := lt_isSome_of_far b2 c2 b5 c5 (by nlinarith)
      exact ⟨z, by rw [b1, Out.ok_bind, c1, Out.ok_bind, hz]⟩

/-- C88. The same for real numbers. -/
theorem elt_ltRN_effort (hF : F.Lawful) (hco : CoeffLawful P coeff) (hac : CoeffAccurate P coeff) {x : Elt P R} {y : RN} (hx : x.WF) (hy : y.WF) {n k : ℕ}
    (nx : x.Enough atoms 64 n)
    (h : 9 * |x.real atoms.vals| + 3 * magnitude (y.real atoms) < 2 ^ (64 * 2 ^ k) * |x.real atoms.vals - y.real atoms|) {e : Bool} (he : x.eqRN y = .ok e)
    {fuel : ℕ} (hn : n < fuel) (hk : k < fuel) : ∃ r, Elt.ltRN atoms F coeff fuel x y = .ok r := by
  rw [Elt.ltRN, he]
  cases e with
  | true => exact ⟨false, rfl⟩
  | false =>
    rw [Out.ok_bind, if_neg (by simp), Elt.ltLoop_eq_search]
    refine search_within k (fun i _ => ?_) ?_ hk
    · obtain ⟨b, r, b1, -⟩ := arb_within atoms hF hco hac (by norm_num) hx nx hn i
      exact ⟨_, by rw [b1, Out.ok_bind]⟩
    · obtain ⟨b, r, b1, b2, b3, b4, b5, -⟩ := arb_within atoms hF hco hac (by norm_num) hx nx hn k
      have hp : 2 ≤ 64 * 2 ^ k := by have := le_start 64 k; omega
      obtain ⟨s, s1, s2, s3, s4⟩ := RN.arb_error atoms hy hp
      have := two_pow_neg_mul (c := 1) (a := 9 * |x.real atoms.vals| + 3 * magnitude (y.real atoms)) (lt_of_le_of_lt (by rw [_root_.one_mul]) h)
      have my := magnitude_pos (y.real atoms)
      have ay := abs_le_magnitude (y.real atoms)
      have hu := zposR (-((64 * 2 ^ k : ℕ) : ℤ))
      obtain ⟨z, hz⟩ := lt_isSome_of_far b2 s1 b5 s4 (by nlinarith)
      exact ⟨z, by rw [b1, Out.ok_bind, hz]⟩

omit build in
/-- C88. The same for rationals and integers. -/
theorem elt_ltQ_effort (hF : F.Lawful) (hco : CoeffLawful P coeff) (hac : CoeffAccurate P coeff) {x : Elt P R} (hx : x.WF) {n k : ℕ}
    (nx : x.Enough atoms 64 n) {q : ℚ} (h : 11 * |x.real atoms.vals| < 2 ^ (64 * 2 ^ k) * |x.real atoms.vals - q|) {fuel : ℕ} (hn : n < fuel) (hk : k < fuel) :
    (∃ r, Elt.ltQ atoms F coeff fuel x q = .ok r) ∧ ∀ m : ℤ, q = m → ∃ r, Elt.ltZ atoms F coeff fuel x m = .ok r := by
  obtain ⟨b, r, b1, b2, b3, b4, b5, -⟩ := arb_within atoms hF hco hac (by norm_num) hx nx hn k
  have key := two_pow_neg_mul h
  have hx0 := abs_nonneg (x.real atoms.vals)
  have hu := zposR (-((64 * 2 ^ k : ℕ) : ℤ))
  have hux := mul_nonneg hu.le hx0
  have hok : ∀ i, ∃ b, x.arb atoms F coeff fuel (64 * 2 ^ i) = .ok b := fun i => by
    obtain ⟨b, r, b1, -⟩ := arb_within atoms hF hco hac (by norm_num) hx nx hn i
    exact ⟨b, b1⟩
  constructor
  · rw [Elt.ltQ]
    split_ifs
    · exact ⟨_, rfl⟩
    · rw [Elt.ltLoop_eq_search]
      obtain ⟨⟨z, hz⟩, -⟩ := scaled_error hF b2 b3 b5 q (by nlinarith)
      exact search_within k (fun i _ => by obtain ⟨b, hb⟩ := hok i; exact ⟨_, by rw [hb, Out.ok_bind]⟩) ⟨z, by rw [b1, Out.ok_bind, hz]⟩ hk
  · rintro m rfl
    rw [Elt.ltZ]
    split_ifs
    · exact ⟨_, rfl⟩
    · rw [Elt.ltLoop_eq_search]
      obtain ⟨z, hz⟩ := lt_isSome_of_far (b := exact (m : ℚ)) (y := ((m : ℚ) : ℝ)) (e := 0) (s := 0) b2 rfl b5 (by simp [exact]) (by push_cast at *; nlinarith)
      exact search_within k (fun i _ => by obtain ⟨b, hb⟩ := hok i; exact ⟨_, by rw [hb, Out.ok_bind]⟩) ⟨z, by rw [b1, Out.ok_bind, hz]⟩ hk

omit build in
/-- The loops that compare bounds. -/
theorem bounds_effort {α : Type} [DecidableEq α] {g : ℚ → α} (hF : F.Lawful) (hco : CoeffLawful P coeff) (hac : CoeffAccurate P coeff) {x : Elt P R} (hx : x.WF)
    {start n k : ℕ} (hs : 4 ≤ start) (nx : x.Enough atoms start n) {ε : ℝ} {c : α} (hg : ∀ q : ℚ, |(q : ℝ) - x.real atoms.vals| < ε → g q = c)
    (h : 33 * |x.real atoms.vals| < 2 ^ (start * 2 ^ k) * ε) {fuel : ℕ} (hn : n < fuel) (hk : k < fuel) :
    ∃ m, search (boundsBody g fun p => x.arb atoms F coeff fuel p) fuel start = .ok m := by
  have key := two_pow_neg_mul h
  refine search_within k (fun i _ => ?_) ?_ hk
  · obtain ⟨b, r, b1, b2, b3, -, -, b6⟩ := arb_within atoms hF hco hac hs hx nx hn i
    have := le_start start i
    obtain ⟨lo, hi, e, -⟩ := interval_near b2 b3 (hasAccuracy_mono (by omega) b6)
    exact ⟨_, by rw [boundsBody, b1, Out.ok_bind, e, Out.ok_bind]⟩
  · obtain ⟨b, r, b1, b2, b3, b4, b5, b6⟩ := arb_within atoms hF hco hac hs hx nx hn k
    have := le_start start k
    obtain ⟨lo, hi, e, l1, l2, u1, u2⟩ := interval_near b2 b3 (hasAccuracy_mono (by omega) b6)
    have l1' := (Rat.cast_le (K := ℝ)).2 l1
    have l2' := (Rat.cast_le (K := ℝ)).2 l2
    have u1' := (Rat.cast_le (K := ℝ)).2 u1
    have u2' := (Rat.cast_le (K := ℝ)).2 u2
    have h0' : (0 : ℝ) ≤ r := by exact_mod_cast b3
    push_cast at l1' l2' u1' u2'
    rw [abs_le] at b5
    have g1 := hg lo (abs_lt.2 ⟨by nlinarith [b5.1, b5.2], by nlinarith [b5.1, b5.2]⟩)
    have g2 := hg hi (abs_lt.2 ⟨by nlinarith [b5.1, b5.2], by nlinarith [b5.1, b5.2]⟩)
    exact ⟨c, by rw [boundsBody, b1, Out.ok_bind, e, Out.ok_bind, g1, g2, if_pos rfl]⟩

omit build in
/-- C88. `floor` and `ceil` return by the time that the accuracy suffices to tell the number from the integers (`ε` is its distance to them). -/
theorem elt_floor_effort (hF : F.Lawful) (hco : CoeffLawful P coeff) (hac : CoeffAccurate P coeff) {x : Elt P R} (hx : x.WF) {n k : ℕ}
    (nx : x.Enough atoms 64 n) {ε : ℝ} (hε : ∀ m : ℤ, ε ≤ |x.real atoms.vals - m|) (h : 33 * |x.real atoms.vals| < 2 ^ (64 * 2 ^ k) * ε) {fuel : ℕ}
    (hn : n < fuel) (hk : k < fuel) : (∃ m, x.floor atoms F coeff fuel = .ok m) ∧ ∃ m, x.ceil atoms F coeff fuel = .ok m := by
  cases hi : x.integer? with
  | some m => exact ⟨⟨m, by rw [Elt.floor, hi]⟩, ⟨m, by rw [Elt.ceil, hi]⟩⟩
  | none =>
    have hεpos : 0 < ε := by
      by_contra hc
      have := abs_nonneg (x.real atoms.vals)
      have : (2 : ℝ) ^ (64 * 2 ^ k) * ε ≤ 0 := mul_nonpos_of_nonneg_of_nonpos (by positivity) (not_lt.1 hc)
      linarith
    set y := x.real atoms.vals with hy
    have hl : (⌊y⌋ : ℝ) + ε ≤ y := by
      have := hε ⌊y⌋
      rw [abs_of_nonneg (by linarith [Int.floor_le y])] at this
      linarith
    have hu : y + ε ≤ ⌊y⌋ + 1 := by
      have := hε (⌊y⌋ + 1)
      push_cast at this
      rw [abs_of_nonpos (by linarith [Int.lt_floor_add_one y])] at this
      linarith
    have hnear : ∀ q : ℚ, |(q : ℝ) - y| < ε → (⌊y⌋ : ℝ) < q ∧ (q : ℝ) < ⌊y⌋ + 1 := by
      intro q hq
      rw [abs_lt] at hq
      constructor <;> linarith [hq.1, hq.2]
    constructor
    · obtain ⟨m, hm⟩ := bounds_effort atoms (g := Arf.floor) hF hco hac hx (start := 64) (by norm_num) nx (ε := ε) (c := ⌊y⌋) (fun q hq => by
        obtain ⟨h1, h2⟩ := hnear q hq
        rw [arf_floor_eq, Int.floor_eq_iff]
        exact ⟨by exact_mod_cast h1.le, by exact_mod_cast h2⟩) h hn hk
      exact ⟨m, by rw [Elt.floor, hi, roundLoop_eq]; exact hm⟩
    · obtain ⟨m, hm⟩ := bounds_effort atoms (g := Arf.ceil) hF hco hac hx (start := 64) (by norm_num) nx (ε := ε) (c := ⌊y⌋ + 1) (fun q hq => by
        obtain ⟨h1, h2⟩ := hnear q hq
        rw [arf_ceil_eq, Int.ceil_eq_iff]
        refine ⟨?_, ?_⟩
        · push_cast; rw [add_sub_cancel_right]; exact_mod_cast h1
        · exact_mod_cast h2.le) h hn hk
      exact ⟨m, by rw [Elt.ceil, hi, roundLoop_eq]; exact hm⟩

end

/-! ### Nothing is approximated with more bits than that -/

/-- C88. With `n + 1` iterations, `x < y` does not depend on what the random numbers are beyond a precision of `2 * 2 ^ n` bits (and a few more bits for the
factors of products). -/
theorem real_lt_local {atoms atoms' : Atoms} {x y : RN} {n N : ℕ} (h : atoms.AgreeUpTo N atoms') (hx : 2 * 2 ^ n + x.extra ≤ N) (hy : 2 * 2 ^ n + y.extra ≤ N) :
    RN.ltRN atoms (n + 1) x y = RN.ltRN atoms' (n + 1) x y := by
  rw [RN.ltRN, RN.ltRN]
  split_ifs
  · rfl
  · rw [RN.ltLoop_eq_search atoms x y _ 2 _ _ le_rfl (hasAccuracy_zeroPmInf _) (hasAccuracy_zeroPmInf _),
      RN.ltLoop_eq_search atoms' x y _ 2 _ _ le_rfl (hasAccuracy_zeroPmInf _) (hasAccuracy_zeroPmInf _)]
    refine search_congr fun k hk => ?_
    have : 2 * 2 ^ k ≤ 2 * 2 ^ n := Nat.mul_le_mul_left _ (Nat.pow_le_pow_right (by norm_num) (by omega))
    rw [RN.arb_local h ((Nat.add_le_add_right this _).trans hx), RN.arb_local h ((Nat.add_le_add_right this _).trans hy)]

section
variable {P : Type} [DecidableEq P] {R : Type} [CommRing R] [DecidableEq R] [CRing P R]
variable {atoms atoms' : Atoms} {F F' : Arith} {coeff coeff' : ℕ → R → Ball}

/-- C88. With `n + 1` iterations of each loop, `x < y` uses no precision beyond `(64 * 2 ^ n + ⌈log₂ rank⌉) * 2 ^ n` (`M`): it does not depend on what
arithmetic, coefficients and random numbers do with more bits. -/
theorem elt_lt_local [Build] {x y : Elt P R} {n M N : ℕ} (ha : atoms.AgreeUpTo N atoms') (hF : F.AgreeUpTo M F') (hc : AgreeUpTo M coeff coeff')
    (mx : (64 * 2 ^ n + Nat.clog 2 x.mod.basis.length) * 2 ^ n ≤ M) (my : (64 * 2 ^ n + Nat.clog 2 y.mod.basis.length) * 2 ^ n ≤ M)
    (hN : ∀ g ∈ x.mod.basis ++ y.mod.basis, M + g.extra ≤ N) :
    Elt.lt atoms F coeff (n + 1) x y = Elt.lt atoms' F' coeff' (n + 1) x y := by
  have key : ∀ (z : Elt P R), (64 * 2 ^ n + Nat.clog 2 z.mod.basis.length) * 2 ^ n ≤ M → (∀ g ∈ z.mod.basis, M + g.extra ≤ N) → ∀ k < n + 1,
      z.arb atoms F coeff (n + 1) (64 * 2 ^ k) = z.arb atoms' F' coeff' (n + 1) (64 * 2 ^ k) := by
    intro z hz hN k hk
    have : 64 * 2 ^ k ≤ 64 * 2 ^ n := Nat.mul_le_mul_left _ (Nat.pow_le_pow_right (by norm_num) (by omega))
    exact Elt.arb_local ha hF hc ((Nat.mul_le_mul_right _ (Nat.add_le_add_right this _)).trans hz) hN
  rw [Elt.lt, Elt.lt, Elt.ltLoop_eq_search, Elt.ltLoop_eq_search]
  congr 1
  funext e
  split_ifs
  · rfl
  · refine search_congr fun k hk => ?_
    rw [key x mx (fun g hg => hN g (by simp [hg])) k hk, key y my (fun g hg => hN g (by simp [hg])) k hk]

/-- C88. The same for `floor` and `ceil`. -/
theorem elt_floor_local {x : Elt P R} {n M N : ℕ} (ha : atoms.AgreeUpTo N atoms') (hF : F.AgreeUpTo M F') (hc : AgreeUpTo M coeff coeff')
    (mx : (64 * 2 ^ n + Nat.clog 2 x.mod.basis.length) * 2 ^ n ≤ M) (hN : ∀ g ∈ x.mod.basis, M + g.extra ≤ N) :
    x.floor atoms F coeff (n + 1) = x.floor atoms' F' coeff' (n + 1) ∧ x.ceil atoms F coeff (n + 1) = x.ceil atoms' F' coeff' (n + 1) := by
  have key : ∀ k < n + 1, x.arb atoms F coeff (n + 1) (64 * 2 ^ k) = x.arb atoms' F' coeff' (n + 1) (64 * 2 ^ k) := by
    intro k hk
    have : 64 * 2 ^ k ≤ 64 * 2 ^ n := Nat.mul_le_mul_left _ (Nat.pow_le_pow_right (by norm_num) (by omega))
    exact Elt.arb_local ha hF hc ((Nat.mul_le_mul_right _ (Nat.add_le_add_right this _)).trans mx) hN
  unfold Elt.floor Elt.ceil
  cases x.integer? with
  | some m => exact ⟨rfl, rfl⟩
  | none =>
    simp only [Elt.roundLoop_eq_search]
    constructor <;> exact search_congr fun k hk => by rw [key k hk]

end

/-! ### Precisions fit into a `long` -/

section
variable {P : Type} [DecidableEq P] {R : Type} [CommRing R] [DecidableEq R] [CRing P R] [LawfulCRing P]
variable (atoms : Atoms) {F : Arith} {coeff : ℕ → R → Ball}

theorem enough_large {x : Elt P R} (h0 : x.toBool = false ∨ x.real atoms.vals ≠ 0) (hr : x.mod.basis.length ≤ 2 ^ 20)
    (h : x.size atoms ≤ 2 ^ (2 ^ 29) * |x.real atoms.vals|) : x.Enough atoms 64 24 := by
  rcases h0 with h0 | h0
  · exact .inl h0
  · refine .inr ⟨h0, ?_⟩
    change (2 : ℝ) ^ (64 + 2 * x.mod.basis.length + 9) * x.size atoms ≤ 2 ^ (64 * 2 ^ 24) * |x.real atoms.vals|
    have e : (2 : ℝ) ^ (64 * 2 ^ 24) = 2 ^ (2 ^ 29) * 2 ^ (2 ^ 29) := by rw [← pow_add, show 64 * 2 ^ 24 = 2 ^ 29 + 2 ^ 29 by norm_num]
    rw [e, _root_.mul_assoc]
    exact mul_le_mul (pow_le_pow_right₀ (by norm_num) (by omega)) h (Elt.termsSize_nonneg (P := P) atoms x.terms) (by positivity)

/-- C88. If the terms of the elements do not cancel by more than `2 ^ 29` bits and the elements do not agree in more than `2 ^ 29` bits, then `x < y` returns, and
no precision beyond `2 ^ 56` is ever used: the code computes precisions in `long`s with 64 bits. -/
theorem elt_lt_long [Build] (hF : F.Lawful) (hco : CoeffLawful P coeff) (hac : CoeffAccurate P coeff) {x y : Elt P R} (hx : x.WF) (hy : y.WF)
    (x0 : x.toBool = false ∨ x.real atoms.vals ≠ 0) (y0 : y.toBool = false ∨ y.real atoms.vals ≠ 0)
    (rx : x.mod.basis.length ≤ 2 ^ 20) (ry : y.mod.basis.length ≤ 2 ^ 20) (dx : ∀ g ∈ x.mod.basis ++ y.mod.basis, g.extra ≤ 2 ^ 20)
    (sx : x.size atoms ≤ 2 ^ (2 ^ 29) * |x.real atoms.vals|) (sy : y.size atoms ≤ 2 ^ (2 ^ 29) * |y.real atoms.vals|)
    (h : |x.real atoms.vals| + |y.real atoms.vals| ≤ 2 ^ (2 ^ 29) * |x.real atoms.vals - y.real atoms.vals|)
    (hne : x.real atoms.vals ≠ y.real atoms.vals) {e : Bool} (he : x.eq y = .ok e) :
    ∃ r, (∀ fuel, 25 ≤ fuel → Elt.lt atoms F coeff fuel x y = .ok r) ∧
      ∀ atoms' F' coeff', atoms.AgreeUpTo (2 ^ 56) atoms' → F.AgreeUpTo (2 ^ 56) F' → AgreeUpTo (2 ^ 56) coeff coeff' →
        Elt.lt atoms' F' coeff' 25 x y = .ok r := by
  have e29 : (2 : ℝ) ^ (64 * 2 ^ 24) = 2 ^ (2 ^ 29) * 2 ^ (2 ^ 29) := by rw [← pow_add, show 64 * 2 ^ 24 = 2 ^ 29 + 2 ^ 29 by norm_num]
  have hd : 9 * (|x.real atoms.vals| + |y.real atoms.vals|) < 2 ^ (64 * 2 ^ 24) * |x.real atoms.vals - y.real atoms.vals| := by
    rw [e29, _root_.mul_assoc]
    have h9 : (9 : ℝ) < 2 ^ (2 ^ 29) := lt_of_lt_of_le (by norm_num : (9 : ℝ) < 2 ^ 4) (pow_le_pow_right₀ (by norm_num) (by norm_num))
    have hpos : 0 < |x.real atoms.vals - y.real atoms.vals| := abs_pos.2 (sub_ne_zero.2 hne)
    have hp : (0 : ℝ) < 2 ^ (2 ^ 29) := by positivity
    generalize (2 : ℝ) ^ (2 ^ 29) = K at *
    have := mul_pos hp hpos
    have := mul_lt_mul_of_pos_right h9 this
    linarith
  have hret : ∀ fuel, 25 ≤ fuel → ∃ r, Elt.lt atoms F coeff fuel x y = .ok r := fun fuel hf =>
    elt_lt_effort atoms hF hco hac hx hy (enough_large atoms x0 rx sx) (enough_large atoms y0 ry sy) hd he (by omega) (by omega)
  obtain ⟨r, hr⟩ := hret 25 le_rfl
  refine ⟨r, fun fuel hf => ?_, fun atoms' F' coeff' ha hF' hc' => ?_⟩
  · exact Elt.lt_mono atoms hf hr
  · have hcl : ∀ n ≤ 2 ^ 20, (64 * 2 ^ 24 + Nat.clog 2 n) * 2 ^ 24 ≤ 2 ^ 55 := by
      intro n hn
      have : Nat.clog 2 n ≤ 20 := Nat.clog_le_of_le_pow hn
      omega
    rw [← hr]
    exact (elt_lt_local ha (fun p hp => hF' p (hp.trans (by norm_num))) (fun p hp => hc' p (hp.trans (by norm_num))) (hcl _ rx) (hcl _ ry)
      (fun g hg => by have := dx g hg; omega)).symm

end

/-! ### The theorems apply -/

theorem effort_values : floorX.real floorAtoms.vals = 17 / 2 - 1 / 2 ^ 62 - 2 * (3 / 4 - 1 / 2 ^ 63 + (2 ^ 10 - 1) / 2 ^ 76) ∧
    ceilX.real floorAtoms.vals = -(17 / 2 - 1 / 2 ^ 62 - 2 * (3 / 4 - 1 / 2 ^ 63 + (2 ^ 10 - 1) / 2 ^ 76)) := by
  constructor <;>
  · simp only [Elt.real_eq_termsValue, Elt.termsValue, Elt.terms, floorX, ceilX, floorMod, List.zip_cons_cons, List.zip_nil_right, List.map_cons, List.map_nil,
      List.sum_cons, List.sum_nil, num_int, RN.real_rat, RN.real_atom]
    show _ + (_ * floorDigits.value + 0) = _
    rw [floorDigits_value]
    push_cast
    ring

/-- `17/2 - 2^-62 - 2a` (slightly below 7) and its negative, whose terms cancel a little, meet the hypotheses. -/
example [Build] : ∃ r, (∀ fuel, 25 ≤ fuel → Elt.lt floorAtoms FlintLike.arith IntegerRing.arb fuel floorX ceilX = .ok r) ∧
    ∀ atoms' F' coeff', floorAtoms.AgreeUpTo (2 ^ 56) atoms' → FlintLike.arith.AgreeUpTo (2 ^ 56) F' → AgreeUpTo (2 ^ 56) IntegerRing.arb coeff' →
      Elt.lt atoms' F' coeff' 25 floorX ceilX = .ok r := by
  obtain ⟨w1, w2, -⟩ := elt_floor_fails 0
  obtain ⟨v1, v2⟩ := effort_values
  have hlo : (6 : ℝ) ≤ 17 / 2 - 1 / 2 ^ 62 - 2 * (3 / 4 - 1 / 2 ^ 63 + (2 ^ 10 - 1) / 2 ^ 76) := by norm_num
  generalize (17 : ℝ) / 2 - 1 / 2 ^ 62 - 2 * (3 / 4 - 1 / 2 ^ 63 + (2 ^ 10 - 1) / 2 ^ 76) = v at v1 v2 hlo
  have h2 : (2 : ℝ) ≤ 2 ^ (2 ^ 29) := le_self_pow₀ (by norm_num) (by norm_num)
  have hsize : floorX.size floorAtoms ≤ 12 ∧ ceilX.size floorAtoms ≤ 12 := by
    constructor <;>
    · simp only [Elt.size, Elt.terms, floorX, ceilX, floorMod, List.zip_cons_cons, List.zip_nil_right, List.map_cons, List.map_nil,
        List.sum_cons, List.sum_nil, num_int, RN.real_rat, RN.real_atom]
      show _ + (_ * magnitude floorDigits.value + 0) ≤ _
      rw [floorDigits_value, magnitude, magnitude, if_neg (by norm_num), if_neg (by norm_num)]
      norm_num [abs_of_pos, abs_of_neg]
  have hm : ∀ g ∈ floorX.mod.basis ++ ceilX.mod.basis, g.extra ≤ 2 ^ 20 := by decide
  refine elt_lt_long floorAtoms FlintLike.lawful coeffLawful_int coeffAccurate_int w1 w2 (.inr ?_) (.inr ?_) (by decide) (by decide) hm ?_ ?_ ?_ ?_ (e := false) ?_
  · rw [v1]; linarith
  · rw [v2]; linarith
  · rw [v1, abs_of_pos (by linarith)]; nlinarith [hsize.1]
  · rw [v2, abs_neg, abs_of_pos (by linarith)]; nlinarith [hsize.2]
  · rw [v1, v2, abs_neg, abs_of_pos (by linarith), abs_of_pos (by linarith)]; nlinarith
  · rw [v1, v2]; linarith
  · simp [Elt.eq, floorX, ceilX]

/-- Coefficients in number fields. -/
example : ∃ coeff : ℕ → _ → Ball, CoeffLawful NumberField coeff ∧ CoeffAccurate NumberField coeff := exists_coeffAccurate _

end ExactReal.Props
