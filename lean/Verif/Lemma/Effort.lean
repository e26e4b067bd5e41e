import Verif.Spec.Effort
import Verif.Lemma.ElementOrder
import Verif.Lemma.Coeff

/-! # How far approximations are refined -/

namespace ExactReal

open Arf Ball Filter Topology

theorem magnitude_pos (v : ℝ) : 0 < magnitude v := by
  unfold magnitude; split_ifs with h
  · exact one_pos
  · exact abs_pos.2 h

theorem abs_le_magnitude (v : ℝ) : |v| ≤ magnitude v := by
  unfold magnitude; split_ifs with h
  · rw [h, abs_zero]; exact zero_le_one
  · exact le_rfl

/-- A search ends when there is something to find. -/
theorem search_within {α : Type} {f : ℕ → Out (Option α)} {prec : ℕ} (n : ℕ) (hf : ∀ k ≤ n, ∃ o, f (prec * 2 ^ k) = .ok o)
    (hn : ∃ r, f (prec * 2 ^ n) = .ok (some r)) {fuel : ℕ} (hfuel : n < fuel) : ∃ r, search f fuel prec = .ok r := by
  have : ∀ k, ∃ o, k ≤ n → f (prec * 2 ^ k) = .ok o := by
    intro k
    by_cases hk : k ≤ n
    · obtain ⟨o, ho⟩ := hf k hk
      exact ⟨o, fun _ => ho⟩
    · exact ⟨none, fun h => absurd h hk⟩
  choose g hg using this
  obtain ⟨r, hr⟩ := hn
  have h1 := hg n le_rfl
  rw [hr] at h1
  obtain ⟨r', k, -, -, h⟩ := search_eq n (fun k hk => hg k hk) (by rw [← Out.ok.inj h1]; rfl) hfuel
  exact ⟨r', h⟩

/-- Balls that are far from each other can be compared. -/
theorem Ball.lt_isSome_of_far {a b : Ball} {x y d e : ℝ} {r s : ℚ} (ha : a.rad = some r) (hb : b.rad = some s) (h1 : |x - a.mid| ≤ d) (h2 : |y - b.mid| ≤ e)
    (h : d + r + (e + s) < |x - y|) : ∃ z, a.lt b = some z := by
  rw [abs_le] at h1 h2
  unfold Ball.lt
  rw [allLt, allLe, ha, hb]
  simp only [decide_eq_true_eq]
  rcases abs_cases (x - y) with ⟨e', h0⟩ | ⟨e', h0⟩ <;> rw [e'] at h
  · have : b.mid + s ≤ a.mid - r := by
      have : (b.mid : ℝ) + s ≤ a.mid - r := by linarith
      exact_mod_cast this
    rw [if_pos this]
    split_ifs <;> exact ⟨_, rfl⟩
  · have : a.mid + r < b.mid - s := by
      have : (a.mid : ℝ) + r < b.mid - s := by linarith
      exact_mod_cast this
    rw [if_pos this]
    exact ⟨_, rfl⟩

namespace RN
variable (atoms : Atoms)

/-- The error of the ball of a number. -/
theorem arb_error {x : RN} (hx : x.WF) {prec : ℕ} (hp : 2 ≤ prec) : ∃ r : ℚ, (x.arb atoms prec).rad = some r ∧ 0 ≤ r ∧
    (r : ℝ) ≤ 2 ^ (-(prec : ℤ)) * magnitude (x.real atoms) ∧ |x.real atoms - (x.arb atoms prec).mid| ≤ 3 / 2 * 2 ^ (-(prec : ℤ)) * |x.real atoms| := by
  have h4 := two_pow_neg_le prec hp
  have hp0 := zposR (-(prec : ℤ))
  by_cases h0 : x.real atoms = 0
  · have := real_eq_zero atoms hx h0
    subst this
    rw [h0]
    refine ⟨_, by rw [arb_eq], (two_zpow_pos _).le, ?_, ?_⟩
    · rw [arf_nat, arf_rat_zero, magnitude, if_pos rfl, mul_one]
      push_cast
      exact zmonoR (by simp [Arf.logb])
    · rw [arb_eq, arf_nat, arf_rat_zero]; simp
  · have hpx := abs_nonneg (x.real atoms)
    have hb : |(x.arf atoms prec : ℝ) - x.real atoms| ≤ 3 / 2 * 2 ^ (-(prec : ℤ)) * |x.real atoms| := by
      rw [arf_nat]
      by_cases hprod : ∃ m, x = .prod m
      · obtain ⟨m, rfl⟩ := hprod
        exact prod_rel atoms m prec hp (by have := hx.2; omega)
      · have hg : GoodApprox (x.real atoms) (x.arf_ atoms prec) prec := by
          cases x with
          | rat q => exact goodApprox_rat atoms (by rintro rfl; simp [real_rat] at h0) prec
          | atom i => exact (atoms i).goodApprox prec
          | prod m => exact absurd ⟨m, rfl⟩ hprod
        have := hg.rel
        nlinarith
    have hne : x.arf atoms prec ≠ 0 := by rw [arf_nat]; exact (arf_error atoms hx h0 prec hp).1
    have hr := (Rat.cast_le (K := ℝ)).2 (arb_radius atoms x prec hne)
    obtain ⟨r, hr1, hr2⟩ : ∃ r, (x.arb atoms prec).rad = some r ∧ 0 ≤ r := ⟨_, by rw [arb_eq], (two_zpow_pos _).le⟩
    refine ⟨r, hr1, hr2, ?_, by rw [arb_eq, abs_sub_comm]; exact hb⟩
    rw [radius_eq hr1] at hr
    push_cast at hr
    rw [show -((prec : ℤ) + 1) = -(prec : ℤ) + (-1) by ring, zaddR, show (2 : ℝ) ^ (-1 : ℤ) = 1 / 2 by norm_num] at hr
    rw [magnitude, if_neg h0]
    have h3 := abs_sub_abs_le_abs_sub (x.arf atoms prec : ℝ) (x.real atoms)
    have h5 : |(x.arf atoms prec : ℝ)| ≤ 2 * |x.real atoms| := by nlinarith
    nlinarith

end RN

/-- A product of two balls with small errors. -/
theorem mul_error {F : Arith} (hF : F.Lawful) {prec : ℕ} (hp : 2 ≤ prec) {a b : Ball} {g c s : ℝ} (ha : a.Finite) (hb : b.Finite)
    (hs : |g| ≤ s) (ha1 : (a.radius : ℝ) ≤ 2 ^ (-(prec : ℤ)) * s) (ha2 : |g - a.mid| ≤ 3 / 2 * 2 ^ (-(prec : ℤ)) * |g|)
    (hb1 : (b.radius : ℝ) ≤ 4 * 2 ^ (-(prec : ℤ)) * |c|) (hb2 : |(b.mid : ℝ) - c| ≤ 2 * 2 ^ (-(prec : ℤ)) * |c|) :
    ((F.mul prec a b).radius : ℝ) ≤ 33 * 2 ^ (-(prec : ℤ)) * (|c| * s) ∧ |((F.mul prec a b).mid : ℝ)| ≤ 9 / 2 * (|c| * s) := by
  have h4 := two_pow_neg_le prec hp
  have hp0 := zposR (-(prec : ℤ))
  have hr := (Rat.cast_le (K := ℝ)).2 (hF.mul_radius prec a b hp ha hb)
  have hm := (Rat.cast_le (K := ℝ)).2 (hF.mul_mid prec a b hp)
  push_cast at hr hm
  rw [show (2 : ℝ) ^ (2 - (prec : ℤ)) = 4 * 2 ^ (-(prec : ℤ)) by rw [sub_eq_add_neg, zaddR]; norm_num] at hr
  rw [show (2 : ℝ) ^ (1 - (prec : ℤ)) = 2 * 2 ^ (-(prec : ℤ)) by rw [sub_eq_add_neg, zaddR]; norm_num] at hm
  generalize (2 : ℝ) ^ (-(prec : ℤ)) = u at *
  have hg0 := abs_nonneg g
  have hc0 := abs_nonneg c
  have hs0 : 0 ≤ s := hg0.trans hs
  have hma : |(a.mid : ℝ)| ≤ 2 * s := by
    have := abs_sub_abs_le_abs_sub (a.mid : ℝ) g
    rw [abs_sub_comm] at this
    nlinarith
  have hmb : |(b.mid : ℝ)| ≤ 3 / 2 * |c| := by
    have := abs_sub_abs_le_abs_sub (b.mid : ℝ) c
    nlinarith
  have hra0 : (0 : ℝ) ≤ a.radius := by
    obtain ⟨r, h1, h2⟩ := ha; rw [radius_eq h1]; exact_mod_cast h2
  have hrb0 : (0 : ℝ) ≤ b.radius := by
    obtain ⟨r, h1, h2⟩ := hb; rw [radius_eq h1]; exact_mod_cast h2
  have hT : 0 ≤ |c| * s := mul_nonneg hc0 hs0
  have e1 : |(a.mid : ℝ)| * b.radius ≤ 2 * s * (4 * u * |c|) := mul_le_mul hma hb1 hrb0 (by linarith)
  have e2 : |(b.mid : ℝ)| * a.radius ≤ 3 / 2 * |c| * (u * s) := mul_le_mul hmb ha1 hra0 (by linarith)
  have e3 : (a.radius : ℝ) * b.radius ≤ u * s * (4 * u * |c|) := mul_le_mul ha1 hb1 hrb0 (by positivity)
  have e4 : |(a.mid : ℝ) * b.mid| ≤ 2 * s * (3 / 2 * |c|) := by rw [abs_mul]; exact mul_le_mul hma hmb (abs_nonneg _) (by linarith)
  have e5 : u * u ≤ 1 / 4 * u := mul_le_mul_of_nonneg_right h4 hp0.le
  have e6 := mul_le_mul_of_nonneg_right e5 hT
  have e7 := mul_le_mul_of_nonneg_left e4 (show 0 ≤ 4 * u by linarith)
  constructor
  · nlinarith
  · have h1 := abs_sub_abs_le_abs_sub ((F.mul prec a b).mid : ℝ) (a.mid * b.mid)
    have h2 := mul_le_mul_of_nonneg_right h4 (abs_nonneg ((a.mid : ℝ) * b.mid))
    nlinarith

/-- A sum of two balls. -/
theorem add_error {F : Arith} (hF : F.Lawful) {prec : ℕ} (hp : 2 ≤ prec) {a b : Ball} {M T ρ : ℝ} (ha : a.Finite) (hb : b.Finite)
    (ha1 : (a.radius : ℝ) ≤ ρ) (ha2 : |(a.mid : ℝ)| ≤ M) (hb1 : (b.radius : ℝ) ≤ 33 * 2 ^ (-(prec : ℤ)) * T) (hb2 : |(b.mid : ℝ)| ≤ 9 / 2 * T) :
    ((F.add prec a b).radius : ℝ) ≤ 2 * ρ + 2 ^ (-(prec : ℤ)) * (4 * M + 84 * T) ∧ |((F.add prec a b).mid : ℝ)| ≤ 2 * (M + 5 * T) := by
  have h4 := two_pow_neg_le prec hp
  have hp0 := zposR (-(prec : ℤ))
  have hr := (Rat.cast_le (K := ℝ)).2 (hF.add_radius prec a b hp ha hb)
  have hm := (Rat.cast_le (K := ℝ)).2 (hF.add_mid prec a b hp)
  push_cast at hr hm
  rw [show (2 : ℝ) ^ (2 - (prec : ℤ)) = 4 * 2 ^ (-(prec : ℤ)) by rw [sub_eq_add_neg, zaddR]; norm_num] at hr
  rw [show (2 : ℝ) ^ (1 - (prec : ℤ)) = 2 * 2 ^ (-(prec : ℤ)) by rw [sub_eq_add_neg, zaddR]; norm_num] at hm
  generalize (2 : ℝ) ^ (-(prec : ℤ)) = u at *
  have h1 : |(a.mid : ℝ) + b.mid| ≤ M + 9 / 2 * T := (abs_add_le _ _).trans (by linarith)
  have h0 := abs_nonneg ((a.mid : ℝ) + b.mid)
  have hM : 0 ≤ M := (abs_nonneg _).trans ha2
  have hT : 0 ≤ 9 / 2 * T := (abs_nonneg _).trans hb2
  have h2 := mul_le_mul_of_nonneg_left h1 (show 0 ≤ 4 * u by linarith)
  have h3 := mul_le_mul_of_nonneg_right h4 h0
  have h5 := abs_sub_abs_le_abs_sub ((F.add prec a b).mid : ℝ) (a.mid + b.mid)
  constructor
  · nlinarith
  · nlinarith

namespace Elt
variable {P : Type} [DecidableEq P] {R : Type} [CommRing R] [DecidableEq R] [CRing P R] [LawfulCRing P]
variable (atoms : Atoms) {F : Arith} {coeff : ℕ → R → Ball}

/-- The size of a list of terms. -/
noncomputable def termsSize (P : Type) [DecidableEq P] {R : Type} [CommRing R] [DecidableEq R] [CRing P R] [LawfulCRing P] (atoms : Atoms)
    (ts : List (RN × R)) : ℝ := (ts.map fun t => |num P t.2| * magnitude (t.1.real atoms)).sum

theorem termsSize_nonneg (ts : List (RN × R)) : 0 ≤ termsSize P atoms ts := by
  refine List.sum_nonneg fun a ha => ?_
  obtain ⟨t, -, rfl⟩ := List.mem_map.1 ha
  exact mul_nonneg (abs_nonneg _) (magnitude_pos _).le

theorem arbSum_error (hF : F.Lawful) (hco : CoeffLawful P coeff) (hac : CoeffAccurate P coeff) {prec : ℕ} (hp : 2 ≤ prec) (ts : List (RN × R))
    (hg : ∀ t ∈ ts, t.1.WF) {b : Ball} {ρ M : ℝ} (hb : b.Finite) (h1 : (b.radius : ℝ) ≤ ρ) (h2 : |(b.mid : ℝ)| ≤ M) :
    (arbSum atoms F coeff prec b ts).Finite ∧
      ((arbSum atoms F coeff prec b ts).radius : ℝ) ≤ 4 ^ ts.length * (ρ + 9 * 2 ^ (-(prec : ℤ)) * (M + 5 * termsSize P atoms ts)) := by
  induction ts generalizing b ρ M with
  | nil =>
    refine ⟨hb, h1.trans ?_⟩
    have hM : 0 ≤ M := (abs_nonneg _).trans h2
    have := zposR (-(prec : ℤ))
    simp only [List.length_nil, pow_zero, one_mul, termsSize, List.map_nil, List.sum_nil, mul_zero, add_zero]
    have : 0 ≤ 9 * (2 : ℝ) ^ (-(prec : ℤ)) * M := by positivity
    linarith
  | cons t ts ih =>
    obtain ⟨g, k⟩ := t
    rw [arbSum]
    have hM : 0 ≤ M := (abs_nonneg _).trans h2
    obtain ⟨r, r1, r2, r3, r4⟩ := RN.arb_error atoms (hg (g, k) (by simp)) hp
    have gf : (g.arb atoms prec).Finite := ⟨r, r1, r2⟩
    have c1 := hac.radius prec k hp
    have c2 := hac.mid prec k hp
    rw [show (2 : ℝ) ^ (2 - (prec : ℤ)) = 4 * 2 ^ (-(prec : ℤ)) by rw [sub_eq_add_neg, zaddR]; norm_num] at c1
    rw [show (2 : ℝ) ^ (1 - (prec : ℤ)) = 2 * 2 ^ (-(prec : ℤ)) by rw [sub_eq_add_neg, zaddR]; norm_num] at c2
    obtain ⟨m1, m2⟩ := mul_error hF hp gf (hco.finite prec k) (abs_le_magnitude _) (by rw [radius_eq r1]; exact r3) r4 c1 c2
    have mf := hF.mul_finite prec _ _ gf (hco.finite prec k)
    obtain ⟨a1, a2⟩ := add_error hF hp hb mf h1 h2 m1 m2
    have af := hF.add_finite prec _ _ hb mf
    obtain ⟨i1, i2⟩ := ih (fun t ht => hg t (by simp [ht])) af a1 a2
    refine ⟨i1, i2.trans ?_⟩
    have e : termsSize P atoms ((g, k) :: ts) = |num P k| * magnitude (g.real atoms) + termsSize P atoms ts := by
      simp [termsSize]
    have hT : 0 ≤ |num P k| * magnitude (g.real atoms) := mul_nonneg (abs_nonneg _) (magnitude_pos _).le
    have hS := termsSize_nonneg (P := P) atoms ts
    have hρ : 0 ≤ ρ := by
      refine le_trans ?_ h1
      obtain ⟨r, h1, h2⟩ := hb; rw [radius_eq h1]; exact_mod_cast h2
    have hpow : (0 : ℝ) ≤ 4 ^ ts.length := by positivity
    have hz : ∀ z : ℝ, (4 : ℝ) ^ (ts.length + 1) * z = 4 ^ ts.length * (4 * z) := fun z => by ring
    rw [e, List.length_cons, hz]
    refine mul_le_mul_of_nonneg_left ?_ hpow
    have hu := (zposR (-(prec : ℤ))).le
    generalize (2 : ℝ) ^ (-(prec : ℤ)) = u at hu ⊢
    have := mul_nonneg hu hT
    have := mul_nonneg hu hS
    have := mul_nonneg hu hM
    nlinarith

/-- The accuracy is reached as soon as the precision makes up for the cancellation. -/
theorem arbSum_accuracy (hF : F.Lawful) (hco : CoeffLawful P coeff) (hac : CoeffAccurate P coeff) {A prec : ℕ} (hA : 1 ≤ A) (hp : 2 ≤ prec) {x : Elt P R}
    (hx : x.WF) (h0 : x.real atoms.vals ≠ 0)
    (h : (2 : ℝ) ^ (A + 2 * x.mod.basis.length + 9) * x.size atoms ≤ 2 ^ prec * |x.real atoms.vals|) :
    (arbSum atoms F coeff prec (exact 0) x.terms).hasAccuracy A = true := by
  have hg : ∀ t ∈ x.terms, t.1.WF := fun t ht => hx.mod.gens _ (List.of_mem_zip ht).1
  obtain ⟨⟨r, h1, h2⟩, h3⟩ := arbSum_error atoms hF hco hac hp x.terms hg (finite_exact 0) (ρ := 0) (M := 0) (by simp [exact, Ball.radius]) (by simp [exact])
  have hn : Near 5 (arbSum atoms F coeff prec (exact 0) x.terms) (x.real atoms.vals) := by
    have := arbSum_near atoms hF hco (c := 5) (by norm_num) prec x.terms (fun t ht => (RN.arb_near atoms (hg t ht) hp).1) (near_exact 5 0)
    simpa [real_eq_termsValue] using this
  obtain ⟨r', h4, -, h5⟩ := hn
  rw [h1] at h4; cases h4
  rw [radius_eq h1] at h3
  simp only [zero_add] at h3
  have hlen : x.terms.length ≤ x.mod.basis.length := by simp [terms]
  have hS := termsSize_nonneg (P := P) atoms x.terms
  have hS' : x.size atoms = termsSize P atoms x.terms := rfl
  rw [hS'] at h
  have hr0 : (0 : ℝ) ≤ r := by exact_mod_cast h2
  have key : 2 ^ (A + 3) * (r : ℝ) ≤ |x.real atoms.vals| := by
    have hpw : (2 : ℝ) ^ (-(prec : ℤ)) = (2 ^ prec)⁻¹ := by rw [zpow_neg, zpow_natCast]
    have hpos : (0 : ℝ) < 2 ^ prec := by positivity
    have e1 : (4 : ℝ) ^ x.terms.length ≤ 2 ^ (2 * x.mod.basis.length) := by
      rw [pow_mul, show (2 : ℝ) ^ 2 = 4 by norm_num]
      exact pow_le_pow_right₀ (by norm_num) hlen
    have e2 : (r : ℝ) ≤ 2 ^ (2 * x.mod.basis.length) * (64 * (2 ^ prec)⁻¹ * termsSize P atoms x.terms) := by
      refine h3.trans ?_
      rw [hpw]
      refine mul_le_mul e1 ?_ (by positivity) (by positivity)
      have : 0 ≤ (2 ^ prec : ℝ)⁻¹ * termsSize P atoms x.terms := by positivity
      nlinarith
    have e3 : 2 ^ (A + 3) * (r : ℝ) ≤ 2 ^ (A + 2 * x.mod.basis.length + 9) * termsSize P atoms x.terms * (2 ^ prec)⁻¹ := by
      refine (mul_le_mul_of_nonneg_left e2 (by positivity)).trans (le_of_eq ?_)
      rw [show A + 2 * x.mod.basis.length + 9 = (A + 3) + 2 * x.mod.basis.length + 6 by ring, pow_add _ _ 6, pow_add _ (A + 3)]
      norm_num; ring
    refine e3.trans ?_
    rw [← div_eq_mul_inv, div_le_iff₀ hpos]
    linarith
  have hA4 : (16 : ℝ) ≤ 2 ^ (A + 3) := by
    calc (16 : ℝ) = 2 ^ 4 := by norm_num
      _ ≤ _ := pow_le_pow_right₀ (by norm_num) (by omega)
  have hmid : |x.real atoms.vals| - 5 * r ≤ |((arbSum atoms F coeff prec (exact 0) x.terms).mid : ℝ)| := by
    have := abs_sub_abs_le_abs_sub (x.real atoms.vals) ((arbSum atoms F coeff prec (exact 0) x.terms).mid : ℝ)
    linarith
  have hx0 : 0 < |x.real atoms.vals| := abs_pos.2 h0
  have h16 := mul_le_mul_of_nonneg_right hA4 hr0
  have hmid2 : 2 ^ (A + 2) * (r : ℝ) ≤ |((arbSum atoms F coeff prec (exact 0) x.terms).mid : ℝ)| := by
    rw [show A + 3 = (A + 2) + 1 by ring, pow_succ] at key h16
    nlinarith
  refine Ball.le_accuracy h1 h2 ?_ ?_
  · intro h
    rw [h, Rat.cast_zero, abs_zero] at hmid
    nlinarith
  · have : (r : ℝ) ≤ 2 ^ (-(A : ℤ) - 2) * |((arbSum atoms F coeff prec (exact 0) x.terms).mid : ℝ)| := by
      rw [show -(A : ℤ) - 2 = -((A + 2 : ℕ) : ℤ) by push_cast; ring, zpow_neg, zpow_natCast, inv_mul_eq_div, le_div_iff₀ (by positivity)]
      linarith
    rw [← Rat.cast_le (K := ℝ)]
    push_cast
    exact this

end Elt

/-! ### The contract with rates -/

theorem coeffAccurate_int : CoeffAccurate IntegerRing IntegerRing.arb where
  mid prec c _ := by
    rw [num_int]
    simp only [IntegerRing.arb, exact, sub_self, abs_zero]
    positivity
  radius prec c _ := by
    simp only [IntegerRing.arb, exact, Ball.radius, Option.getD_some, Rat.cast_zero]
    positivity

theorem coeffAccurate_rat {F : Arith} (hF : F.Lawful) : CoeffAccurate RationalField (RationalField.arb F) where
  mid prec c hp := by
    rw [num_rat]
    have := (Rat.cast_le (K := ℝ)).2 (hF.ofRat_mid prec c hp)
    push_cast at this
    exact this
  radius prec c hp := by
    rw [num_rat]
    have := (Rat.cast_le (K := ℝ)).2 (hF.ofRat_radius prec c hp)
    push_cast at this
    exact this

/-- There are such balls for the elements of number fields, too. -/
theorem exists_coeffAccurate (P : Type) [DecidableEq P] {R : Type} [CommRing R] [DecidableEq R] [CRing P R] [LawfulCRing P] :
    ∃ coeff : ℕ → R → Ball, CoeffLawful P coeff ∧ CoeffAccurate P coeff := by
  have h : ∀ (n : ℕ) (x : ℝ), ∃ q r : ℚ, 0 ≤ r ∧ (r : ℝ) ≤ 2 ^ (-(n : ℤ)) * |x| ∧ |x - q| ≤ r := by
    intro n x
    by_cases hx : x = 0
    · exact ⟨0, 0, le_rfl, by simp [hx], by simp [hx]⟩
    · obtain ⟨r, h1, h2⟩ := exists_rat_btwn (show (0 : ℝ) < 2 ^ (-(n : ℤ)) * |x| from mul_pos (zposR _) (abs_pos.2 hx))
      obtain ⟨q, hq⟩ := exists_rat_near x h1
      exact ⟨q, r, by exact_mod_cast h1.le, h2.le, hq.le⟩
  choose q r hr0 hr hq using h
  refine ⟨fun n c => ⟨q n (Elt.num P c), some (r n (Elt.num P c))⟩, ⟨fun n c => ?_, fun n c => ⟨_, rfl, hr0 _ _⟩, fun c => ?_⟩, ⟨fun n c _ => ?_, fun n c _ => ?_⟩⟩
  · rw [contains_iff rfl]; exact hq n _
  · have ht : Tendsto (fun n : ℕ => (2 : ℝ) ^ (-(n : ℤ)) * |Elt.num P c|) atTop (𝓝 0) := by
      have := (zpow_neg_tendsto 0).mul_const |Elt.num P c|
      simpa using this
    exact Tends.mk' (Eventually.of_forall fun n => ⟨_, rfl, hr0 _ _⟩) (Eventually.of_forall fun n => hr n _) ht
      (Eventually.of_forall fun n => by rw [abs_sub_comm]; exact (hq n _).trans (hr n _)) ht
  · rw [abs_sub_comm]
    refine (hq n _).trans ((hr n _).trans (mul_le_mul_of_nonneg_right (zmonoR (by omega)) (abs_nonneg _)))
  · exact (hr n _).trans (mul_le_mul_of_nonneg_right (zmonoR (by omega)) (abs_nonneg _))

/-! ### More iterations do not change the results -/

theorem search_mono_of {α : Type} {f g : ℕ → Out (Option α)} (h : ∀ p o, f p = .ok o → g p = .ok o) : ∀ {n m prec : ℕ} {r : α}, n ≤ m →
    search f n prec = .ok r → search g m prec = .ok r
  | 0, _, _, _, _, hr => by cases hr
  | n + 1, 0, _, _, hm, _ => by omega
  | n + 1, m + 1, prec, r, hm, hr => by
    rw [search] at hr ⊢
    cases hf : f prec with
    | ok o =>
      rw [hf] at hr
      rw [h prec o hf]
      cases o with
      | some r' => exact hr
      | none => exact search_mono_of h (by omega) hr
    | _ => rw [hf] at hr; cases hr

namespace Elt
variable {P : Type} [DecidableEq P] {R : Type} [CommRing R] [DecidableEq R] [CRing P R]
variable (atoms : Atoms) {F : Arith} {coeff : ℕ → R → Ball}

theorem arb_mono {n m A : ℕ} (h : n ≤ m) {x : Elt P R} {b : Ball} (hb : x.arb atoms F coeff n A = .ok b) : x.arb atoms F coeff m A = .ok b := by
  rw [arb] at hb ⊢
  split_ifs at hb ⊢ with h0
  · exact hb
  · rw [arbLoop_eq_search] at hb ⊢
    exact search_mono_of (fun _ _ h => h) h hb

theorem lt_mono [Build] {n m : ℕ} (h : n ≤ m) {x y : Elt P R} {r : Bool} (hr : lt atoms F coeff n x y = .ok r) : lt atoms F coeff m x y = .ok r := by
  rw [lt] at hr ⊢
  obtain ⟨e, h1, h2⟩ := Out.bind_eq_ok.1 hr
  rw [h1, Out.ok_bind]
  split_ifs at h2 ⊢ with h0
  · exact h2
  · rw [ltLoop_eq_search] at h2 ⊢
    refine search_mono_of (fun p o ho => ?_) h h2
    obtain ⟨a, a1, a2⟩ := Out.bind_eq_ok.1 ho
    obtain ⟨b, b1, b2⟩ := Out.bind_eq_ok.1 a2
    rw [arb_mono atoms h a1, Out.ok_bind, arb_mono atoms h b1, Out.ok_bind]
    exact b2

end Elt

/-! ### Nothing is approximated with more bits -/

theorem search_congr {α : Type} {f g : ℕ → Out (Option α)} : ∀ {n prec : ℕ}, (∀ k < n, f (prec * 2 ^ k) = g (prec * 2 ^ k)) → search f n prec = search g n prec
  | 0, _, _ => rfl
  | n + 1, prec, h => by
    have h0 := h 0 (by omega)
    rw [pow_zero, mul_one] at h0
    have := search_congr (f := f) (g := g) (n := n) (prec := prec * 2) fun k hk => by
      have := h (k + 1) (by omega)
      rwa [pow_succ', ← mul_assoc] at this
    rw [search, search, h0, this]

namespace RN

theorem arf_local {atoms atoms' : Atoms} {M p : ℕ} (h : atoms.AgreeUpTo M atoms') {x : RN} (hM : p + x.extra ≤ M) : x.arf_ atoms p = x.arf_ atoms' p := by
  cases x with
  | rat q => rfl
  | atom i => exact h i p ((Nat.le_add_right _ _).trans hM)
  | prod m =>
    rw [arf_, arf_]
    congr 1
    unfold prodLoop
    congr 1
    funext ret q
    rw [h q.1 (workingPrec p (m.map Prod.snd).sum) hM]

theorem arb_local {atoms atoms' : Atoms} {M p : ℕ} (h : atoms.AgreeUpTo M atoms') {x : RN} (hM : p + x.extra ≤ M) : x.arb atoms p = x.arb atoms' p := by
  rw [arb_eq, arb_eq, arf_nat, arf_nat, arf_local h hM]

end RN

namespace Elt
variable {P : Type} [DecidableEq P] {R : Type} [CommRing R] [DecidableEq R] [CRing P R]
variable {atoms atoms' : Atoms} {F F' : Arith} {coeff coeff' : ℕ → R → Ball}

omit [CommRing R] [DecidableEq R] in
theorem arbSum_local {M p N : ℕ} (ha : atoms.AgreeUpTo N atoms') (hF : F.AgreeUpTo M F') (hc : AgreeUpTo M coeff coeff') (hp : p ≤ M) (ts : List (RN × R))
    (hN : ∀ t ∈ ts, p + t.1.extra ≤ N) : ∀ b, arbSum atoms F coeff p b ts = arbSum atoms' F' coeff' p b ts := by
  induction ts with
  | nil => intro b; rfl
  | cons t ts ih =>
    obtain ⟨g, c⟩ := t
    intro b
    rw [arbSum, arbSum, ih (fun t ht => hN t (by simp [ht])), (hF p hp).1, (hF p hp).2.1, hc p hp, RN.arb_local ha (hN (g, c) (by simp))]

theorem arb_local {M N n A : ℕ} (ha : atoms.AgreeUpTo N atoms') (hF : F.AgreeUpTo M F') (hc : AgreeUpTo M coeff coeff') {x : Elt P R}
    (hM : (A + Nat.clog 2 x.mod.basis.length) * 2 ^ n ≤ M) (hN : ∀ g ∈ x.mod.basis, M + g.extra ≤ N) :
    x.arb atoms F coeff (n + 1) A = x.arb atoms' F' coeff' (n + 1) A := by
  rw [arb, arb]
  split_ifs
  · rfl
  · rw [arbLoop_eq_search, arbLoop_eq_search]
    refine search_congr fun k hk => ?_
    have : (A + Nat.clog 2 x.mod.basis.length) * 2 ^ k ≤ M := (Nat.mul_le_mul_left _ (Nat.pow_le_pow_right (by norm_num) (by omega))).trans hM
    rw [arbSum_local ha hF hc this x.terms fun t ht => (Nat.add_le_add_right this _).trans (hN t.1 (List.of_mem_zip ht).1)]

end Elt

end ExactReal
