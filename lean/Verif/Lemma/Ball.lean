import Verif.Spec.Ball
import Verif.Lemma.ArfError

/-! # Balls: containment, inflated containment, accuracy -/

namespace ExactReal

open Arf Filter Topology

namespace Ball

/-- `x` is at most `c` radii away from the midpoint. -/
def Near (c : ℝ) (b : Ball) (x : ℝ) : Prop := ∃ r : ℚ, b.rad = some r ∧ 0 ≤ r ∧ |x - b.mid| ≤ c * r

theorem Near.mono {c d : ℝ} {b : Ball} {x : ℝ} (h : Near c b x) (hcd : c ≤ d) : Near d b x := by
  obtain ⟨r, h1, h2, h3⟩ := h
  have : (0 : ℝ) ≤ r := by exact_mod_cast h2
  exact ⟨r, h1, h2, h3.trans (mul_le_mul_of_nonneg_right hcd this)⟩

theorem Near.finite {c : ℝ} {b : Ball} {x : ℝ} (h : Near c b x) : b.Finite := by
  obtain ⟨r, h1, h2, -⟩ := h; exact ⟨r, h1, h2⟩

theorem Contains.near {b : Ball} {x : ℝ} (h : b.Contains x) (hf : b.Finite) : Near 1 b x := by
  obtain ⟨r, h1, h2⟩ := hf
  refine ⟨r, h1, h2, ?_⟩
  rw [Contains, h1] at h; simpa using h

theorem Near.contains {b : Ball} {x : ℝ} (h : Near 1 b x) : b.Contains x := by
  obtain ⟨r, h1, h2, h3⟩ := h
  rw [Contains, h1]; simpa using h3

theorem contains_iff {b : Ball} {r : ℚ} (h : b.rad = some r) (x : ℝ) : b.Contains x ↔ |x - b.mid| ≤ r := by
  rw [Contains, h]

theorem contains_exact (q : ℚ) (x : ℝ) : (exact q).Contains x ↔ x = q := by
  rw [contains_iff rfl]; simp [exact, sub_eq_zero]

theorem finite_exact (q : ℚ) : (exact q).Finite := ⟨0, rfl, le_rfl⟩

theorem near_exact (c : ℝ) (q : ℚ) : Near c (exact q) q := ⟨0, rfl, le_rfl, by simp [exact]⟩

theorem contains_zeroPmInf (x : ℝ) : zeroPmInf.Contains x := trivial

theorem radius_eq {b : Ball} {r : ℚ} (h : b.rad = some r) : b.radius = r := by simp [radius, h]

/-- A ball that contains two points has a large radius. -/
theorem two_points {b : Ball} {r : ℚ} (h : b.rad = some r) {m s : ℝ} (h1 : b.Contains (m - s)) (h2 : b.Contains (m + s)) :
    |m - b.mid| + s ≤ r := by
  rw [contains_iff h, abs_le] at h1 h2
  rcases abs_cases (m - (b.mid : ℝ)) with ⟨e, -⟩ | ⟨e, -⟩ <;> rw [e] <;> linarith

end Ball

open Ball

variable {F : Arith}

/-- Inflated containment is preserved by multiplication. -/
theorem Arith.Lawful.mul_near (hF : F.Lawful) {c : ℝ} (hc : 1 ≤ c) (prec : ℕ) {a b : Ball} {x y : ℝ} (ha : Near c a x)
    (hb : b.Contains y) (hbf : b.Finite) : Near c (F.mul prec a b) (x * y) := by
  obtain ⟨r, hr⟩ := hF.mul_finite prec a b ha.finite hbf
  obtain ⟨ra, h1, h2, h3⟩ := ha
  refine ⟨r, hr.1, hr.2, ?_⟩
  have h2' : (0 : ℝ) ≤ ra := by exact_mod_cast h2
  have c1 : a.Contains (a.mid - ra) := by
    rw [contains_iff h1]; rw [show (a.mid : ℝ) - ra - a.mid = -ra by ring, abs_neg, abs_of_nonneg h2']
  have c2 : a.Contains (a.mid + ra) := by
    rw [contains_iff h1]; rw [show (a.mid : ℝ) + ra - a.mid = ra by ring, abs_of_nonneg h2']
  have d1 := hF.mul_contains prec a b _ y c1 hb
  have d2 := hF.mul_contains prec a b _ y c2 hb
  have key : |a.mid * y - (F.mul prec a b).mid| + ra * |y| ≤ r := by
    rcases le_total 0 y with hy | hy
    · rw [abs_of_nonneg hy]
      exact two_points hr.1 (by convert d1 using 1; ring) (by convert d2 using 1; ring)
    · rw [abs_of_nonpos hy]
      exact two_points hr.1 (by convert d2 using 1; ring) (by convert d1 using 1; ring)
  have t := abs_sub_le (x * y) (a.mid * y) (F.mul prec a b).mid
  rw [show x * y - a.mid * y = (x - a.mid) * y by ring, abs_mul] at t
  have h4 := mul_le_mul_of_nonneg_right h3 (abs_nonneg y)
  have h5 := mul_le_mul_of_nonneg_left key (by linarith : (0 : ℝ) ≤ c)
  have h6 : |a.mid * y - (F.mul prec a b).mid| ≤ c * |a.mid * y - (F.mul prec a b).mid| := by
    have := abs_nonneg (a.mid * y - (F.mul prec a b).mid); nlinarith
  nlinarith

/-- Inflated containment is preserved by addition. -/
theorem Arith.Lawful.add_near (hF : F.Lawful) {c : ℝ} (hc : 1 ≤ c) (prec : ℕ) {a b : Ball} {x y : ℝ} (ha : Near c a x)
    (hb : Near c b y) : Near c (F.add prec a b) (x + y) := by
  obtain ⟨r, hr⟩ := hF.add_finite prec a b ha.finite hb.finite
  obtain ⟨ra, h1, h2, h3⟩ := ha
  obtain ⟨rb, k1, k2, k3⟩ := hb
  refine ⟨r, hr.1, hr.2, ?_⟩
  have h2' : (0 : ℝ) ≤ ra := by exact_mod_cast h2
  have k2' : (0 : ℝ) ≤ rb := by exact_mod_cast k2
  have c1 : a.Contains (a.mid - ra) := by
    rw [contains_iff h1]; rw [show (a.mid : ℝ) - ra - a.mid = -ra by ring, abs_neg, abs_of_nonneg h2']
  have c2 : a.Contains (a.mid + ra) := by
    rw [contains_iff h1]; rw [show (a.mid : ℝ) + ra - a.mid = ra by ring, abs_of_nonneg h2']
  have e1 : b.Contains (b.mid - rb) := by
    rw [contains_iff k1]; rw [show (b.mid : ℝ) - rb - b.mid = -rb by ring, abs_neg, abs_of_nonneg k2']
  have e2 : b.Contains (b.mid + rb) := by
    rw [contains_iff k1]; rw [show (b.mid : ℝ) + rb - b.mid = rb by ring, abs_of_nonneg k2']
  have d1 := hF.add_contains prec a b _ _ c1 e1
  have d2 := hF.add_contains prec a b _ _ c2 e2
  have key : |(a.mid + b.mid : ℝ) - (F.add prec a b).mid| + (ra + rb) ≤ (r : ℝ) :=
    two_points (m := a.mid + b.mid) (s := ra + rb) hr.1 (by convert d1 using 1; ring) (by convert d2 using 1; ring)
  have t := abs_sub_le (x + y) ((a.mid : ℝ) + b.mid) (F.add prec a b).mid
  have t2 := abs_add_le (x - a.mid) (y - b.mid)
  rw [show x - (a.mid : ℝ) + (y - b.mid) = x + y - (a.mid + b.mid) by ring] at t2
  have h5 := mul_le_mul_of_nonneg_left key (by linarith : (0 : ℝ) ≤ c)
  have h6 := abs_nonneg ((a.mid : ℝ) + b.mid - (F.add prec a b).mid)
  nlinarith

/-! ### accuracy -/

theorem Ball.accuracy_spec {b : Ball} {p : ℤ} (h : b.hasAccuracy p = true) : ∃ r, b.rad = some r ∧ (0 ≤ r → r ≤ 2 ^ (-p) * |b.mid|) := by
  unfold hasAccuracy at h
  cases hr : b.rad with
  | none => rw [hr] at h; cases h
  | some r =>
    rw [hr] at h
    refine ⟨r, rfl, fun h0 => ?_⟩
    simp only [Bool.or_eq_true, Bool.and_eq_true, decide_eq_true_eq] at h
    rcases h with h1 | ⟨h2, h⟩
    · rw [h1]; positivity
    · have h3 := abs_lt_zpow r
      rw [abs_of_nonneg h0] at h3
      have h4 := zpow_le_abs h2
      calc r ≤ 2 ^ (Int.log 2 r + 1) := h3.le
        _ ≤ 2 ^ (-p + Int.log 2 |b.mid|) := zpow_mono (by omega)
        _ = 2 ^ (-p) * 2 ^ Int.log 2 |b.mid| := zadd _ _
        _ ≤ _ := mul_le_mul_of_nonneg_left h4 (two_zpow_pos _).le

/-- A small enough radius yields the accuracy. -/
theorem Ball.le_accuracy {b : Ball} {r : ℚ} (h : b.rad = some r) (h0 : 0 ≤ r) (hm : b.mid ≠ 0) {p : ℤ}
    (hr : r ≤ 2 ^ (-p - 2) * |b.mid|) : b.hasAccuracy p = true := by
  unfold hasAccuracy
  rw [h]
  simp only [Bool.or_eq_true, Bool.and_eq_true, decide_eq_true_eq]
  by_cases h1 : r = 0
  · exact .inl h1
  · refine .inr ⟨hm, ?_⟩
    have hr0 : 0 < r := lt_of_le_of_ne h0 (Ne.symm h1)
    have h3 : r < 2 ^ (-p - 2 + (Int.log 2 |b.mid| + 1)) := by
      rw [zadd]
      exact hr.trans_lt (mul_lt_mul_of_pos_left (abs_lt_zpow _) (two_zpow_pos _))
    have := log_lt h1 (show |r| < _ by rwa [abs_of_pos hr0])
    rw [abs_of_pos hr0] at this
    omega

theorem Ball.hasAccuracy_mono {b : Ball} {p q : ℤ} (hpq : p ≤ q) (h : b.hasAccuracy q = true) : b.hasAccuracy p = true := by
  unfold hasAccuracy at h ⊢
  cases hr : b.rad with
  | none => rw [hr] at h; cases h
  | some r =>
    rw [hr] at h
    simp only [Bool.or_eq_true, Bool.and_eq_true, decide_eq_true_eq] at h ⊢
    rcases h with h | ⟨h1, h2⟩
    · exact .inl h
    · exact .inr ⟨h1, by omega⟩

theorem Ball.hasAccuracy_zeroPmInf (p : ℤ) : zeroPmInf.hasAccuracy p = false := rfl

/-! ### the balls of real numbers -/

namespace RN
variable (atoms : Atoms)

theorem real_eq_zero {x : RN} (hx : x.WF) (h : x.real atoms = 0) : x = .rat 0 := by
  cases x with
  | rat q => rw [real_rat] at h; rw [show q = 0 by exact_mod_cast h]
  | atom i =>
    obtain ⟨K, -, h2, -⟩ := (atoms i).goodApprox 2
    rw [real_atom] at h
    rw [h, abs_zero] at h2; exact absurd h2 (not_le.2 (zposR K))
  | prod m =>
    exfalso
    rw [real_prod, Mono.value, List.prod_eq_zero_iff, List.mem_map] at h
    obtain ⟨p, -, h⟩ := h
    have hz : (atoms p.1).value = 0 := eq_zero_of_pow_eq_zero h
    obtain ⟨K, -, h2, -⟩ := (atoms p.1).goodApprox 2
    rw [hz, abs_zero] at h2; exact absurd h2 (not_le.2 (zposR K))

theorem arb_eq (x : RN) (prec : ℕ) :
    x.arb atoms prec = ⟨x.arf atoms prec, some (2 ^ (Arf.logb (x.arf atoms prec) - (prec + 1)))⟩ := by
  rw [arb, refine, if_neg (by rw [Ball.hasAccuracy_zeroPmInf]; simp)]

theorem arf_nat (x : RN) (prec : ℕ) : x.arf atoms prec = x.arf_ atoms prec := by simp [arf]

/-- The number is within five radii of the midpoint, within two if it is not a product. -/
theorem arb_near {x : RN} (hx : x.WF) {prec : ℕ} (hp : 2 ≤ prec) :
    Near 5 (x.arb atoms prec) (x.real atoms) ∧ ((∀ m, x ≠ .prod m) → Near 2 (x.arb atoms prec) (x.real atoms)) := by
  by_cases h0 : x.real atoms = 0
  · have := real_eq_zero atoms hx h0
    subst this
    have hn : ∀ c : ℝ, 0 ≤ c → Near c ((RN.rat 0).arb atoms prec) ((RN.rat 0).real atoms) := by
      intro c hc
      rw [arb_eq, arf_nat, arf_rat_zero]
      refine ⟨_, rfl, (two_zpow_pos _).le, ?_⟩
      rw [real_rat]
      simp only [Rat.cast_zero, sub_zero, abs_zero]
      push_cast; positivity
    exact ⟨hn 5 (by norm_num), fun _ => hn 2 (by norm_num)⟩
  · obtain ⟨h1, h2⟩ := arf_error atoms hx h0 prec hp
    rw [arb_eq, arf_nat, Arf.logb, if_neg h1]
    refine ⟨⟨_, rfl, (two_zpow_pos _).le, ?_⟩, fun hnp => ⟨_, rfl, (two_zpow_pos _).le, ?_⟩⟩
    · push_cast; exact h2
    · have good : ∀ {y : ℝ} {a : ℚ}, GoodApprox y a prec → |y - a| ≤ 2 * 2 ^ (Int.log 2 |a| - ((prec : ℤ) + 1)) := by
        rintro y a ⟨K, h1, h2, h3⟩
        have := le_log h3
        refine h1.trans ?_
        have h4 := zmonoR (show K - prec ≤ Int.log 2 |a| - ((prec : ℤ) + 1) + 1 by omega)
        rw [zaddR _ 1, zpow_one] at h4
        linarith
      push_cast
      cases x with
      | rat q =>
        have hq : q ≠ 0 := by rintro rfl; simp [real_rat] at h0
        exact good (goodApprox_rat atoms hq prec)
      | atom i => exact good ((atoms i).goodApprox prec)
      | prod m => exact absurd rfl (hnp m)

/-- The radius is about `2^-(prec+1)` of the midpoint. -/
theorem arb_radius (x : RN) (prec : ℕ) (h : x.arf atoms prec ≠ 0) :
    (x.arb atoms prec).radius ≤ 2 ^ (-((prec : ℤ) + 1)) * |x.arf atoms prec| := by
  rw [arb_eq]
  show 2 ^ (Arf.logb (x.arf atoms prec) - ((prec : ℤ) + 1)) ≤ _
  rw [Arf.logb, if_neg h, sub_eq_add_neg, zadd, mul_comm]
  exact mul_le_mul_of_nonneg_left (zpow_le_abs h) (two_zpow_pos _).le

/-- The accuracy is the one asked for. -/
theorem arb_accuracy {x : RN} {prec : ℕ} (h : x.arf atoms prec ≠ 0) (p : ℤ) : (x.arb atoms prec).hasAccuracy p = true ↔ p ≤ prec := by
  rw [arb_eq, Ball.hasAccuracy]
  simp only [Bool.or_eq_true, Bool.and_eq_true, decide_eq_true_eq]
  rw [Arf.logb, if_neg h]
  have : Int.log 2 ((2 : ℚ) ^ (Int.log 2 |x.arf atoms prec| - ((prec : ℤ) + 1))) = Int.log 2 |x.arf atoms prec| - (prec + 1) := by
    have := Int.log_zpow (R := ℚ) (b := 2) (by norm_num) (Int.log 2 |x.arf atoms prec| - ((prec : ℤ) + 1))
    exact_mod_cast this
  rw [this]
  constructor
  · rintro (h0 | ⟨-, h1⟩)
    · exact absurd h0 (two_zpow_pos _).ne'
    · omega
  · intro hp
    exact .inr ⟨h, by omega⟩

end RN

end ExactReal
