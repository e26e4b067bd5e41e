import Verif.Lemma.AtomError

/-! # Error of `arf` for all real numbers -/

namespace ExactReal

open Arf

theorem GoodApprox.rel {x : ℝ} {a : ℚ} {prec : ℕ} (h : GoodApprox x a prec) : |(a : ℝ) - x| ≤ 2 ^ (-(prec : ℤ)) * |x| := by
  obtain ⟨K, h1, h2, -⟩ := h
  rw [abs_sub_comm]
  refine h1.trans ?_
  rw [sub_eq_add_neg, zaddR, mul_comm]
  exact mul_le_mul_of_nonneg_left h2 (zposR _).le

/-- Relative errors of a product. -/
theorem rel_mul {a b x y α β : ℝ} (hα : 0 ≤ α) (ha : |a - x| ≤ α * |x|) (hb : |b - y| ≤ β * |y|) :
    |a * b - x * y| ≤ ((1 + α) * (1 + β) - 1) * |x * y| := by
  have h1 : a * b - x * y = (a - x) * (b - y) + (a - x) * y + x * (b - y) := by ring
  have h2 := mul_le_mul ha hb (abs_nonneg _) (mul_nonneg hα (abs_nonneg x))
  have h3 := mul_le_mul_of_nonneg_right ha (abs_nonneg y)
  have h4 := mul_le_mul_of_nonneg_left hb (abs_nonneg x)
  calc |a * b - x * y| ≤ |a - x| * |b - y| + |a - x| * |y| + |x| * |b - y| := by
        rw [h1, ← abs_mul, ← abs_mul, ← abs_mul]; exact abs_add_three _ _ _
    _ ≤ (α * |x|) * (β * |y|) + α * |x| * |y| + |x| * (β * |y|) := by linarith
    _ = _ := by rw [abs_mul]; ring

/-- Relative error after an additional relative error. -/
theorem rel_trans {r b y β ε : ℝ} (hε : 0 ≤ ε) (hb : |b - y| ≤ β * |y|) (hr : |r - b| ≤ ε * |b|) :
    |r - y| ≤ ((1 + β) * (1 + ε) - 1) * |y| := by
  have h1 : |b| ≤ (1 + β) * |y| := by
    have := abs_sub_abs_le_abs_sub b y; linarith
  have h2 := mul_le_mul_of_nonneg_left h1 hε
  have h3 := abs_sub_le r b y
  calc |r - y| ≤ ε * ((1 + β) * |y|) + β * |y| := by linarith
    _ = _ := by ring

theorem round_rel_real (p : ℕ) (b : ℚ) : |((round .near p b : ℚ) : ℝ) - b| ≤ 2 ^ (-(p : ℤ)) * |(b : ℝ)| := by
  have h := abs_round_near_sub_le_rel p b
  have : ((|round .near p b - b| : ℚ) : ℝ) ≤ ((|b| * 2 ^ (-(p : ℤ)) : ℚ) : ℝ) := by exact_mod_cast h
  push_cast at this
  rw [mul_comm]; exact this

theorem mulLoop_rel {w : ℕ} {a : ℚ} {x : ℝ} (ha : |(a : ℝ) - x| ≤ 2 ^ (-(w : ℤ)) * |x|) :
    ∀ (j : ℕ) (ret : ℚ) (X : ℝ) (n : ℕ), |(ret : ℝ) - X| ≤ ((1 + 2 ^ (-(w : ℤ))) ^ n - 1) * |X| →
      |((mulLoop w a j ret : ℚ) : ℝ) - X * x ^ j| ≤ ((1 + 2 ^ (-(w : ℤ))) ^ (n + 2 * j) - 1) * |X * x ^ j|
  | 0, ret, X, n, h => by simpa [mulLoop] using h
  | j + 1, ret, X, n, h => by
    have hε := (zposR (-(w : ℤ))).le
    have h1 : (0 : ℝ) ≤ (1 + 2 ^ (-(w : ℤ))) ^ n - 1 := by
      have := one_le_pow₀ (M₀ := ℝ) (show (1 : ℝ) ≤ 1 + 2 ^ (-(w : ℤ)) by linarith) (n := n); linarith
    have h2 := rel_mul h1 h ha
    have h3 := round_rel_real w (ret * a)
    push_cast at h3
    have h4 := rel_trans hε h2 h3
    have h5 := mulLoop_rel ha j (round .near w (ret * a)) (X * x) (n + 2) (by
      convert h4 using 2; ring)
    rw [mulLoop, show X * x ^ (j + 1) = X * x * x ^ j by ring, show n + 2 * (j + 1) = n + 2 + 2 * j by ring]
    exact h5

theorem prodLoop_rel (atoms : Atoms) (w : ℕ) : ∀ (m : Mono) (ret : ℚ) (X : ℝ) (n : ℕ),
    |(ret : ℝ) - X| ≤ ((1 + 2 ^ (-(w : ℤ))) ^ n - 1) * |X| →
      |((prodLoop atoms w ret m : ℚ) : ℝ) - X * m.value fun i => (atoms i).value| ≤
        ((1 + 2 ^ (-(w : ℤ))) ^ (n + 2 * (m.map Prod.snd).sum) - 1) * |X * m.value fun i => (atoms i).value|
  | [], ret, X, n, h => by simpa [prodLoop, Mono.value] using h
  | p :: m, ret, X, n, h => by
    have h1 := mulLoop_rel ((atoms p.1).goodApprox w).rel p.2 ret X n h
    have h2 := prodLoop_rel atoms w m _ _ _ h1
    have e1 : X * (Mono.value (fun i => (atoms i).value) (p :: m)) =
        X * (atoms p.1).value ^ p.2 * Mono.value (fun i => (atoms i).value) m := by
      simp [Mono.value, mul_assoc]
    rw [e1, show n + 2 * ((p :: m).map Prod.snd).sum = n + 2 * p.2 + 2 * (m.map Prod.snd).sum by simp; ring]
    exact h2

theorem pow_bound {ε t : ℝ} {n : ℕ} (h0 : 0 ≤ ε) (hε : ε ≤ 1) (h : n * ε ≤ t) (ht : t < 1) :
    (1 + ε) ^ n - 1 ≤ t / (1 - t) := by
  have hp : (0 : ℝ) < (1 + ε) ^ n := by positivity
  have h1 : 1 - n * ε ≤ (1 - ε) ^ n := by
    have := one_add_mul_le_pow (show (-2 : ℝ) ≤ -ε by linarith) n
    rw [show (1 : ℝ) + -ε = 1 - ε by ring] at this
    linarith
  have h2 : (1 + ε) ^ n * (1 - ε) ^ n ≤ 1 := by
    rw [← mul_pow]; apply pow_le_one₀
    · nlinarith
    · nlinarith
  have h3 : (1 + ε) ^ n * (1 - t) ≤ 1 := by
    refine le_trans ?_ h2
    exact mul_le_mul_of_nonneg_left (by linarith) hp.le
  rw [le_div_iff₀ (by linarith)]
  linarith

/-- The working precision suffices to absorb `3n` errors. -/
theorem working_bound (prec n : ℕ) (hn : 1 ≤ n) :
    (n : ℝ) * 2 ^ (-(workingPrec prec n : ℤ)) ≤ 2 ^ (-(prec : ℤ)) / 3 := by
  have h1 : 3 * n ≤ 2 ^ Nat.clog 2 (3 * n) := Nat.le_pow_clog (by norm_num) _
  have h2 : (3 : ℝ) * n ≤ 2 ^ Nat.clog 2 (3 * n) := by exact_mod_cast h1
  have hp : (0 : ℝ) < 2 ^ Nat.clog 2 (3 * n) := by positivity
  have e : (2 : ℝ) ^ (-(workingPrec prec n : ℤ)) = 2 ^ (-(prec : ℤ)) / 2 ^ Nat.clog 2 (3 * n) := by
    rw [workingPrec]; push_cast
    rw [neg_add, zaddR, zpow_neg 2 (Nat.clog 2 (3 * n) : ℤ), zpow_natCast]; rfl
  rw [e, ← mul_div_assoc, div_le_div_iff₀ hp (by norm_num)]
  have := mul_le_mul_of_nonneg_right h2 (zposR (-(prec : ℤ))).le
  nlinarith

/-- The product before the final rounding. -/
theorem prod_prelim (atoms : Atoms) (m : Mono) (prec : ℕ) (hn : 1 ≤ (m.map Prod.snd).sum) :
    |((prodLoop atoms (workingPrec prec (m.map Prod.snd).sum) 1 m : ℚ) : ℝ) - m.value fun i => (atoms i).value| ≤
      (2 / 3 * 2 ^ (-(prec : ℤ))) / (1 - 2 / 3 * 2 ^ (-(prec : ℤ))) * |m.value fun i => (atoms i).value| := by
  set n := (m.map Prod.snd).sum
  have h := prodLoop_rel atoms (workingPrec prec n) m 1 1 0 (by simp)
  simp only [one_mul, zero_add] at h
  refine h.trans (mul_le_mul_of_nonneg_right ?_ (abs_nonneg _))
  have hT : (2 : ℝ) ^ (-(prec : ℤ)) ≤ 1 := by
    have := zmonoR (show -(prec : ℤ) ≤ 0 by omega); simpa using this
  apply pow_bound (zposR _).le
  · have := zmonoR (show -(workingPrec prec n : ℤ) ≤ 0 by omega); simpa using this
  · have := working_bound prec n hn
    show ((2 * n : ℕ) : ℝ) * _ ≤ _
    rw [Nat.cast_mul, Nat.cast_ofNat]
    linarith
  · linarith

theorem two_pow_neg_le (prec : ℕ) (h : 2 ≤ prec) : (2 : ℝ) ^ (-(prec : ℤ)) ≤ 1 / 4 := by
  have := zmonoR (show -(prec : ℤ) ≤ -2 by omega)
  refine this.trans ?_; norm_num

theorem prod_prelim' (atoms : Atoms) (m : Mono) (prec : ℕ) (hp : 2 ≤ prec) (hn : 1 ≤ (m.map Prod.snd).sum) :
    |((prodLoop atoms (workingPrec prec (m.map Prod.snd).sum) 1 m : ℚ) : ℝ) - m.value fun i => (atoms i).value| ≤
      4 / 5 * 2 ^ (-(prec : ℤ)) * |m.value fun i => (atoms i).value| := by
  refine (prod_prelim atoms m prec hn).trans (mul_le_mul_of_nonneg_right ?_ (abs_nonneg _))
  have h1 := two_pow_neg_le prec hp
  have h0 := zposR (-(prec : ℤ))
  rw [div_le_iff₀ (by linarith)]
  nlinarith

namespace RN

variable (atoms : Atoms)

theorem real_rat (q : ℚ) : (rat q).real atoms = q := rfl

theorem real_atom (i : ℕ) : (atom i).real atoms = (atoms i).value := rfl

theorem real_prod (m : Mono) : (prod m).real atoms = m.value fun i => (atoms i).value := rfl

theorem arf_rat_zero (prec : ℕ) : arf_ atoms prec (rat 0) = 0 := by simp [arf_]

theorem goodApprox_rat {q : ℚ} (hq : q ≠ 0) (prec : ℕ) : GoodApprox (q : ℝ) (arf_ atoms prec (rat q)) prec := by
  refine ⟨Int.log 2 |q|, ?_, ?_, ?_⟩
  · have h := (round_near_K (if prec = 0 then 1 else prec) (by split_ifs <;> omega) (zpow_le_abs hq) (abs_lt_zpow q)).1
    have e : arf_ atoms prec (rat q) = round .near ((if prec = 0 then 1 else prec : ℕ) : ℤ) q := by
      rw [arf_, Rat.num_div_den]; split_ifs <;> simp
    rw [← e] at h
    have h' : ((|arf_ atoms prec (rat q) - q| : ℚ) : ℝ) ≤
        (((2 : ℚ) ^ (Int.log 2 |q| - ((if prec = 0 then 1 else prec : ℕ) : ℤ)) : ℚ) : ℝ) := by exact_mod_cast h
    rw [abs_sub_comm]
    have h2 : |((arf_ atoms prec (rat q) : ℚ) : ℝ) - q| ≤ 2 ^ (Int.log 2 |q| - ((if prec = 0 then 1 else prec : ℕ) : ℤ)) := by
      have e3 : |((arf_ atoms prec (rat q) : ℚ) : ℝ) - q| = ((|arf_ atoms prec (rat q) - q| : ℚ) : ℝ) := by push_cast; rfl
      rw [e3]; refine h'.trans_eq ?_; push_cast; rfl
    refine h2.trans (zmonoR ?_)
    split_ifs <;> push_cast <;> omega
  · have : (((2 : ℚ) ^ Int.log 2 |q| : ℚ) : ℝ) ≤ ((|q| : ℚ) : ℝ) := by exact_mod_cast zpow_le_abs hq
    push_cast at this; exact this
  · have h := (round_near_K (if prec = 0 then 1 else prec) (by split_ifs <;> omega) (zpow_le_abs hq) (abs_lt_zpow q)).2
    have e : arf_ atoms prec (rat q) = round .near ((if prec = 0 then 1 else prec : ℕ) : ℤ) q := by
      rw [arf_, Rat.num_div_den]; split_ifs <;> simp
    rw [e]; exact h

/-- Relative error of `arf` for products. -/
theorem prod_rel (m : Mono) (prec : ℕ) (hp : 2 ≤ prec) (hn : 1 ≤ (m.map Prod.snd).sum) :
    |((arf_ atoms prec (prod m) : ℚ) : ℝ) - (prod m).real atoms| ≤ 3 / 2 * 2 ^ (-(prec : ℤ)) * |(prod m).real atoms| := by
  have h1 := prod_prelim' atoms m prec hp hn
  set s := prodLoop atoms (workingPrec prec (m.map Prod.snd).sum) 1 m with hs
  have h2 := round_rel_real (prec + 1) s
  have h3 := rel_trans (zposR (-((prec + 1 : ℕ) : ℤ))).le h1 h2
  rw [real_prod]
  have e : arf_ atoms prec (prod m) = round .near ((prec + 1 : ℕ) : ℤ) s := by
    rw [arf_, hs]; push_cast; rfl
  rw [e]
  refine h3.trans (mul_le_mul_of_nonneg_right ?_ (abs_nonneg _))
  have h4 := two_pow_neg_le prec hp
  have h0 := zposR (-(prec : ℤ))
  have e2 : (2 : ℝ) ^ (-((prec + 1 : ℕ) : ℤ)) = 2 ^ (-(prec : ℤ)) / 2 := by
    push_cast; rw [neg_add, zaddR]; norm_num; ring
  rw [e2]; nlinarith

/-- Relative error of `arf` for products and tiny precisions. -/
theorem prod_rel_any (m : Mono) (prec : ℕ) (hn : 1 ≤ (m.map Prod.snd).sum) :
    |((arf_ atoms prec (prod m) : ℚ) : ℝ) - (prod m).real atoms| ≤ 7 / 2 * 2 ^ (-(prec : ℤ)) * |(prod m).real atoms| := by
  have h1 := prod_prelim atoms m prec hn
  set s := prodLoop atoms (workingPrec prec (m.map Prod.snd).sum) 1 m with hs
  have h2 := round_rel_real (prec + 1) s
  have h3 := rel_trans (zposR (-((prec + 1 : ℕ) : ℤ))).le h1 h2
  rw [real_prod]
  have e : arf_ atoms prec (prod m) = round .near ((prec + 1 : ℕ) : ℤ) s := by
    rw [arf_, hs]; push_cast; rfl
  rw [e]
  refine h3.trans (mul_le_mul_of_nonneg_right ?_ (abs_nonneg _))
  have hT : (2 : ℝ) ^ (-(prec : ℤ)) ≤ 1 := by
    have := zmonoR (show -(prec : ℤ) ≤ 0 by omega); simpa using this
  have h0 := zposR (-(prec : ℤ))
  have e2 : (2 : ℝ) ^ (-((prec + 1 : ℕ) : ℤ)) = 2 ^ (-(prec : ℤ)) / 2 := by
    push_cast; rw [neg_add, zaddR]; norm_num; ring
  rw [e2]
  set T := (2 : ℝ) ^ (-(prec : ℤ))
  have h5 : 2 / 3 * T / (1 - 2 / 3 * T) ≤ 2 * T := by
    rw [div_le_iff₀ (by linarith)]; nlinarith
  nlinarith

/-- Error of `arf` in units of the radius that `refine` attaches. -/
theorem arf_error {x : RN} (hx : x.WF) (h0 : x.real atoms ≠ 0) (prec : ℕ) (hp : 2 ≤ prec) :
    x.arf_ atoms prec ≠ 0 ∧
      |x.real atoms - x.arf_ atoms prec| ≤ 5 * 2 ^ (Int.log 2 |x.arf_ atoms prec| - (prec + 1)) := by
  have good : ∀ {y : ℝ} {a : ℚ}, GoodApprox y a prec → a ≠ 0 ∧ |y - a| ≤ 5 * 2 ^ (Int.log 2 |a| - ((prec : ℤ) + 1)) := by
    rintro y a ⟨K, h1, h2, h3⟩
    refine ⟨?_, ?_⟩
    · rintro rfl; rw [abs_zero] at h3; exact absurd h3 (not_le.2 (two_zpow_pos K))
    · have := le_log h3
      refine h1.trans ?_
      have h4 := zmonoR (show K - prec ≤ Int.log 2 |a| - ((prec : ℤ) + 1) + 1 by omega)
      rw [zaddR _ 1, zpow_one] at h4
      have := zposR (Int.log 2 |a| - ((prec : ℤ) + 1))
      linarith
  cases x with
  | rat q =>
    have hq : q ≠ 0 := by rintro rfl; simp [real_rat] at h0
    exact good (goodApprox_rat atoms hq prec)
  | atom i => exact good ((atoms i).goodApprox prec)
  | prod m =>
    obtain ⟨-, hdeg⟩ := hx
    rw [real_prod] at *
    have h1 := prod_prelim' atoms m prec hp (by omega)
    have e : arf_ atoms prec (prod m) = round .near ((prec + 1 : ℕ) : ℤ)
        (prodLoop atoms (workingPrec prec (m.map Prod.snd).sum) 1 m) := by
      rw [arf_]; push_cast; rfl
    rw [e]
    set s := prodLoop atoms (workingPrec prec (m.map Prod.snd).sum) 1 m with hs
    set X := m.value fun i => (atoms i).value with hX
    have h4 := two_pow_neg_le prec hp
    have hT := zposR (-(prec : ℤ))
    have hXpos := abs_pos.2 h0
    have hs0 : s ≠ 0 := by
      intro hs0
      rw [hs0, Rat.cast_zero, zero_sub, abs_neg] at h1
      nlinarith
    have hK := round_near_K (prec + 1) (by omega) (zpow_le_abs hs0) (abs_lt_zpow s)
    set a := round .near ((prec + 1 : ℕ) : ℤ) s with ha
    have ha0 : a ≠ 0 := by
      intro h; rw [h, abs_zero] at hK; exact absurd hK.2 (not_le.2 (two_zpow_pos _))
    refine ⟨ha0, ?_⟩
    have hlog := le_log hK.2
    -- the error before rounding in terms of s
    have hXs : |X| ≤ 5 / 4 * |(s : ℝ)| := by
      have := abs_sub_abs_le_abs_sub X s
      rw [abs_sub_comm X] at this
      nlinarith
    have h5 : |X - s| ≤ 2 ^ (-(prec : ℤ)) * |(s : ℝ)| := by
      rw [abs_sub_comm]
      have := mul_le_mul_of_nonneg_left hXs hT.le
      nlinarith
    have hslt : |(s : ℝ)| ≤ 2 ^ (Int.log 2 |s| + 1) := by
      have : ((|s| : ℚ) : ℝ) ≤ (((2 : ℚ) ^ (Int.log 2 |s| + 1) : ℚ) : ℝ) := by exact_mod_cast (abs_lt_zpow s).le
      push_cast at this; exact this
    have h6 : |X - s| ≤ 4 * 2 ^ (Int.log 2 |a| - ((prec : ℤ) + 1)) := by
      have e4 : 4 * (2 : ℝ) ^ (Int.log 2 |a| - ((prec : ℤ) + 1)) = 2 ^ (-(prec : ℤ)) * 2 ^ (Int.log 2 |a| + 1) := by
        rw [← zaddR, show (4 : ℝ) = 2 ^ (2 : ℤ) by norm_num, ← zaddR]; congr 1; ring
      rw [e4]
      exact h5.trans (mul_le_mul_of_nonneg_left (hslt.trans (zmonoR (by omega))) hT.le)
    have h7 : |(s : ℝ) - a| ≤ 2 ^ (Int.log 2 |a| - ((prec : ℤ) + 1)) := by
      have : ((|a - s| : ℚ) : ℝ) ≤ (((2 : ℚ) ^ (Int.log 2 |s| - ((prec + 1 : ℕ) : ℤ)) : ℚ) : ℝ) := by exact_mod_cast hK.1
      rw [abs_sub_comm]
      push_cast at this
      refine this.trans (zmonoR ?_)
      push_cast; omega
    have := abs_sub_le X s a
    linarith

end RN

end ExactReal
