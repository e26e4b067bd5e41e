import Verif.Lemma.ArfError

/-! # Error of `arf` for products of few factors -/

namespace ExactReal

open Arf

/-- `a` approximates `x > 0` with `p` relative errors downwards and `q` upwards. -/
def Between (ε : ℝ) (p q : ℕ) (a x : ℝ) : Prop := (1 - ε) ^ p * x ≤ a ∧ a ≤ (1 + ε) ^ q * x

theorem Between.mul {ε : ℝ} (hε : 0 ≤ ε) (hε1 : ε ≤ 1) {p q p' q' : ℕ} {a x b y : ℝ} (hx : 0 < x) (hy : 0 < y) (h : Between ε p q a x) (h' : Between ε p' q' b y) :
    Between ε (p + p') (q + q') (a * b) (x * y) := by
  have hp : 0 ≤ (1 - ε) ^ p := pow_nonneg (by linarith) _
  have hp' : 0 ≤ (1 - ε) ^ p' := pow_nonneg (by linarith) _
  have hb : 0 ≤ b := (mul_nonneg hp' hy.le).trans h'.1
  have hq : 0 ≤ (1 + ε) ^ q := pow_nonneg (by linarith) _
  constructor
  · calc (1 - ε) ^ (p + p') * (x * y) = ((1 - ε) ^ p * x) * ((1 - ε) ^ p' * y) := by ring
      _ ≤ a * b := mul_le_mul h.1 h'.1 (mul_nonneg hp' hy.le) ((mul_nonneg hp hx.le).trans h.1)
  · calc a * b ≤ ((1 + ε) ^ q * x) * ((1 + ε) ^ q' * y) := mul_le_mul h.2 h'.2 hb (mul_nonneg hq hx.le)
      _ = _ := by ring

/-- Rounding to nearest adds one error. -/
theorem Between.round {w : ℕ} {p q : ℕ} {b : ℚ} {x : ℝ} (hx : 0 < x) (h : Between (2 ^ (-(w : ℤ))) p q (b : ℝ) x) :
    Between (2 ^ (-(w : ℤ))) (p + 1) (q + 1) ((Arf.round .near w b : ℚ) : ℝ) x := by
  have hε := zposR (-(w : ℤ))
  have hε1 : (2 : ℝ) ^ (-(w : ℤ)) ≤ 1 := by
    have := zmonoR (show -(w : ℤ) ≤ 0 by omega); simpa using this
  have hr := round_rel_real w b
  generalize (2 : ℝ) ^ (-(w : ℤ)) = ε at *
  have hp : 0 ≤ (1 - ε) ^ p := pow_nonneg (by linarith) _
  have hb : 0 ≤ (b : ℝ) := (mul_nonneg hp hx.le).trans h.1
  rw [abs_of_nonneg hb, abs_le] at hr
  constructor
  · have := mul_le_mul_of_nonneg_left h.1 (show 0 ≤ 1 - ε by linarith)
    calc (1 - ε) ^ (p + 1) * x = (1 - ε) * ((1 - ε) ^ p * x) := by ring
      _ ≤ (1 - ε) * b := this
      _ ≤ _ := by linarith
  · have := mul_le_mul_of_nonneg_left h.2 (show 0 ≤ 1 + ε by linarith)
    calc _ ≤ (1 + ε) * (b : ℝ) := by linarith
      _ ≤ (1 + ε) * ((1 + ε) ^ q * x) := this
      _ = _ := by ring

/-- The digits of a random number are truncated. -/
theorem Digits.between (d : Digits) (w : ℕ) : Between (2 ^ (-(w : ℤ))) 1 0 ((d.arf w : ℚ) : ℝ) d.value := by
  have h := (d.goodApprox w).rel
  have hv := d.value_pos
  rw [abs_of_pos hv, abs_le] at h
  exact ⟨by rw [pow_one]; linarith, by rw [pow_zero, one_mul]; exact d.arf_le_value w⟩

theorem mulLoop_between {w : ℕ} {a : ℚ} {x : ℝ} (hx : 0 < x) (ha : Between (2 ^ (-(w : ℤ))) 1 0 (a : ℝ) x) :
    ∀ (j : ℕ) (ret : ℚ) (X : ℝ) (p q : ℕ), 0 < X → Between (2 ^ (-(w : ℤ))) p q (ret : ℝ) X →
      Between (2 ^ (-(w : ℤ))) (p + 2 * j) (q + j) ((mulLoop w a j ret : ℚ) : ℝ) (X * x ^ j)
  | 0, ret, X, p, q, _, h => by simpa [mulLoop] using h
  | j + 1, ret, X, p, q, hX, h => by
    have hε1 : (2 : ℝ) ^ (-(w : ℤ)) ≤ 1 := by
      have := zmonoR (show -(w : ℤ) ≤ 0 by omega); simpa using this
    have h1 := Between.mul (zposR _).le hε1 hX hx h ha
    rw [← Rat.cast_mul] at h1
    have h2 := mulLoop_between hx ha j _ _ _ _ (mul_pos hX hx) (h1.round (mul_pos hX hx))
    rw [mulLoop, show X * x ^ (j + 1) = X * x * x ^ j by ring, show p + 2 * (j + 1) = p + 1 + 1 + 2 * j by ring,
      show q + (j + 1) = q + 0 + 1 + j by ring]
    exact h2

theorem prodLoop_between (atoms : Atoms) (w : ℕ) : ∀ (m : Mono), (∀ p ∈ m, ∃ d, atoms p.1 = .random d) → ∀ (ret : ℚ) (X : ℝ) (p q : ℕ),
    0 < X → Between (2 ^ (-(w : ℤ))) p q (ret : ℝ) X →
      Between (2 ^ (-(w : ℤ))) (p + 2 * (m.map Prod.snd).sum) (q + (m.map Prod.snd).sum) ((prodLoop atoms w ret m : ℚ) : ℝ)
        (X * Mono.value (fun i => (atoms i).value) m)
  | [], _, ret, X, p, q, _, h => by simpa [prodLoop, Mono.value] using h
  | f :: m, hm, ret, X, p, q, hX, h => by
    obtain ⟨d, hd⟩ := hm f (by simp)
    have hpos : 0 < (atoms f.1).value := by rw [hd]; exact d.value_pos
    have ha : Between (2 ^ (-(w : ℤ))) 1 0 (((atoms f.1).arf w : ℚ) : ℝ) (atoms f.1).value := by
      rw [hd]; exact d.between w
    have h1 := mulLoop_between hpos ha f.2 ret X p q hX h
    have h2 := prodLoop_between atoms w m (fun g hg => hm g (by simp [hg])) _ _ _ _ (mul_pos hX (pow_pos hpos _)) h1
    have e1 : X * (Mono.value (fun i => (atoms i).value) (f :: m)) =
        X * (atoms f.1).value ^ f.2 * Mono.value (fun i => (atoms i).value) m := by
      simp [Mono.value, mul_assoc]
    rw [e1, show p + 2 * ((f :: m).map Prod.snd).sum = p + 2 * f.2 + 2 * (m.map Prod.snd).sum by simp; ring,
      show q + ((f :: m).map Prod.snd).sum = q + f.2 + (m.map Prod.snd).sum by simp; ring]
    exact h2

/-- The working precision in terms of a power of two below `6n`. -/
theorem working_bound_of {prec n k : ℕ} (h : 2 ^ k < 6 * n) :
    (2 : ℝ) ^ (-(workingPrec prec n : ℤ)) * 2 ^ k ≤ 2 ^ (-(prec : ℤ)) := by
  have hk : k ≤ Nat.clog 2 (3 * n) := by
    by_contra hc
    have h1 : 3 * n ≤ 2 ^ Nat.clog 2 (3 * n) := Nat.le_pow_clog (by norm_num) _
    have h2 : 2 ^ (Nat.clog 2 (3 * n) + 1) ≤ 2 ^ k := Nat.pow_le_pow_right (by norm_num) (by omega)
    rw [pow_succ] at h2
    omega
  rw [← zpow_natCast (2 : ℝ) k, ← zaddR]
  refine zmonoR ?_
  rw [workingPrec]; push_cast; omega

namespace RN

variable (atoms : Atoms)

theorem arf_prod (m : Mono) (prec : ℕ) : arf_ atoms prec (prod m) = round .near ((prec + 1 : ℕ) : ℤ)
    (prodLoop atoms (workingPrec prec (m.map Prod.snd).sum) 1 m) := by
  rw [arf_]; push_cast; rfl

theorem two_pow_half (prec : ℕ) : (2 : ℝ) ^ (-((prec + 1 : ℕ) : ℤ)) = 2 ^ (-(prec : ℤ)) / 2 := by
  push_cast; rw [neg_add, zaddR]; norm_num; ring

theorem prod_rel_few (m : Mono) (hm : ∀ p ∈ m, ∃ d, atoms p.1 = .random d) (k prec : ℕ) (h1 : 4 * (m.map Prod.snd).sum ≤ 2 ^ k)
    (h2 : 2 ^ k < 6 * (m.map Prod.snd).sum) :
    |((arf_ atoms prec (prod m) : ℚ) : ℝ) - (prod m).real atoms| ≤ 2 ^ (-(prec : ℤ)) * |(prod m).real atoms| := by
  have hb := prodLoop_between atoms (workingPrec prec (m.map Prod.snd).sum) m hm 1 1 0 0 one_pos (by simp [Between])
  have hw := working_bound_of (prec := prec) h2
  rw [arf_prod, real_prod]
  set n := (m.map Prod.snd).sum
  set s := prodLoop atoms (workingPrec prec n) 1 m
  set X := m.value fun i => (atoms i).value with hX
  have hXpos : 0 < X := by
    rw [hX, Mono.value]
    apply List.prod_pos
    intro y hy
    obtain ⟨p, hp, rfl⟩ := List.mem_map.1 hy
    obtain ⟨d, hd⟩ := hm p hp
    simp only [hd]; exact pow_pos d.value_pos _
  have hr := round_rel_real (prec + 1) s
  rw [two_pow_half] at hr
  have hε := zposR (-(workingPrec prec n : ℤ))
  have hε1 : (2 : ℝ) ^ (-(workingPrec prec n : ℤ)) ≤ 1 := by
    have := zmonoR (show -(workingPrec prec n : ℤ) ≤ 0 by omega); simpa using this
  have hT := zposR (-(prec : ℤ))
  have hT1 : (2 : ℝ) ^ (-(prec : ℤ)) ≤ 1 := by
    have := zmonoR (show -(prec : ℤ) ≤ 0 by omega); simpa using this
  rw [one_mul, zero_add, zero_add] at hb
  generalize (2 : ℝ) ^ (-(workingPrec prec n : ℤ)) = ε at *
  generalize (2 : ℝ) ^ (-(prec : ℤ)) = T at *
  have hk : (4 : ℝ) * n ≤ 2 ^ k := by exact_mod_cast h1
  have hn : (n : ℝ) * ε ≤ T / 4 := by
    have := mul_le_mul_of_nonneg_right hk hε.le
    linarith
  have lo : 1 - T / 2 ≤ (1 - ε) ^ (2 * n) := by
    have := one_add_mul_le_pow (show (-2 : ℝ) ≤ -ε by linarith) (2 * n)
    rw [show (1 : ℝ) + -ε = 1 - ε by ring] at this
    push_cast at this
    linarith
  have hi : (1 + ε) ^ n ≤ 1 + (T / 4) / (1 - T / 4) := by
    have := pow_bound hε.le hε1 hn (by linarith); linarith
  have hi2 : (1 + T / 2) * (1 + ε) ^ n ≤ 1 + T := by
    refine (mul_le_mul_of_nonneg_left hi (by linarith)).trans ?_
    have e : 1 + (T / 4) / (1 - T / 4) = 1 / (1 - T / 4) := by
      have : (1 - T / 4) ≠ 0 := by linarith
      rw [eq_div_iff this, add_mul, div_mul_cancel₀ _ this]; ring
    rw [e, mul_one_div, div_le_iff₀ (by linarith)]
    nlinarith
  have hs0 : 0 ≤ (s : ℝ) := (mul_nonneg (pow_nonneg (by linarith) _) hXpos.le).trans hb.1
  rw [abs_of_nonneg hs0, abs_le] at hr
  rw [abs_of_pos hXpos, abs_le]
  constructor
  · have a1 := mul_le_mul_of_nonneg_right lo hXpos.le
    have a2 : (1 - T / 2) * X ≤ s := a1.trans hb.1
    have a3 := mul_le_mul_of_nonneg_left a2 (show 0 ≤ 1 - T / 2 by linarith)
    have a4 : (1 - T) * X ≤ (1 - T / 2) * ((1 - T / 2) * X) := by
      rw [← mul_assoc]; exact mul_le_mul_of_nonneg_right (by nlinarith) hXpos.le
    linarith
  · have a1 := mul_le_mul_of_nonneg_left hb.2 (show 0 ≤ 1 + T / 2 by linarith)
    have a2 := mul_le_mul_of_nonneg_right hi2 hXpos.le
    linarith

theorem prod_rel_few_any (m : Mono) (k prec : ℕ) (h1 : 4 * (m.map Prod.snd).sum * (2 ^ prec + 1) ≤ 2 ^ (k + prec))
    (h2 : 2 ^ k < 6 * (m.map Prod.snd).sum) :
    |((arf_ atoms prec (prod m) : ℚ) : ℝ) - (prod m).real atoms| ≤ 2 ^ (-(prec : ℤ)) * |(prod m).real atoms| := by
  have hw := working_bound_of (prec := prec) h2
  have h := prodLoop_rel atoms (workingPrec prec (m.map Prod.snd).sum) m 1 1 0 (by simp)
  simp only [one_mul, zero_add] at h
  rw [arf_prod, real_prod]
  set n := (m.map Prod.snd).sum
  set s := prodLoop atoms (workingPrec prec n) 1 m
  set X := m.value fun i => (atoms i).value with hX
  have hr := round_rel_real (prec + 1) s
  rw [two_pow_half] at hr
  have hε := zposR (-(workingPrec prec n : ℤ))
  have hε1 : (2 : ℝ) ^ (-(workingPrec prec n : ℤ)) ≤ 1 := by
    have := zmonoR (show -(workingPrec prec n : ℤ) ≤ 0 by omega); simpa using this
  have hT := zposR (-(prec : ℤ))
  have hT1 : (2 : ℝ) ^ (-(prec : ℤ)) ≤ 1 := by
    have := zmonoR (show -(prec : ℤ) ≤ 0 by omega); simpa using this
  have hTp : (2 : ℝ) ^ (-(prec : ℤ)) * 2 ^ prec = 1 := by
    rw [← zpow_natCast (2 : ℝ) prec, ← zaddR]; simp
  generalize (2 : ℝ) ^ (-(workingPrec prec n : ℤ)) = ε at *
  generalize (2 : ℝ) ^ (-(prec : ℤ)) = T at *
  have hk : (4 : ℝ) * n * (2 ^ prec + 1) ≤ 2 ^ k * 2 ^ prec := by rw [← pow_add]; exact_mod_cast h1
  have hk' : (4 : ℝ) * n * (1 + T) ≤ 2 ^ k := by
    have := mul_le_mul_of_nonneg_right hk hT.le
    calc (4 : ℝ) * n * (1 + T) = 4 * n * (T * 2 ^ prec + T) := by rw [hTp]
      _ = 4 * n * (2 ^ prec + 1) * T := by ring
      _ ≤ 2 ^ k * 2 ^ prec * T := this
      _ = 2 ^ k * (T * 2 ^ prec) := by ring
      _ = 2 ^ k := by rw [hTp, mul_one]
  have hn : ((2 * n : ℕ) : ℝ) * ε ≤ T / (2 + 2 * T) := by
    rw [le_div_iff₀ (by linarith)]
    have := mul_le_mul_of_nonneg_right hk' hε.le
    push_cast; linarith
  have ht1 : T / (2 + 2 * T) < 1 := by rw [div_lt_one (by linarith)]; linarith
  have hb := pow_bound hε.le hε1 hn ht1
  have e : T / (2 + 2 * T) / (1 - T / (2 + 2 * T)) = T / (2 + T) := by
    have h0 : (2 + 2 * T) ≠ 0 := by linarith
    have h1 : (2 + 2 * T) * (1 - T / (2 + 2 * T)) = 2 + T := by rw [mul_sub, mul_div_cancel₀ _ h0]; ring
    rw [div_div, h1]
  rw [e] at hb
  have h3 := rel_trans (by linarith) (h.trans (mul_le_mul_of_nonneg_right hb (abs_nonneg _))) hr
  refine h3.trans (mul_le_mul_of_nonneg_right ?_ (abs_nonneg _))
  have e2 : (1 + T / (2 + T)) * (1 + T / 2) - 1 = T := by
    have : (2 + T) ≠ 0 := by linarith
    field_simp; ring
  exact e2.le

end RN

end ExactReal
