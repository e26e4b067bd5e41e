import Verif.Lemma.Digits
import Verif.Lemma.Dyadic

/-! # Error of the approximations of atoms -/

namespace ExactReal

open Arf

/-- `a` approximates `x` up to the `prec`-th digit after the leading one, and both have that leading digit. -/
def GoodApprox (x : ℝ) (a : ℚ) (prec : ℕ) : Prop :=
  ∃ K : ℤ, |x - a| ≤ 2 ^ (K - prec) ∧ (2 : ℝ) ^ K ≤ |x| ∧ (2 : ℚ) ^ K ≤ |a|

namespace Arf

theorem round_near_K {K : ℤ} {s : ℚ} (p : ℕ) (hp : 1 ≤ p) (h1 : (2 : ℚ) ^ K ≤ |s|) (h2 : |s| < 2 ^ (K + 1)) :
    |round .near p s - s| ≤ 2 ^ (K - p) ∧ (2 : ℚ) ^ K ≤ |round .near p s| := by
  have hs : s ≠ 0 := by rintro rfl; rw [abs_zero] at h1; exact absurd h1 (not_le.2 (two_zpow_pos K))
  have hl := log_eq h1 h2
  constructor
  · refine (abs_round_near_sub_le p hs).trans_eq ?_
    rw [ulp, hl, show K + 1 - p = (K - p) + 1 by ring, zpow_add_one₀ (by norm_num)]; ring
  · rcases lt_or_gt_of_ne hs with h | h
    · rw [abs_of_neg h] at h1
      have := round_le .near hp (rep_zpow K).neg (show s ≤ -2 ^ K by linarith)
      rw [le_abs]; right; linarith
    · rw [abs_of_pos h] at h1
      exact (le_round .near hp (rep_zpow K) h1).trans (le_abs_self _)

/-- Gap of an integer multiple of `2^e` to the surrounding powers of two. -/
theorem gap {m e L : ℤ} (he : e ≤ L) (h2 : |(m : ℚ) * 2 ^ e| < 2 ^ (L + 1)) :
    |(m : ℚ) * 2 ^ e| + 2 ^ e ≤ 2 ^ (L + 1) ∧
      ((2 : ℚ) ^ L ≤ |(m : ℚ) * 2 ^ e| → |(m : ℚ) * 2 ^ e| ≠ 2 ^ L → (2 : ℚ) ^ L + 2 ^ e ≤ |(m : ℚ) * 2 ^ e|) := by
  have hp := two_zpow_pos e
  have hm : |(m : ℚ) * 2 ^ e| = ((|m| : ℤ) : ℚ) * 2 ^ e := by rw [abs_mul, abs_of_pos hp]; push_cast; rfl
  obtain ⟨j, rfl⟩ : ∃ j : ℕ, L = j + e := ⟨(L - e).toNat, by omega⟩
  have e1 : (2 : ℚ) ^ ((j : ℤ) + e + 1) = ((2 ^ (j + 1) : ℤ) : ℚ) * 2 ^ e := by
    rw [show (j : ℤ) + e + 1 = ((j + 1 : ℕ) : ℤ) + e by push_cast; ring, zadd, zpow_natCast]; push_cast; rfl
  have e2 : (2 : ℚ) ^ ((j : ℤ) + e) = ((2 ^ j : ℤ) : ℚ) * 2 ^ e := by
    rw [zadd, zpow_natCast]; push_cast; rfl
  rw [hm, e1] at h2
  rw [hm, e1, e2]
  constructor
  · have h3 : |m| < 2 ^ (j + 1) := by
      have := lt_of_mul_lt_mul_right h2 hp.le; exact_mod_cast this
    have h4 : ((|m| + 1 : ℤ) : ℚ) ≤ ((2 ^ (j + 1) : ℤ) : ℚ) := by exact_mod_cast h3
    have h5 := mul_le_mul_of_nonneg_right h4 hp.le
    push_cast at h5 ⊢
    linarith
  · intro h h'
    have h3 : (2 : ℤ) ^ j ≤ |m| := by
      have := le_of_mul_le_mul_right h hp; exact_mod_cast this
    have h3' : (2 : ℤ) ^ j ≠ |m| := by
      intro h4; apply h'; rw [← h4]
    have h4 : ((2 ^ j + 1 : ℤ) : ℚ) ≤ ((|m| : ℤ) : ℚ) := by
      have : (2 : ℤ) ^ j + 1 ≤ |m| := by omega
      exact_mod_cast this
    have h5 := mul_le_mul_of_nonneg_right h4 hp.le
    push_cast at h5 ⊢
    linarith

end Arf

theorem Digits.goodApprox (d : Digits) (prec : ℕ) : GoodApprox d.value (d.arf prec) prec := by
  refine ⟨-((d.first : ℤ) + 1), ?_, ?_, ?_⟩
  · have h1 := d.arf_le_value prec
    have h2 := d.value_le_arf prec
    rw [abs_of_nonneg (by linarith)]; linarith
  · rw [abs_of_pos d.value_pos]; exact d.le_value
  · rw [abs_of_pos (d.arf_pos prec)]; exact d.le_arf prec

theorem zaddR (a b : ℤ) : (2 : ℝ) ^ (a + b) = 2 ^ a * 2 ^ b := zpow_add₀ (by norm_num) a b

theorem zmonoR {a b : ℤ} (h : a ≤ b) : (2 : ℝ) ^ a ≤ 2 ^ b := zpow_le_zpow_right₀ (by norm_num) h

theorem zposR (a : ℤ) : (0 : ℝ) < 2 ^ a := by positivity

theorem two_halves (a : ℤ) : (2 : ℝ) ^ (a - 1) + 2 ^ (a - 1) = 2 ^ a := by
  rw [zpow_sub_one₀ (by norm_num)]; ring

namespace Atom

theorem goodApprox_constrained (m e : ℤ) (d : Digits) (N : ℕ) :
    GoodApprox (Atom.constrained m e d).value (arfConstrained m e d N) N := by
  have hu0 := d.value_pos
  have hu1 := d.value_le_one
  have hpe := zposR (e - 1)
  set x : ℝ := (Atom.constrained m e d).value with hx
  have hxv : x = (m : ℝ) * 2 ^ e + d.value * 2 ^ (e - 1) := rfl
  have hN : ((N : ℤ) + 1) = ((N + 1 : ℕ) : ℤ) := by push_cast; rfl
  by_cases hm : m = 0
  · -- initial = 0
    have hI : ofMantissaExponent m e = 0 := by simp [ofMantissaExponent, hm]
    have hret : arfConstrained m e d N = d.arf N * 2 ^ (e - 1) := by
      unfold arfConstrained
      simp only [hI]
      have hb : bits 0 = 0 := by simp [bits]
      rw [hb, if_pos (by push_cast; omega)]
      have hk : (((N : ℤ) + 1) - ((0 : ℕ) : ℤ) - 1).toNat = N := by push_cast; omega
      rw [hk, zero_add, shiftLeft, hN]
      have hr := (d.rep_arf N).mul_zpow (e - 1)
      rw [round_eq_self .near (by omega) hr, round_eq_self .near (by omega) hr]
    obtain ⟨K, h1, h2, h3⟩ := d.goodApprox N
    refine ⟨K + (e - 1), ?_, ?_, ?_⟩
    · rw [hret, hxv, hm]
      push_cast
      rw [zero_mul, zero_add, ← sub_mul, abs_mul, abs_of_pos hpe, show K + (e - 1) - N = (K - N) + (e - 1) by ring, zaddR]
      exact mul_le_mul_of_nonneg_right h1 hpe.le
    · rw [hxv, hm, zaddR, Int.cast_zero, zero_mul, zero_add, abs_mul, abs_of_pos hpe]
      exact mul_le_mul_of_nonneg_right h2 hpe.le
    · rw [hret, zadd, abs_mul, abs_of_pos (two_zpow_pos (e - 1))]
      exact mul_le_mul_of_nonneg_right h3 (two_zpow_pos (e - 1)).le
  -- initial ≠ 0
  obtain ⟨hb1, hb2, hb3⟩ := bits_spec (e := e) hm
  set I : ℚ := ofMantissaExponent m e with hI
  have hIv : I = (m : ℚ) * 2 ^ e := rfl
  have hI0 : I ≠ 0 := by rw [hIv]; exact mul_ne_zero (by exact_mod_cast hm) (two_zpow_pos e).ne'
  set b := bits I with hb
  set L := Int.log 2 |I| with hL
  have hL1 : (2 : ℚ) ^ L ≤ |I| := zpow_le_abs hI0
  have hL2 : |I| < 2 ^ (L + 1) := abs_lt_zpow I
  have heL : e ≤ L := by omega
  obtain ⟨hg1, hg2⟩ := gap heL (by rw [← hIv]; exact hL2)
  rw [← hIv] at hg1 hg2
  have hxI : x = (I : ℝ) + d.value * 2 ^ (e - 1) := by rw [hxv, hIv]; push_cast; rfl
  set δ : ℝ := d.value * 2 ^ (e - 1) with hδ
  have hδ0 : 0 < δ := mul_pos hu0 hpe
  have hδ1 : δ ≤ 2 ^ (e - 1) := mul_le_of_le_one_left hpe.le hu1
  have hee := two_halves e
  have hL1R : (2 : ℝ) ^ L ≤ |(I : ℝ)| := by
    have : (((2 : ℚ) ^ L : ℚ) : ℝ) ≤ ((|I| : ℚ) : ℝ) := by exact_mod_cast hL1
    push_cast at this; exact this
  have hmidL := zmonoR (show e - 1 ≤ L - 1 by omega)
  have hLL := two_halves L
  -- away from a negative power of two the leading digit of x is L
  have key : (0 < I ∨ |I| ≠ 2 ^ L) → (2 : ℝ) ^ L ≤ |x| ∧
      ∀ t : ℚ, 0 ≤ t → t ≤ 2 ^ (e - 1) → (2 : ℚ) ^ L ≤ |I + t| ∧ |I + t| < 2 ^ (L + 1) := by
    intro h
    have h2e : (2 : ℚ) ^ e = 2 * 2 ^ (e - 1) := by
      rw [← zpow_one_add₀ (by norm_num)]; congr 1; ring
    have hpeQ := two_zpow_pos (e - 1)
    rcases lt_or_gt_of_ne hI0 with hneg | hpos
    · have hne : |I| ≠ 2 ^ L := by
        rcases h with h | h
        · exact absurd h hneg.not_gt
        · exact h
      have hg := hg2 hL1 hne
      rw [abs_of_neg hneg] at hg
      constructor
      · have hgR : (2 : ℝ) ^ L + 2 ^ e ≤ -(I : ℝ) := by
          have : (((2 : ℚ) ^ L + 2 ^ e : ℚ) : ℝ) ≤ ((-I : ℚ) : ℝ) := by exact_mod_cast hg
          push_cast at this; exact this
        rw [le_abs]; right; rw [hxI]; linarith
      · intro t ht0 ht1
        rw [abs_of_neg hneg] at hL2
        have := two_zpow_pos L
        rw [abs_of_nonpos (by linarith)]
        constructor <;> linarith
    · constructor
      · have hposR : (0 : ℝ) < I := by exact_mod_cast hpos
        rw [abs_of_pos hposR] at hL1R
        rw [le_abs]; left; rw [hxI]; linarith
      · intro t ht0 ht1
        rw [abs_of_pos hpos] at hL1 hg1
        rw [abs_of_nonneg (by linarith)]
        constructor <;> linarith
  by_cases hmiss : (0 : ℤ) < ((N : ℤ) + 1) - b
  · -- ask inner for more digits
    obtain ⟨k, hk⟩ : ∃ k : ℕ, (k : ℤ) = N - b := ⟨N - b, by omega⟩
    have hkn : (((N : ℤ) + 1) - b - 1).toNat = k := by omega
    set a := d.arf k with ha
    set s : ℚ := I + a * 2 ^ (e - 1) with hs
    have hret : arfConstrained m e d N = round .near ((N + 1 : ℕ) : ℤ) s := by
      unfold arfConstrained
      simp only [← hI, ← hb]
      rw [if_pos hmiss, hkn, shiftLeft, hN, ← ha, ← hs]
      exact round_eq_self .near (by omega) (rep_round .near s)
    have ha0 := d.arf_pos k
    have ha1 := d.arf_lt_one k
    have hpeQ := two_zpow_pos (e - 1)
    have ht0 : 0 ≤ a * 2 ^ (e - 1) := by positivity
    have ht1 : a * 2 ^ (e - 1) ≤ 2 ^ (e - 1) := mul_le_of_le_one_left hpeQ.le ha1.le
    -- distance of x and s
    have hxs : |x - s| ≤ 2 ^ (e - 2 - d.first - N + b) := by
      have h1 := d.arf_le_value k
      have h2 := d.value_le_arf k
      have : x - s = (d.value - a) * 2 ^ (e - 1) := by rw [hxI, hs, hδ]; push_cast; ring
      rw [this, abs_mul, abs_of_pos hpe, abs_of_nonneg (by linarith),
        show e - 2 - d.first - N + b = (-((d.first : ℤ) + 1) - k) + (e - 1) by rw [hk]; ring, zaddR]
      exact mul_le_mul_of_nonneg_right (by linarith) hpe.le
    by_cases hcase : 0 < I ∨ |I| ≠ 2 ^ L
    · obtain ⟨hxL, hkey⟩ := key hcase
      obtain ⟨s1, s2⟩ := hkey _ ht0 ht1
      rw [← hs] at s1 s2
      obtain ⟨r1, r2⟩ := round_near_K (N + 1) (by omega) s1 s2
      refine ⟨L, ?_, hxL, by rw [hret]; exact r2⟩
      have r1R : |((round .near ((N + 1 : ℕ) : ℤ) s : ℚ) : ℝ) - s| ≤ 2 ^ (L - N - 1) := by
        have h3 : ((|round .near ((N + 1 : ℕ) : ℤ) s - s| : ℚ) : ℝ) ≤ (((2 : ℚ) ^ (L - ((N + 1 : ℕ) : ℤ)) : ℚ) : ℝ) := by
          exact_mod_cast r1
        push_cast at h3
        push_cast
        rw [show L - (N : ℤ) - 1 = L - ((N : ℤ) + 1) by ring]; exact h3
      have h4 : (2 : ℝ) ^ (e - 2 - d.first - N + b) ≤ 2 ^ (L - N - 1) := zmonoR (by omega)
      have h5 := two_halves (L - N)
      rw [hret]
      calc |x - ((round .near ((N + 1 : ℕ) : ℤ) s : ℚ) : ℝ)|
          ≤ |x - s| + |(s : ℝ) - ((round .near ((N + 1 : ℕ) : ℤ) s : ℚ) : ℝ)| := abs_sub_le _ _ _
        _ ≤ 2 ^ (L - N - 1) + 2 ^ (L - N - 1) := by rw [abs_sub_comm (s : ℝ)]; linarith
        _ = 2 ^ (L - (N : ℤ)) := h5
    · push Not at hcase
      obtain ⟨hIneg, hIabs⟩ := hcase
      have hb' := hb3 hIabs
      have hneg : I < 0 := lt_of_le_of_ne hIneg hI0
      rw [abs_of_neg hneg] at hIabs
      have hIeq : I = - 2 ^ L := by linarith
      have hIeqR : (I : ℝ) = - 2 ^ L := by rw [hIeq]; push_cast; rfl
      have hxK : (2 : ℝ) ^ (L - 1) ≤ |x| := by
        rw [le_abs]; right; rw [hxI, hIeqR]; linarith
      have hmidLQ := zpow_mono (show e - 1 ≤ L - 1 by omega)
      have hLLQ : (2 : ℚ) ^ (L - 1) + 2 ^ (L - 1) = 2 ^ L := by
        rw [zpow_sub_one₀ (by norm_num)]; ring
      have s1 : (2 : ℚ) ^ (L - 1) ≤ |s| := by
        rw [le_abs]; right; rw [hs, hIeq]; linarith
      have s2 : |s| < 2 ^ (L - 1 + 1) := by
        rw [sub_add_cancel, abs_of_neg (by rw [hs, hIeq]; have := two_zpow_pos L; have := two_zpow_pos (L - 1); linarith), hs, hIeq]
        have : 0 < a * 2 ^ (e - 1) := by positivity
        linarith
      obtain ⟨r1, r2⟩ := round_near_K (N + 1) (by omega) s1 s2
      refine ⟨L - 1, ?_, hxK, by rw [hret]; exact r2⟩
      rw [hret]
      by_cases hef : e - d.first ≤ L - 1
      · have r1R : |((round .near ((N + 1 : ℕ) : ℤ) s : ℚ) : ℝ) - s| ≤ 2 ^ (L - 1 - N - 1) := by
          have h3 : ((|round .near ((N + 1 : ℕ) : ℤ) s - s| : ℚ) : ℝ) ≤ (((2 : ℚ) ^ (L - 1 - ((N + 1 : ℕ) : ℤ)) : ℚ) : ℝ) := by
            exact_mod_cast r1
          push_cast at h3
          push_cast
          rw [show L - 1 - (N : ℤ) - 1 = L - 1 - ((N : ℤ) + 1) by ring]; exact h3
        have h4 : (2 : ℝ) ^ (e - 2 - d.first - N + b) ≤ 2 ^ (L - 1 - N - 1) := zmonoR (by omega)
        have h5 := two_halves (L - 1 - N)
        calc |x - ((round .near ((N + 1 : ℕ) : ℤ) s : ℚ) : ℝ)|
            ≤ |x - s| + |(s : ℝ) - ((round .near ((N + 1 : ℕ) : ℤ) s : ℚ) : ℝ)| := abs_sub_le _ _ _
          _ ≤ 2 ^ (L - 1 - N - 1) + 2 ^ (L - 1 - N - 1) := by rw [abs_sub_comm (s : ℝ)]; linarith
          _ = 2 ^ (L - 1 - (N : ℤ)) := h5
      · -- e = L and the first digit of inner is a one: no rounding happens
        have he : e = L := by omega
        have hf : d.first = 0 := by omega
        have hrep : Rep (N + 1) s := by
          have hai := d.arf_eq_int k
          have hlt := d.prefixInt_lt (k + 1)
          have hge := Digits.prefixInt_nonneg d.digit (d.first + k + 1)
          rw [hf] at hai hlt hge
          simp only [zero_add, Nat.cast_zero] at hai hlt hge
          set P := Digits.prefixInt d.digit (k + 1)
          have hkN : k + 1 = N := by omega
          refine ⟨-2 ^ (N + 1) + P, e - 1 - N, ?_, ?_⟩
          · rw [hkN] at hlt
            rw [pow_succ, abs_le]; constructor <;> omega
          · rw [hs, hIeq, ← he, ha, hai]
            push_cast
            have e1 : (2 : ℚ) ^ e = 2 ^ (N + 1) * 2 ^ (e - 1 - N) := by
              rw [← zpow_natCast, ← zadd]; congr 1; push_cast; ring
            have e2 : (2 : ℚ) ^ (-((k : ℤ) + 1)) * 2 ^ (e - 1) = 2 ^ (e - 1 - N) := by
              rw [← zadd]; congr 1; omega
            rw [mul_assoc, e2, e1]; ring
        rw [round_eq_self .near (by omega) hrep]
        refine hxs.trans (zmonoR ?_)
        omega
  · -- initial already has enough digits
    have hret : arfConstrained m e d N = round .near ((N + 1 : ℕ) : ℤ) I := by
      unfold arfConstrained
      simp only [← hI, ← hb]
      rw [if_neg hmiss, hN]
    by_cases hcase : 0 < I ∨ |I| ≠ 2 ^ L
    · obtain ⟨hxL, hkey⟩ := key hcase
      obtain ⟨r1, r2⟩ := round_near_K (N + 1) (by omega) hL1 hL2
      refine ⟨L, ?_, hxL, by rw [hret]; exact r2⟩
      have r1R : |((round .near ((N + 1 : ℕ) : ℤ) I : ℚ) : ℝ) - I| ≤ 2 ^ (L - N - 1) := by
        have h3 : ((|round .near ((N + 1 : ℕ) : ℤ) I - I| : ℚ) : ℝ) ≤ (((2 : ℚ) ^ (L - ((N + 1 : ℕ) : ℤ)) : ℚ) : ℝ) := by
          exact_mod_cast r1
        push_cast at h3
        push_cast
        rw [show L - (N : ℤ) - 1 = L - ((N : ℤ) + 1) by ring]; exact h3
      have h4 : (2 : ℝ) ^ (e - 1) ≤ 2 ^ (L - N - 1) := zmonoR (by omega)
      have h5 := two_halves (L - N)
      rw [hret]
      calc |x - ((round .near ((N + 1 : ℕ) : ℤ) I : ℚ) : ℝ)|
          ≤ |x - I| + |(I : ℝ) - ((round .near ((N + 1 : ℕ) : ℤ) I : ℚ) : ℝ)| := abs_sub_le _ _ _
        _ ≤ 2 ^ (L - N - 1) + 2 ^ (L - N - 1) := by
            have : |x - I| ≤ 2 ^ (L - N - 1) := by
              rw [hxI, add_sub_cancel_left, abs_of_pos hδ0]; linarith
            rw [abs_sub_comm (I : ℝ)]; linarith
        _ = 2 ^ (L - (N : ℤ)) := h5
    · push Not at hcase
      obtain ⟨hIneg, hIabs⟩ := hcase
      have hb' := hb3 hIabs
      have hneg : I < 0 := lt_of_le_of_ne hIneg hI0
      rw [abs_of_neg hneg] at hIabs
      have hIeq : I = - 2 ^ L := by linarith
      have hIeqR : (I : ℝ) = - 2 ^ L := by rw [hIeq]; push_cast; rfl
      have hN0 : N = 0 := by omega
      have hr : round .near ((N + 1 : ℕ) : ℤ) I = I := by
        apply round_eq_self .near (by omega); rw [hIeq]; exact (rep_zpow L).neg
      refine ⟨L - 1, ?_, ?_, ?_⟩
      · rw [hret, hr, hxI, add_sub_cancel_left, abs_of_pos hδ0, hN0]
        simpa using hδ1.trans hmidL
      · rw [le_abs]; right; rw [hxI, hIeqR]; linarith
      · rw [hret, hr]
        exact (zpow_mono (by omega)).trans hL1

theorem goodApprox (a : Atom) (prec : ℕ) : GoodApprox a.value (a.arf prec) prec := by
  cases a with
  | random d => exact d.goodApprox prec
  | constrained m e d => exact goodApprox_constrained m e d prec

end Atom

end ExactReal
