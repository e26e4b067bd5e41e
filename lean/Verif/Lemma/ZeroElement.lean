import Verif.Lemma.ElementApprox
import Verif.Lemma.Single

/-! # Elements that are zero although their coefficients are not -/

namespace ExactReal

open Arf Ball

namespace Ball

/-- A ball with at least two points. -/
def Wide (b : Ball) : Prop := ∃ x y : ℝ, x ≠ y ∧ b.Contains x ∧ b.Contains y

theorem Wide.radius_ne {b : Ball} (h : b.Wide) : b.rad ≠ some 0 := by
  obtain ⟨x, y, hne, hx, hy⟩ := h
  intro h0
  unfold Contains at hx hy
  rw [h0] at hx hy
  simp only [Rat.cast_zero, abs_nonpos_iff] at hx hy
  exact hne (by linarith)

theorem Finite.contains_mid {b : Ball} (h : b.Finite) : b.Contains b.mid := by
  obtain ⟨r, h1, h2⟩ := h
  unfold Contains
  rw [h1]
  simpa using h2

theorem wide_of_radius {b : Ball} {r : ℚ} (h : b.rad = some r) (hr : 0 < r) : b.Wide := by
  have : (0 : ℝ) < r := by exact_mod_cast hr
  refine ⟨b.mid, b.mid + r, by linarith, ?_, ?_⟩
  · unfold Contains; rw [h]; simpa using this.le
  · unfold Contains; rw [h]; simp [abs_of_pos this]

end Ball

variable {F : Arith}

theorem Arith.Lawful.add_wide_left (hF : F.Lawful) (prec : ℕ) {a b : Ball} (ha : a.Wide) (hb : b.Finite) : (F.add prec a b).Wide := by
  obtain ⟨x, y, hne, hx, hy⟩ := ha
  exact ⟨_, _, by simpa using hne, hF.add_contains prec a b x _ hx hb.contains_mid, hF.add_contains prec a b y _ hy hb.contains_mid⟩

theorem Arith.Lawful.add_wide_right (hF : F.Lawful) (prec : ℕ) {a b : Ball} (ha : a.Finite) (hb : b.Wide) : (F.add prec a b).Wide := by
  obtain ⟨x, y, hne, hx, hy⟩ := hb
  exact ⟨_, _, by simpa using hne, hF.add_contains prec a b _ x ha.contains_mid hx, hF.add_contains prec a b _ y ha.contains_mid hy⟩

theorem Arith.Lawful.mul_wide (hF : F.Lawful) (prec : ℕ) {a b : Ball} {k : ℝ} (ha : a.Wide) (hb : b.Contains k) (hk : k ≠ 0) :
    (F.mul prec a b).Wide := by
  obtain ⟨x, y, hne, hx, hy⟩ := ha
  exact ⟨_, _, by simpa [hk] using hne, hF.mul_contains prec a b x k hx hb, hF.mul_contains prec a b y k hy hb⟩

theorem RN.arb_wide (atoms : Atoms) (x : RN) (prec : ℕ) : (x.arb atoms prec).Wide := by
  rw [RN.arb_eq]
  exact wide_of_radius rfl (two_zpow_pos _)

theorem RN.arb_finite' (atoms : Atoms) (x : RN) (prec : ℕ) : (x.arb atoms prec).Finite := by
  rw [RN.arb_eq]
  exact ⟨_, rfl, (two_zpow_pos _).le⟩

namespace Elt
variable {P : Type} [DecidableEq P] {R : Type} [CommRing R] [DecidableEq R] [CRing P R] [LawfulCRing P]
variable (atoms : Atoms) {coeff : ℕ → R → Ball}

theorem arbSum_wide (hF : F.Lawful) (hco : CoeffLawful P coeff) (prec : ℕ) (ts : List (RN × R)) {b : Ball} (hf : b.Finite)
    (h : b.Wide ∨ ∃ t ∈ ts, num P t.2 ≠ 0) : (arbSum atoms F coeff prec b ts).Wide := by
  induction ts generalizing b with
  | nil =>
    rcases h with h | ⟨t, ht, -⟩
    · simpa [arbSum] using h
    · simp at ht
  | cons t ts ih =>
    obtain ⟨g, k⟩ := t
    rw [arbSum]
    have hmf := hF.mul_finite prec _ _ (RN.arb_finite' atoms g prec) (hco.finite prec k)
    refine ih (hF.add_finite prec _ _ hf hmf) ?_
    rcases h with h | ⟨t, ht, hn⟩
    · exact .inl (hF.add_wide_left prec h hmf)
    · rw [List.mem_cons] at ht
      rcases ht with rfl | ht
      · exact .inl (hF.add_wide_right prec hf (hF.mul_wide prec (RN.arb_wide atoms g prec) (hco.contains prec k) hn))
      · exact .inr ⟨t, ht, hn⟩

omit [LawfulCRing P] in
theorem arb_ok_or_pending (x : Elt P R) (fuel A : ℕ) :
    x.arb atoms F coeff fuel A = .pending ∨ ∃ b, x.arb atoms F coeff fuel A = .ok b := by
  rw [arb]
  split_ifs
  · exact .inr ⟨_, rfl⟩
  · generalize A + Nat.clog 2 x.mod.basis.length = prec
    induction fuel generalizing prec with
    | zero => exact .inl rfl
    | succ fuel ih =>
      rw [arbLoop]
      split_ifs
      · exact .inr ⟨_, rfl⟩
      · exact ih _

/-- `arb` never returns for an element that is zero although one of its coefficients is not. -/
theorem arb_zero_pending (hF : F.Lawful) (hco : CoeffLawful P coeff) {A : ℕ} (hA : 4 ≤ A) {x : Elt P R} (hx : x.WF) (hb : x.toBool = true)
    (h0 : x.real atoms.vals = 0) (fuel : ℕ) : x.arb atoms F coeff fuel A = .pending := by
  rcases arb_ok_or_pending atoms (F := F) (coeff := coeff) x fuel A with h | ⟨b, h⟩
  · exact h
  exfalso
  have hs := (arb_slack atoms hF hco hA hx h).2
  rw [h0, abs_zero, mul_zero] at hs
  have hfin := (arb_near_five atoms hF hco (by omega) hx h).1.finite
  have hw : b.Wide := by
    rcases arb_ok atoms h with ⟨h1, -⟩ | ⟨j, rfl, -⟩
    · rw [hb] at h1; cases h1
    · refine arbSum_wide atoms hF hco _ _ (finite_exact 0) (.inr ?_)
      obtain ⟨c, hc, hc0⟩ : ∃ c ∈ x.coeffs, c ≠ 0 := by simpa [toBool] using hb
      obtain ⟨i, hi, rfl⟩ := List.getElem_of_mem hc
      refine ⟨(x.mod.basis[i]'(by rw [← hx.length]; exact hi), x.coeffs[i]), ?_, ?_⟩
      · rw [terms, List.mem_iff_getElem]
        exact ⟨i, by simp [← hx.length, hi], by simp⟩
      · exact fun h => hc0 (num_injective (P := P) (by rw [h, map_zero]))
  obtain ⟨r, h1, h2⟩ := hfin
  rw [radius_eq h1] at hs
  have : r ≤ 0 := by exact_mod_cast hs
  have : r = 0 := le_antisymm this h2
  exact hw.radius_ne (by rw [h1, this])

end Elt

end ExactReal
