import Verif.Lemma.Slack
import Verif.Lemma.Coeff

/-! # Balls of elements -/

namespace ExactReal

open Arf Ball Filter Topology

/-- The numbers that the atoms stand for. -/
noncomputable def Atoms.vals (atoms : Atoms) : ℕ → ℝ := fun i => (atoms i).value

theorem RN.value_vals (atoms : Atoms) (g : RN) : g.value atoms.vals = g.real atoms := rfl

namespace Elt
variable {P : Type} [DecidableEq P] {R : Type} [CommRing R] [DecidableEq R] [CRing P R] [LawfulCRing P]
variable (atoms : Atoms) {F : Arith} {coeff : ℕ → R → Ball}

/-- The value of a list of terms. -/
noncomputable def termsValue (P : Type) [DecidableEq P] {R : Type} [CommRing R] [DecidableEq R] [CRing P R] [LawfulCRing P] (atoms : Atoms)
    (ts : List (RN × R)) : ℝ := (ts.map fun t => num P t.2 * t.1.real atoms).sum

theorem real_eq_termsValue (x : Elt P R) : x.real atoms.vals = termsValue P atoms x.terms := rfl

theorem arbSum_near (hF : F.Lawful) (hco : CoeffLawful P coeff) {c : ℝ} (hc : 1 ≤ c) (prec : ℕ) (ts : List (RN × R))
    (hg : ∀ t ∈ ts, Near c (t.1.arb atoms prec) (t.1.real atoms)) {b : Ball} {z : ℝ} (hb : Near c b z) :
    Near c (arbSum atoms F coeff prec b ts) (z + termsValue P atoms ts) := by
  induction ts generalizing b z with
  | nil => simpa [arbSum, termsValue] using hb
  | cons t ts ih =>
    obtain ⟨g, k⟩ := t
    rw [arbSum]
    have h1 := hF.mul_near hc prec (hg (g, k) (by simp)) (hco.contains prec k) (hco.finite prec k)
    have h2 := hF.add_near hc prec hb h1
    have := ih (fun t ht => hg t (by simp [ht])) h2
    convert this using 1
    simp only [termsValue, List.map_cons, List.sum_cons]; ring

theorem arbSum_tends (hF : F.Lawful) (hco : CoeffLawful P coeff) (ts : List (RN × R)) (hg : ∀ t ∈ ts, t.1.WF) {b : ℕ → Ball} {z : ℝ}
    (hb : Tends b z) : Tends (fun prec => arbSum atoms F coeff prec (b prec) ts) (z + termsValue P atoms ts) := by
  induction ts generalizing b z with
  | nil => simpa [arbSum, termsValue] using hb
  | cons t ts ih =>
    obtain ⟨g, k⟩ := t
    have h1 := hF.mul_tends (RN.arb_tends atoms (hg (g, k) (by simp))) (hco.tends k)
    have h2 := hF.add_tends hb h1
    have := ih (fun t ht => hg t (by simp [ht])) h2
    simp only [arbSum]
    convert this using 1
    simp only [termsValue, List.map_cons, List.sum_cons]; ring

omit [LawfulCRing P] in
theorem arbLoop_eq_search (A : ℕ) (ts : List (RN × R)) : ∀ fuel prec : ℕ, arbLoop atoms F coeff A ts fuel prec =
    search (fun p => .ok (if (arbSum atoms F coeff p (exact 0) ts).hasAccuracy A then some (arbSum atoms F coeff p (exact 0) ts) else none)) fuel prec
  | 0, _ => rfl
  | fuel + 1, prec => by
    rw [arbLoop, search]
    split_ifs with h
    · rfl
    · exact arbLoop_eq_search A ts fuel (prec * 2)

/-- What `arb` returns. -/
theorem arb_ok {fuel A : ℕ} {x : Elt P R} {b : Ball} (h : x.arb atoms F coeff fuel A = .ok b) :
    (x.toBool = false ∧ b = exact 0) ∨ ∃ j, b = arbSum atoms F coeff ((A + Nat.clog 2 x.mod.basis.length) * 2 ^ j) (exact 0) x.terms ∧
      b.hasAccuracy A = true := by
  rw [arb] at h
  split_ifs at h with h0
  · cases h; exact .inl ⟨by simpa using h0, rfl⟩
  · rw [arbLoop_eq_search] at h
    obtain ⟨k, hk⟩ := search_ok h
    simp only [Out.ok.injEq] at hk
    split_ifs at hk with h1
    cases hk
    exact .inr ⟨k, rfl, h1⟩

theorem le_prec (A n j : ℕ) : A ≤ (A + n) * 2 ^ j :=
  (Nat.le_add_right _ _).trans (Nat.le_mul_of_pos_right _ (by positivity))

theorem real_of_toBool {x : Elt P R} (hx : x.toBool = false) (v : ℕ → ℝ) : x.real v = 0 := by
  have : ∀ c ∈ x.coeffs, c = 0 := by simpa [toBool] using hx
  rw [real, value]
  apply List.sum_eq_zero
  intro y hy
  obtain ⟨t, ht, rfl⟩ := List.mem_map.1 hy
  have := this t.2 (List.of_mem_zip ht).2
  rw [this]; simp

/-- The ball of an element, inflated by the same factor as the balls of the generators, contains the number; and it has the accuracy asked
for. -/
theorem arb_near (hF : F.Lawful) (hco : CoeffLawful P coeff) {c : ℝ} (hc : 1 ≤ c) {fuel A : ℕ} {x : Elt P R} {b : Ball}
    (h : x.arb atoms F coeff fuel A = .ok b) (hg : ∀ g ∈ x.mod.basis, ∀ j, Near c (g.arb atoms ((A + Nat.clog 2 x.mod.basis.length) * 2 ^ j)) (g.real atoms)) :
    Near c b (x.real atoms.vals) ∧ b.hasAccuracy A = true := by
  rcases arb_ok atoms h with ⟨h0, rfl⟩ | ⟨j, rfl, ha⟩
  · rw [real_of_toBool h0]
    exact ⟨by simpa using near_exact c 0, by simp [hasAccuracy, exact]⟩
  · refine ⟨?_, ha⟩
    have h1 : Near c (exact 0) ((0 : ℚ) : ℝ) := near_exact c 0
    have := arbSum_near atoms hF hco hc _ x.terms (fun t ht => hg _ (List.of_mem_zip ht).1 j) h1
    simpa [real_eq_termsValue] using this

theorem arb_near_five (hF : F.Lawful) (hco : CoeffLawful P coeff) {fuel A : ℕ} (hA : 2 ≤ A) {x : Elt P R} (hx : x.WF) {b : Ball}
    (h : x.arb atoms F coeff fuel A = .ok b) : Near 5 b (x.real atoms.vals) ∧ b.hasAccuracy A = true :=
  arb_near atoms hF hco (by norm_num) h fun g hg _ => (RN.arb_near atoms (hx.mod.gens g hg) (hA.trans (le_prec _ _ _))).1

/-- How far an element can be outside of its ball. -/
theorem slack_of_near {b : Ball} {x : ℝ} {A : ℕ} (hA : 4 ≤ A) (h : Near 5 b x) (ha : b.hasAccuracy A = true) :
    Slack (6 * 2 ^ (-(A : ℤ)) * |x|) b x ∧ (b.radius : ℝ) ≤ 3 / 2 * 2 ^ (-(A : ℤ)) * |x| := by
  obtain ⟨r, h1, h2⟩ := accuracy_spec ha
  have h0 := h
  obtain ⟨r', k1, k2, k3⟩ := h0
  rw [h1] at k1; cases k1
  have h2 := (Rat.cast_le (K := ℝ)).2 (h2 k2)
  push_cast at h2
  have hp : (2 : ℝ) ^ (-(A : ℤ)) ≤ 1 / 16 := by
    refine (zmonoR (show -(A : ℤ) ≤ -4 by omega)).trans ?_; norm_num
  have hpos := zposR (-(A : ℤ))
  have h3 := abs_sub_abs_le_abs_sub (b.mid : ℝ) x
  rw [abs_sub_comm] at h3
  have hr0 : (0 : ℝ) ≤ r := by exact_mod_cast k2
  have hx0 := abs_nonneg x
  have hrad : (r : ℝ) ≤ 3 / 2 * 2 ^ (-(A : ℤ)) * |x| := by
    have e1 : (r : ℝ) ≤ 2 ^ (-(A : ℤ)) * (|x| + 5 * r) := h2.trans (mul_le_mul_of_nonneg_left (by linarith) hpos.le)
    have e2 : 2 ^ (-(A : ℤ)) * (5 * (r : ℝ)) ≤ 1 / 16 * (5 * r) := mul_le_mul_of_nonneg_right hp (by linarith)
    have e3 : 0 ≤ 2 ^ (-(A : ℤ)) * |x| := by positivity
    nlinarith
  refine ⟨h.slack.mono ?_, by rwa [radius_eq h1]⟩
  rw [radius_eq h1]
  linarith

theorem arb_slack (hF : F.Lawful) (hco : CoeffLawful P coeff) {fuel A : ℕ} (hA : 4 ≤ A) {x : Elt P R} (hx : x.WF) {b : Ball}
    (h : x.arb atoms F coeff fuel A = .ok b) :
    Slack (6 * 2 ^ (-(A : ℤ)) * |x.real atoms.vals|) b (x.real atoms.vals) ∧ (b.radius : ℝ) ≤ 3 / 2 * 2 ^ (-(A : ℤ)) * |x.real atoms.vals| := by
  obtain ⟨h1, h2⟩ := arb_near_five atoms hF hco (by omega) hx h
  exact slack_of_near hA h1 h2

/-- `arb` returns for a number that is not zero (or whose coefficients are zero). -/
theorem arb_terminates (hF : F.Lawful) (hco : CoeffLawful P coeff) (A : ℕ) (hA : 0 < A) {x : Elt P R} (hx : x.WF)
    (h : x.toBool = false ∨ x.real atoms.vals ≠ 0) : ∃ b N, ∀ fuel, N ≤ fuel → x.arb atoms F coeff fuel A = .ok b := by
  by_cases h0 : x.toBool = false
  · exact ⟨exact 0, 0, fun fuel _ => by rw [arb, h0]; rfl⟩
  · have hne := h.resolve_left h0
    have ht := arbSum_tends atoms hF hco x.terms (fun t ht => hx.mod.gens _ (List.of_mem_zip ht).1) (tends_exact 0)
    rw [Rat.cast_zero, zero_add, ← real_eq_termsValue] at ht
    obtain ⟨k, hk⟩ := ((tendsto_prec (show 0 < A + Nat.clog 2 x.mod.basis.length by omega)).eventually (ht.accuracy hne A)).exists
    set f : ℕ → Option Ball := fun p =>
      if (arbSum atoms F coeff p (exact 0) x.terms).hasAccuracy A then some (arbSum atoms F coeff p (exact 0) x.terms) else none with hf
    obtain ⟨r, N, hN⟩ := search_terminates (f := fun _ p => .ok (f p)) (g := fun k => f ((A + Nat.clog 2 x.mod.basis.length) * 2 ^ k))
      (prec := A + Nat.clog 2 x.mod.basis.length) (fun k => ⟨0, fun _ _ => rfl⟩) ⟨k, by simp only [hf]; rw [if_pos hk]; rfl⟩
    refine ⟨r, N, fun fuel hfuel => ?_⟩
    rw [arb, if_neg (by simpa using h0), arbLoop_eq_search]
    exact hN fuel hfuel

end Elt

end ExactReal
