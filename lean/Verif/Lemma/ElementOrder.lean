import Verif.Lemma.ElementApprox
import Verif.Spec.Order

/-! # Comparisons of elements -/

namespace ExactReal

open Arf Ball Filter Topology

theorem search_bind_ok {α β : Type} {self : ℕ → Out β} {op : ℕ → β → Out (Option α)} {fuel prec : ℕ} {r : α}
    (h : search (fun p => do let s ← self p; op p s) fuel prec = .ok r) : ∃ k s, self (prec * 2 ^ k) = .ok s ∧ op (prec * 2 ^ k) s = .ok (some r) := by
  obtain ⟨k, hk⟩ := search_ok h
  obtain ⟨s, h1, h2⟩ := Out.bind_eq_ok.1 hk
  exact ⟨k, s, h1, h2⟩

namespace Elt

/-- The loop of the comparisons is a search. -/
theorem ltLoop_eq_search (op : ℕ → Ball → Out (Option Bool)) (self : ℕ → Out Ball) : ∀ fuel prec : ℕ,
    ltLoop op self fuel prec = search (fun p => do let s ← self p; op p s) fuel prec
  | 0, _ => rfl
  | fuel + 1, prec => by
    rw [ltLoop, search]
    cases h : self prec with
    | ok s =>
      simp only [Out.ok_bind]
      cases h2 : op prec s with
      | ok r =>
        cases r with
        | some r => rfl
        | none => exact ltLoop_eq_search op self fuel (prec * 2)
      | _ => rfl
    | _ => rfl

/-- The loop of `floor` and `ceil` is a search. -/
theorem roundLoop_eq_search (round : ℚ → ℤ) (self : ℕ → Out Ball) : ∀ fuel prec : ℕ,
    roundLoop round self fuel prec = search (fun p => do
      let s ← self p
      let i ← s.interval
      .ok (if round i.1 = round i.2 then some (round i.1) else none)) fuel prec
  | 0, _ => rfl
  | fuel + 1, prec => by
    rw [roundLoop, search]
    cases h : self prec with
    | ok s =>
      simp only [Out.ok_bind]
      cases h2 : s.interval with
      | ok i =>
        simp only [Out.ok_bind]
        by_cases h3 : round i.1 = round i.2
        · rw [if_pos h3, if_pos h3]
        · rw [if_neg h3, if_neg h3]
          exact roundLoop_eq_search round self fuel (prec * 2)
      | _ => rfl
    | _ => rfl

/-- The loop of the conversion to `double` is a search. -/
theorem doubleLoop_eq_search (self : ℕ → Out Ball) : ∀ fuel prec : ℕ,
    doubleLoop self fuel prec = search (fun p => do
      let s ← self p
      let i ← s.interval
      .ok (if Double.ofArf i.1 = Double.ofArf i.2 then some (Double.ofArf i.1) else none)) fuel prec
  | 0, _ => rfl
  | fuel + 1, prec => by
    rw [doubleLoop, search]
    cases h : self prec with
    | ok s =>
      simp only [Out.ok_bind]
      cases h2 : s.interval with
      | ok i =>
        simp only [Out.ok_bind]
        by_cases h3 : Double.ofArf i.1 = Double.ofArf i.2
        · rw [if_pos h3, if_pos h3]
        · rw [if_neg h3, if_neg h3]
          exact doubleLoop_eq_search self fuel (prec * 2)
      | _ => rfl
    | _ => rfl

end Elt

/-- Slack of a ball of accuracy at least 55, and its radius. -/
theorem slack_of_near_c {c : ℝ} (hc : 1 ≤ c) (hc5 : c ≤ 5) {b : Ball} {x : ℝ} {A : ℕ} (hA : 4 ≤ A) (h : Near c b x) (ha : b.hasAccuracy A = true) :
    Slack ((c - 1) * (3 / 2 * 2 ^ (-(A : ℤ)) * |x|)) b x ∧ (b.radius : ℝ) ≤ 3 / 2 * 2 ^ (-(A : ℤ)) * |x| := by
  have hr := (Elt.slack_of_near hA (h.mono hc5) ha).2
  exact ⟨h.slack.mono (mul_le_mul_of_nonneg_left hr (by linarith)), hr⟩

/-- `Arb` times an exact integer, as in the comparisons with rationals. -/
theorem scaled_slack_c {F : Arith} (hF : F.Lawful) {c : ℝ} (hc : 1 ≤ c) (hc5 : c ≤ 5) {b : Ball} {x : ℝ} {A : ℕ} (hA : 4 ≤ A) (h : Near c b x)
    (ha : b.hasAccuracy A = true) (q : ℚ) : Slack ((c - 1) * (3 * 2 ^ (-(A : ℤ)) * |x|) * q.den) (b.scaled F q) (x * q.den) := by
  have hr := (slack_of_near_c hc hc5 hA h ha).2
  have hd : (0 : ℝ) < q.den := by exact_mod_cast q.den_pos
  have hn := hF.mul_near hc ARF_PREC_EXACT h (b := exact q.den) (y := q.den) ((contains_exact _ _).2 (by simp)) (finite_exact _)
  refine Slack.mono (Near.slack hn) ?_
  have hrad := hF.mul_exact_radius b (exact q.den) h.finite (finite_exact _)
  have hexr : (exact (q.den : ℚ)).radius = 0 := rfl
  have hexm : (exact (q.den : ℚ)).mid = q.den := rfl
  rw [hexr, hexm, mul_zero, mul_zero, zero_add, add_zero, abs_of_pos (by exact_mod_cast q.den_pos)] at hrad
  have hrad' := (Rat.cast_le (K := ℝ)).2 hrad
  push_cast at hrad'
  have e1 := mul_le_mul_of_nonneg_left hr hd.le
  have e2 : ((F.mul ARF_PREC_EXACT b (exact q.den)).radius : ℝ) ≤ 3 * 2 ^ (-(A : ℤ)) * |x| * q.den := by
    refine hrad'.trans ?_
    linarith
  have := mul_le_mul_of_nonneg_left e2 (show 0 ≤ c - 1 by linarith)
  unfold scaled
  linarith

/-- Slack of the ball of a real number, if the ball inflated by `c` contains it. -/
theorem RN.arb_slack_c (atoms : Atoms) {c : ℝ} (hc : 1 ≤ c) {y : RN} (hy : y.WF) {prec : ℕ} (hp : 2 ≤ prec)
    (h : Near c (y.arb atoms prec) (y.real atoms)) : Slack ((c - 1) * (3 / 2 * 2 ^ (-(prec : ℤ)) * |y.real atoms|)) (y.arb atoms prec) (y.real atoms) := by
  have hpos := zposR (-(prec : ℤ))
  by_cases h0 : y.real atoms = 0
  · obtain ⟨-, h2⟩ := RN.arb_slack atoms hy hp
    have hnp : ∀ m, y ≠ .prod m := by rintro m rfl; have := RN.real_eq_zero atoms hy h0; cases this
    exact (h2 hnp).mono (by rw [h0]; simp)
  · refine h.slack.mono (mul_le_mul_of_nonneg_left ?_ (by linarith))
    have hne : y.arf atoms prec ≠ 0 := by rw [arf_nat]; exact (arf_error atoms hy h0 prec hp).1
    have hr := (Rat.cast_le (K := ℝ)).2 (arb_radius atoms y prec hne)
    push_cast at hr
    refine hr.trans ?_
    rw [show -((prec : ℤ) + 1) = -(prec : ℤ) + (-1) by ring, zaddR, show (2 : ℝ) ^ (-1 : ℤ) = 1 / 2 by norm_num]
    have hb : |(y.arf atoms prec : ℝ)| ≤ 3 * |y.real atoms| := by
      obtain ⟨r, h1, h2, h3⟩ := (arb_near atoms hy hp).1
      have e : (y.arb atoms prec).mid = y.arf atoms prec := by rw [arb_eq]
      have hr2 := (Rat.cast_le (K := ℝ)).2 (arb_radius atoms y prec hne)
      rw [radius_eq h1] at hr2
      push_cast at hr2
      rw [e] at h3
      have h4 := abs_sub_abs_le_abs_sub (y.arf atoms prec : ℝ) (y.real atoms)
      rw [abs_sub_comm] at h4
      have h8 : (2 : ℝ) ^ (-((prec : ℤ) + 1)) ≤ 1 / 8 := by
        refine (zmonoR (show -((prec : ℤ) + 1) ≤ -3 by omega)).trans ?_; norm_num
      have h9 := mul_le_mul_of_nonneg_right h8 (abs_nonneg (y.arf atoms prec : ℝ))
      have h10 := abs_nonneg (y.real atoms)
      linarith
    nlinarith


namespace Elt
variable {P : Type} [DecidableEq P] {R : Type} [CommRing R] [DecidableEq R] [CRing P R] [LawfulCRing P]
variable (atoms : Atoms) {F : Arith} {coeff : ℕ → R → Ball}

/-- The balls of the generators that `arb(A)` uses, inflated by `c`, contain the generators. -/
def GenNear (atoms : Atoms) (c : ℝ) (A : ℕ) (m : Mod P) : Prop :=
  ∀ g ∈ m.basis, ∀ j, Near c (g.arb atoms ((A + Nat.clog 2 m.basis.length) * 2 ^ j)) (g.real atoms)

omit [DecidableEq P] in
theorem genNear_five {m : Mod P} (hm : m.WF) {A : ℕ} (hA : 2 ≤ A) : GenNear atoms 5 A m :=
  fun g hg _ => (RN.arb_near atoms (hm.gens g hg) (hA.trans (le_prec _ _ _))).1

omit [DecidableEq P] in
theorem genNear_one {m : Mod P} (hm : m.WF) {A : ℕ} (hA : 2 ≤ A) (h : m.Contained atoms A) : GenNear atoms 1 A m :=
  fun g hg j => (h g hg j).near (RN.arb_near atoms (hm.gens g hg) (hA.trans (le_prec _ _ _))).1.finite

theorem arb_slack_c (hF : F.Lawful) (hco : CoeffLawful P coeff) {c : ℝ} (hc : 1 ≤ c) (hc5 : c ≤ 5) {fuel A : ℕ} (hA : 4 ≤ A) {x : Elt P R}
    (hg : GenNear atoms c A x.mod) {b : Ball} (h : x.arb atoms F coeff fuel A = .ok b) : Near c b (x.real atoms.vals) ∧ b.hasAccuracy A = true ∧
      Slack ((c - 1) * (3 / 2 * 2 ^ (-(A : ℤ)) * |x.real atoms.vals|)) b (x.real atoms.vals) ∧
      (b.radius : ℝ) ≤ 3 / 2 * 2 ^ (-(A : ℤ)) * |x.real atoms.vals| := by
  obtain ⟨h1, h2⟩ := arb_near atoms hF hco hc h hg
  obtain ⟨h3, h4⟩ := slack_of_near_c hc hc5 hA h1 h2
  exact ⟨h1, h2, h3, h4⟩

/-- The balls that `arb` returns for growing accuracies shrink to the element. -/
theorem arb_family (hF : F.Lawful) (hco : CoeffLawful P coeff) {x : Elt P R} (hx : x.WF)
    (h : x.toBool = false ∨ x.real atoms.vals ≠ 0) : ∃ B : ℕ → Ball, (∀ A, 0 < A → ∃ N, ∀ fuel, N ≤ fuel → x.arb atoms F coeff fuel A = .ok (B A)) ∧
      Tends B (x.real atoms.vals) := by
  have hB : ∀ A, ∃ b, 0 < A → ∃ N, ∀ fuel, N ≤ fuel → x.arb atoms F coeff fuel A = .ok b := by
    intro A
    by_cases hA : 0 < A
    · obtain ⟨b, hb⟩ := arb_terminates atoms hF hco A hA hx h
      exact ⟨b, fun _ => hb⟩
    · exact ⟨exact 0, fun h => absurd h hA⟩
  choose B hB using hB
  refine ⟨B, hB, ?_⟩
  have key : ∀ A, 4 ≤ A → Near 5 (B A) (x.real atoms.vals) ∧ ((B A).radius : ℝ) ≤ 3 / 2 * 2 ^ (-(A : ℤ)) * |x.real atoms.vals| := by
    intro A hA
    obtain ⟨N, hN⟩ := hB A (by omega)
    obtain ⟨h1, h2⟩ := arb_near_five atoms hF hco (by omega) hx (hN N le_rfl)
    exact ⟨h1, (slack_of_near hA h1 h2).2⟩
  have hz := (zpow_neg_tendsto 0).mul_const (3 / 2 * |x.real atoms.vals|)
  have hz5 := hz.mul_const 5
  rw [zero_mul] at hz
  rw [zero_mul, zero_mul] at hz5
  refine Tends.mk' ?_ ?_ hz ?_ hz5
  · filter_upwards [eventually_ge_atTop 4] with A hA using (key A hA).1.finite
  · filter_upwards [eventually_ge_atTop 4] with A hA
    have := (key A hA).2
    rw [zero_sub]; linarith
  · filter_upwards [eventually_ge_atTop 4] with A hA
    obtain ⟨⟨r, h1, h2, h3⟩, h4⟩ := key A hA
    rw [radius_eq h1] at h4
    rw [abs_sub_comm, zero_sub]; linarith

/-- Termination of the comparison loops. -/
theorem ltLoop_terminates (hF : F.Lawful) (hco : CoeffLawful P coeff) {x : Elt P R} (hx : x.WF)
    (h : x.toBool = false ∨ x.real atoms.vals ≠ 0) {y : ℝ} (hne : x.real atoms.vals ≠ y) {d : ℝ} (hd : 0 < d)
    {op : ℕ → ℕ → Ball → Out (Option Bool)} {T : Ball → Ball} (hT : ∀ B : ℕ → Ball, Tends B (x.real atoms.vals) → Tends (fun n => T (B n)) (x.real atoms.vals * d))
    {C : ℕ → Ball} (hC : Tends C (y * d))
    (hop : ∀ A, 0 < A → ∃ N, ∀ fuel, N ≤ fuel → ∀ a, op fuel A a = .ok ((T a).lt (C A))) :
    ∃ r N, ∀ fuel, N ≤ fuel → ltLoop (op fuel) (fun p => x.arb atoms F coeff fuel p) fuel 64 = .ok r := by
  obtain ⟨B, hB, hBt⟩ := arb_family atoms hF hco hx h
  have hdiff : x.real atoms.vals * d ≠ y * d := fun h => hne (mul_right_cancel₀ hd.ne' h)
  have ht := (hT B hBt).lt_isSome hC hdiff
  obtain ⟨k, hk⟩ := ((tendsto_prec (show 0 < 64 by norm_num)).eventually ht).exists
  obtain ⟨r, N, hN⟩ := search_terminates (f := fun fuel p => do let s ← x.arb atoms F coeff fuel p; op fuel p s)
    (g := fun k => (T (B (64 * 2 ^ k))).lt (C (64 * 2 ^ k))) (prec := 64) (fun k => by
      obtain ⟨N1, h1⟩ := hB (64 * 2 ^ k) (by positivity)
      obtain ⟨N2, h2⟩ := hop (64 * 2 ^ k) (by positivity)
      refine ⟨max N1 N2, fun fuel hf => ?_⟩
      show (x.arb atoms F coeff fuel (64 * 2 ^ k)).bind _ = _
      rw [h1 fuel (le_trans (le_max_left _ _) hf)]
      exact h2 fuel (le_trans (le_max_right _ _) hf) _) ⟨k, hk⟩
  refine ⟨r, N, fun fuel hf => ?_⟩
  rw [ltLoop_eq_search]
  exact hN fuel hf

end Elt

end ExactReal
