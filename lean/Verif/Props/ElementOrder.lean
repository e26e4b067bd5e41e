import Verif.Lemma.ElementOrder
import Verif.Lemma.IndependentAtoms
import Verif.Props.Convert
import Verif.Props.RealOrder
import Verif.Spec.Order

/-!
# C26, C22: balls and comparisons of elements

`x.arb(accuracy)` is as good as the balls of the generators: it contains `x` if they contain the generators, and in any case `x` is at most five
radii away from its midpoint.  So comparisons are right up to a relative error of `2^-60`, and right if the balls of the generators contain the
generators (`Mod.Contained`).
-/

namespace ExactReal.Props

open Arf Ball

variable {P : Type} [DecidableEq P] {R : Type} [CommRing R] [DecidableEq R] [CRing P R] [LawfulCRing P]
variable (atoms : Atoms) {F : Arith} {coeff : ℕ → R → Ball}

/-! ### C26 -/

/-- **C26**: `x.arb(accuracy)` has at least the accuracy asked for, and if the balls of the generators contain the generators, then it contains
`x`. -/
theorem elt_arb_contains (hF : F.Lawful) (hco : CoeffLawful P coeff) {fuel A : ℕ} {x : Elt P R} (hx : x.WF) (hA : 4 ≤ A)
    (hg : x.mod.Contained atoms A) {b : Ball} (h : x.arb atoms F coeff fuel A = .ok b) : b.Contains (x.real atoms.vals) ∧ b.hasAccuracy A = true := by
  obtain ⟨h1, h2, -⟩ := Elt.arb_slack_c atoms hF hco le_rfl (by norm_num) hA (Elt.genNear_one atoms hx.mod (by omega) hg) h
  obtain ⟨r, h3, h4, h5⟩ := h1
  exact ⟨by rw [contains_iff h3]; linarith, h2⟩

/-- **C26** without hypothesis on the generators (accuracy at least two): the ball has the accuracy asked for, and `x` is at most five radii away
from its midpoint. -/
theorem elt_arb_partial (hF : F.Lawful) (hco : CoeffLawful P coeff) {fuel A : ℕ} {x : Elt P R} (hx : x.WF) (hA : 2 ≤ A)
    {b : Ball} (h : x.arb atoms F coeff fuel A = .ok b) :
    b.hasAccuracy A = true ∧ ∃ r : ℚ, b.rad = some r ∧ 0 ≤ r ∧ |x.real atoms.vals - b.mid| ≤ 5 * r := by
  obtain ⟨h1, h2⟩ := Elt.arb_near_five atoms hF hco hA hx h
  exact ⟨h2, h1⟩

/-- **C26** (termination). -/
theorem elt_arb_terminates (hF : F.Lawful) (hco : CoeffLawful P coeff) (A : ℕ) (hA : 0 < A) {x : Elt P R} (hx : x.WF)
    (h : x.toBool = false ∨ x.real atoms.vals ≠ 0) : ∃ b N, ∀ fuel, N ≤ fuel → x.arb atoms F coeff fuel A = .ok b :=
  Elt.arb_terminates atoms hF hco A hA hx h

/-! ### C22 -/

variable [build : Build]

omit [LawfulCRing P] in
theorem elt_lt_ok {fuel : ℕ} {x y : Elt P R} {r : Bool} (h : Elt.lt atoms F coeff fuel x y = .ok r) :
    (x.eq y = .ok true ∧ r = false) ∨ (x.eq y = .ok false ∧ ∃ k a b, x.arb atoms F coeff fuel (64 * 2 ^ k) = .ok a ∧
      y.arb atoms F coeff fuel (64 * 2 ^ k) = .ok b ∧ a.lt b = some r) := by
  rw [Elt.lt] at h
  obtain ⟨e, h1, h2⟩ := Out.bind_eq_ok.1 h
  cases e with
  | true => rw [if_pos rfl] at h2; cases h2; exact .inl ⟨h1, rfl⟩
  | false =>
    rw [if_neg (by simp), Elt.ltLoop_eq_search] at h2
    obtain ⟨k, a, k1, k2⟩ := search_bind_ok h2
    obtain ⟨b, k3, k4⟩ := Out.bind_eq_ok.1 k2
    exact .inr ⟨h1, k, a, b, k1, k3, by simpa using k4⟩

omit [LawfulCRing P] in
theorem elt_ltRN_ok {fuel : ℕ} {x : Elt P R} {y : RN} {r : Bool} (h : Elt.ltRN atoms F coeff fuel x y = .ok r) :
    (x.eqRN y = .ok true ∧ r = false) ∨ (x.eqRN y = .ok false ∧ ∃ k a, x.arb atoms F coeff fuel (64 * 2 ^ k) = .ok a ∧
      a.lt (y.arb atoms (64 * 2 ^ k)) = some r) := by
  rw [Elt.ltRN] at h
  obtain ⟨e, h1, h2⟩ := Out.bind_eq_ok.1 h
  cases e with
  | true => rw [if_pos rfl] at h2; cases h2; exact .inl ⟨h1, rfl⟩
  | false =>
    rw [if_neg (by simp), Elt.ltLoop_eq_search] at h2
    obtain ⟨k, a, k1, k2⟩ := search_bind_ok h2
    exact .inr ⟨h1, k, a, k1, by simpa using k2⟩

omit [LawfulCRing P] build in
theorem elt_ltQ_ok {fuel : ℕ} {x : Elt P R} {q : ℚ} {r : Bool} (h : Elt.ltQ atoms F coeff fuel x q = .ok r) :
    (x.eqQ q = true ∧ r = false) ∨ (x.eqQ q = false ∧ ∃ k a, x.arb atoms F coeff fuel (64 * 2 ^ k) = .ok a ∧ a.ltQ F q = some r) := by
  rw [Elt.ltQ] at h
  split_ifs at h with he
  · cases h; exact .inl ⟨he, rfl⟩
  · rw [Elt.ltLoop_eq_search] at h
    obtain ⟨k, a, k1, k2⟩ := search_bind_ok h
    exact .inr ⟨by simpa using he, k, a, k1, by simpa using k2⟩

omit [LawfulCRing P] build in
theorem elt_ltZ_ok {fuel : ℕ} {x : Elt P R} {n : ℤ} {r : Bool} (h : Elt.ltZ atoms F coeff fuel x n = .ok r) :
    (x.eqZ n = true ∧ r = false) ∨ (x.eqZ n = false ∧ ∃ k a, x.arb atoms F coeff fuel (64 * 2 ^ k) = .ok a ∧ a.lt (exact n) = some r) := by
  rw [Elt.ltZ] at h
  split_ifs at h with he
  · cases h; exact .inl ⟨he, rfl⟩
  · rw [Elt.ltLoop_eq_search] at h
    obtain ⟨k, a, k1, k2⟩ := search_bind_ok h
    exact .inr ⟨by simpa using he, k, a, k1, by simpa using k2⟩

/-- `x == r` is sound for whatever the atoms stand for. -/
theorem eqRN_sound {x : Elt P R} (hx : x.WF) {r : RN} (h : x.eqRN r = .ok true) (v : ℕ → ℝ) : x.real v = r.value v := by
  have h10 : (1 : R) ≠ 0 := by
    intro h
    have := congrArg (Elt.num P) h
    rw [map_one, map_zero] at this
    exact one_ne_zero this
  unfold Elt.eqRN at h
  split_ifs at h with h0
  · have h1 : r.toBool = false := by simpa using h
    rw [Elt.real_of_toBool (by simpa using h0)]
    cases r with
    | rat q => simp [RN.toBool, RN.rational?] at h1; simp [RN.value, h1]
    | atom i => simp [RN.toBool, RN.rational?] at h1
    | prod m => simp [RN.toBool, RN.rational?] at h1
  · obtain ⟨-, -, h⟩ := Out.bind_eq_ok.1 h
    have h2 : Elt.eqRNLoop r x.terms = true := by simpa using h
    rw [eqRNLoop_iff r _ h10] at h2
    have hr : r ∈ x.mod.basis := by
      by_contra hr
      apply h0
      rw [Bool.not_eq_true', Elt.toBool_eq_false_iff]
      intro c hc
      obtain ⟨i, hi, rfl⟩ := List.mem_iff_getElem.1 hc
      have ht : (x.mod.basis[i]'(by rw [← hx.length]; exact hi), x.coeffs[i]) ∈ x.terms := by
        rw [Elt.terms]
        exact List.mem_iff_getElem.2 ⟨i, by simp [hi, ← hx.length], by simp⟩
      have := h2 _ ht
      rw [if_neg] at this
      · exact this
      · rintro rfl; exact hr (List.getElem_mem _)
    obtain ⟨ws, fs⟩ := Mod.single_spec (R := R) hx.mod hr (d := 1) (Subring.one_mem _)
    have h1 : r.value v = (x.mod.single r (1 : R)).real v := by
      rw [single_real v fs, map_one, _root_.one_mul]
    rw [h1, Elt.real_eq_evalF, Elt.real_eq_evalF, fs]
    congr 1
    ext g
    rw [Finsupp.single_apply]
    by_cases hg : g ∈ x.mod.basis
    · rw [← Elt.terms_fst hx.length] at hg
      obtain ⟨t, ht, rfl⟩ := List.mem_map.1 hg
      rw [hx.fs_apply (g := t.1) (c := t.2) ht, h2 t ht]
      simp [eq_comm]
    · rw [Elt.fs_apply_of_not_mem hx hg, if_neg]
      rintro rfl; exact hg hr

omit [CommRing R] [DecidableEq R] [CRing P R] [LawfulCRing P] [DecidableEq P] build in
theorem le_start (n k : ℕ) : n ≤ n * 2 ^ k := Nat.le_mul_of_pos_right _ (by positivity)

omit [CommRing R] [DecidableEq R] [CRing P R] [LawfulCRing P] [DecidableEq P] build in
theorem pow_A {A : ℕ} (hA : 64 ≤ A) : (2 : ℝ) ^ (-(A : ℤ)) ≤ 2 ^ (-(64 : ℤ)) := zmonoR (by omega)

omit [CommRing R] [DecidableEq R] [CRing P R] [LawfulCRing P] [DecidableEq P] build in
theorem err_mono {c k s : ℝ} (hc : 1 ≤ c) (hk : 0 ≤ k) (hs : 0 ≤ s) {A : ℕ} (hA : 64 ≤ A) :
    (c - 1) * (k * 2 ^ (-(A : ℤ)) * s) ≤ (c - 1) * (k * 2 ^ (-(64 : ℤ)) * s) :=
  mul_le_mul_of_nonneg_left (mul_le_mul_of_nonneg_right (mul_le_mul_of_nonneg_left (pow_A hA) hk) hs) (by linarith)

/-- Comparisons with a general inflation factor. -/
theorem elt_lt_c (hF : F.Lawful) (hco : CoeffLawful P coeff) {c : ℝ} (hc : 1 ≤ c) (hc5 : c ≤ 5) {fuel : ℕ} {x y : Elt P R} (hx : x.WF) (hy : y.WF)
    (gx : ∀ k, Elt.GenNear atoms c (64 * 2 ^ k) x.mod) (gy : ∀ k, Elt.GenNear atoms c (64 * 2 ^ k) y.mod) {r : Bool} (h : Elt.lt atoms F coeff fuel x y = .ok r) :
    LtUpTo ((c - 1) * (3 / 2 * 2 ^ (-(64 : ℤ)) * (|x.real atoms.vals| + |y.real atoms.vals|))) r (x.real atoms.vals) (y.real atoms.vals) := by
  have hE : 0 ≤ (c - 1) * (3 / 2 * 2 ^ (-(64 : ℤ)) * (|x.real atoms.vals| + |y.real atoms.vals|)) :=
    mul_nonneg (by linarith) (by positivity)
  rcases elt_lt_ok atoms h with ⟨he, rfl⟩ | ⟨-, k, a, b, ha, hb, hlt⟩
  · exact ⟨fun h => by simp at h, fun _ => by have := eq_sound hx hy he atoms.vals; linarith⟩
  · have hA := le_start 64 k
    have gxk := gx k
    have gyk := gy k
    generalize 64 * 2 ^ k = A at gxk ha hA hlt gyk hb
    obtain ⟨-, -, s1, -⟩ := Elt.arb_slack_c atoms hF hco hc hc5 (by omega) gxk ha
    obtain ⟨-, -, s2, -⟩ := Elt.arb_slack_c atoms hF hco hc hc5 (by omega) gyk hb
    obtain ⟨h1, h2⟩ := lt_slack s1 s2 hlt
    have hle : (c - 1) * (3 / 2 * 2 ^ (-(A : ℤ)) * |x.real atoms.vals|) + (c - 1) * (3 / 2 * 2 ^ (-(A : ℤ)) * |y.real atoms.vals|) ≤
        (c - 1) * (3 / 2 * 2 ^ (-(64 : ℤ)) * (|x.real atoms.vals| + |y.real atoms.vals|)) := by
      rw [← mul_add, ← mul_add]
      exact err_mono hc (by norm_num) (add_nonneg (abs_nonneg (x.real atoms.vals)) (abs_nonneg (y.real atoms.vals))) hA
    exact ⟨fun hr => by have := h1 hr; linarith, fun hr => by have := h2 hr; linarith⟩

theorem elt_ltRN_c (hF : F.Lawful) (hco : CoeffLawful P coeff) {c : ℝ} (hc : 1 ≤ c) (hc5 : c ≤ 5) {fuel : ℕ} {x : Elt P R} {y : RN} (hx : x.WF)
    (hy : y.WF) (gx : ∀ k, Elt.GenNear atoms c (64 * 2 ^ k) x.mod) (gy : ∀ k, Near c (y.arb atoms (64 * 2 ^ k)) (y.real atoms)) {r : Bool}
    (h : Elt.ltRN atoms F coeff fuel x y = .ok r) :
    LtUpTo ((c - 1) * (3 / 2 * 2 ^ (-(64 : ℤ)) * (|x.real atoms.vals| + |y.real atoms|))) r (x.real atoms.vals) (y.real atoms) := by
  have hE : 0 ≤ (c - 1) * (3 / 2 * 2 ^ (-(64 : ℤ)) * (|x.real atoms.vals| + |y.real atoms|)) := mul_nonneg (by linarith) (by positivity)
  rcases elt_ltRN_ok atoms h with ⟨he, rfl⟩ | ⟨-, k, a, ha, hlt⟩
  · refine ⟨fun h => by simp at h, fun _ => ?_⟩
    have := eqRN_sound hx he atoms.vals
    rw [RN.value_vals] at this
    linarith
  · have hA := le_start 64 k
    have gxk := gx k
    have gyk := gy k
    generalize 64 * 2 ^ k = A at gxk ha hA hlt gyk
    obtain ⟨-, -, s1, -⟩ := Elt.arb_slack_c atoms hF hco hc hc5 (by omega) gxk ha
    have s2 := RN.arb_slack_c atoms hc hy (prec := A) (by omega) gyk
    obtain ⟨h1, h2⟩ := lt_slack s1 s2 hlt
    have hle : (c - 1) * (3 / 2 * 2 ^ (-(A : ℤ)) * |x.real atoms.vals|) + (c - 1) * (3 / 2 * 2 ^ (-(A : ℤ)) * |y.real atoms|) ≤
        (c - 1) * (3 / 2 * 2 ^ (-(64 : ℤ)) * (|x.real atoms.vals| + |y.real atoms|)) := by
      rw [← mul_add, ← mul_add]
      exact err_mono hc (by norm_num) (add_nonneg (abs_nonneg (x.real atoms.vals)) (abs_nonneg (y.real atoms))) hA
    exact ⟨fun hr => by have := h1 hr; linarith, fun hr => by have := h2 hr; linarith⟩

omit build in
theorem elt_ltQ_c (hF : F.Lawful) (hco : CoeffLawful P coeff) {c : ℝ} (hc : 1 ≤ c) (hc5 : c ≤ 5) {fuel : ℕ} {x : Elt P R} {q : ℚ}
    (gx : ∀ k, Elt.GenNear atoms c (64 * 2 ^ k) x.mod) {r : Bool} (h : Elt.ltQ atoms F coeff fuel x q = .ok r) :
    LtUpTo ((c - 1) * (3 * 2 ^ (-(64 : ℤ)) * |x.real atoms.vals|)) r (x.real atoms.vals) q := by
  have hE : 0 ≤ (c - 1) * (3 * 2 ^ (-(64 : ℤ)) * |x.real atoms.vals|) := mul_nonneg (by linarith) (by positivity)
  rcases elt_ltQ_ok atoms h with ⟨he, rfl⟩ | ⟨-, k, a, ha, hlt⟩
  · refine ⟨fun h => by simp at h, fun _ => ?_⟩
    rw [Elt.eqQ, decide_eq_true_iff] at he
    have := rational_sound he atoms.vals
    linarith
  · have hA := le_start 64 k
    have gxk := gx k
    generalize 64 * 2 ^ k = A at gxk ha hA hlt
    obtain ⟨n1, acc, -, -⟩ := Elt.arb_slack_c atoms hF hco hc hc5 (by omega) gxk ha
    have s1 := scaled_slack_c hF hc hc5 (by omega) n1 acc q
    have hd := den_pos' q
    have hnum : Slack 0 (exact q.num) ((q : ℝ) * q.den) := by
      have := slack_exact (q.num : ℚ)
      have e : ((q.num : ℚ) : ℝ) = (q : ℝ) * q.den := by
        have := Rat.mul_den_eq_num q
        exact_mod_cast this.symm
      rwa [e] at this
    obtain ⟨h1, h2⟩ := lt_slack s1 hnum hlt
    rw [add_zero] at h1 h2
    have hle : (c - 1) * (3 * 2 ^ (-(A : ℤ)) * |x.real atoms.vals|) ≤ (c - 1) * (3 * 2 ^ (-(64 : ℤ)) * |x.real atoms.vals|) :=
      err_mono hc (by norm_num) (abs_nonneg _) hA
    refine ⟨fun hr => ?_, fun hr => ?_⟩
    · have := h1 hr
      rw [← add_mul] at this
      have := lt_of_mul_lt_mul_right this hd.le
      linarith
    · have := h2 hr
      rw [← add_mul] at this
      have := le_of_mul_le_mul_right this hd
      linarith

omit build in
theorem elt_ltZ_c (hF : F.Lawful) (hco : CoeffLawful P coeff) {c : ℝ} (hc : 1 ≤ c) (hc5 : c ≤ 5) {fuel : ℕ} {x : Elt P R} {n : ℤ}
    (gx : ∀ k, Elt.GenNear atoms c (64 * 2 ^ k) x.mod) {r : Bool} (h : Elt.ltZ atoms F coeff fuel x n = .ok r) :
    LtUpTo ((c - 1) * (3 / 2 * 2 ^ (-(64 : ℤ)) * |x.real atoms.vals|)) r (x.real atoms.vals) n := by
  have hE : 0 ≤ (c - 1) * (3 / 2 * 2 ^ (-(64 : ℤ)) * |x.real atoms.vals|) := mul_nonneg (by linarith) (by positivity)
  rcases elt_ltZ_ok atoms h with ⟨he, rfl⟩ | ⟨-, k, a, ha, hlt⟩
  · refine ⟨fun h => by simp at h, fun _ => ?_⟩
    rw [Elt.eqZ, Elt.eqQ, decide_eq_true_iff] at he
    have := rational_sound he atoms.vals
    push_cast at this
    linarith
  · have hA := le_start 64 k
    have gxk := gx k
    generalize 64 * 2 ^ k = A at gxk ha hA hlt
    obtain ⟨-, -, s1, -⟩ := Elt.arb_slack_c atoms hF hco hc hc5 (by omega) gxk ha
    have s2 := slack_exact (n : ℚ)
    obtain ⟨h1, h2⟩ := lt_slack s1 s2 hlt
    rw [add_zero] at h1 h2
    push_cast at h1 h2
    have hle : (c - 1) * (3 / 2 * 2 ^ (-(A : ℤ)) * |x.real atoms.vals|) ≤ (c - 1) * (3 / 2 * 2 ^ (-(64 : ℤ)) * |x.real atoms.vals|) :=
      err_mono hc (by norm_num) (abs_nonneg _) hA
    exact ⟨fun hr => by have := h1 hr; linarith, fun hr => by have := h2 hr; linarith⟩


omit [CommRing R] [DecidableEq R] [CRing P R] [LawfulCRing P] [DecidableEq P] build in
theorem LtUpTo.mono {s t : ℝ} {r : Bool} {x y : ℝ} (h : LtUpTo s r x y) (hst : s ≤ t) : LtUpTo t r x y :=
  ⟨fun hr => by have := h.1 hr; linarith, fun hr => by have := h.2 hr; linarith⟩

omit [CommRing R] [DecidableEq R] [CRing P R] [LawfulCRing P] [DecidableEq P] build in
theorem five_le (s : ℝ) (hs : 0 ≤ s) : ((5 : ℝ) - 1) * (3 / 2 * 2 ^ (-(64 : ℤ)) * s) ≤ 2 ^ (-(61 : ℤ)) * s ∧
    ((5 : ℝ) - 1) * (3 * 2 ^ (-(64 : ℤ)) * s) ≤ 2 ^ (-(60 : ℤ)) * s := by
  rw [show (2 : ℝ) ^ (-(61 : ℤ)) = 8 * 2 ^ (-(64 : ℤ)) by norm_num, show (2 : ℝ) ^ (-(60 : ℤ)) = 16 * 2 ^ (-(64 : ℤ)) by norm_num]
  have : 0 ≤ 2 ^ (-(64 : ℤ)) * s := by positivity
  constructor <;> linarith

/-- **C22**: if the balls of the generators contain the generators, then `x < y`, whenever it returns, says whether the value of `x` is less than
the value of `y`; for an element `y`, a real number, a rational, and an integer. -/
theorem elt_lt_exact (hF : F.Lawful) (hco : CoeffLawful P coeff) {fuel : ℕ} {x : Elt P R} (hx : x.WF) (gx : x.mod.ContainedFrom atoms 64) {r : Bool} :
    (∀ y : Elt P R, y.WF → y.mod.ContainedFrom atoms 64 → Elt.lt atoms F coeff fuel x y = .ok r →
      (r = true ↔ x.real atoms.vals < y.real atoms.vals)) ∧
    (∀ y : RN, y.WF → (∀ k, (y.arb atoms (64 * 2 ^ k)).Contains (y.real atoms)) → Elt.ltRN atoms F coeff fuel x y = .ok r →
      (r = true ↔ x.real atoms.vals < y.real atoms)) ∧
    (∀ q : ℚ, Elt.ltQ atoms F coeff fuel x q = .ok r → (r = true ↔ x.real atoms.vals < q)) ∧
    (∀ n : ℤ, Elt.ltZ atoms F coeff fuel x n = .ok r → (r = true ↔ x.real atoms.vals < n)) := by
  have h2 : ∀ k, 2 ≤ 64 * 2 ^ k := fun k => by have := le_start 64 k; omega
  have nx := fun k => Elt.genNear_one atoms hx.mod (h2 k) (gx k)
  refine ⟨fun y hy gy h => ?_, fun y hy gy h => ?_, fun q h => ?_, fun n h => ?_⟩
  · have := elt_lt_c atoms hF hco le_rfl (by norm_num) hx hy nx (fun k => Elt.genNear_one atoms hy.mod (h2 k) (gy k)) h
    rw [sub_self, zero_mul] at this
    exact LtUpTo.zero.1 this
  · have := elt_ltRN_c atoms hF hco le_rfl (by norm_num) hx hy nx
      (fun k => (gy k).near (RN.arb_near atoms hy (h2 k)).1.finite) h
    rw [sub_self, zero_mul] at this
    exact LtUpTo.zero.1 this
  · have := elt_ltQ_c atoms hF hco le_rfl (by norm_num) nx h
    rw [sub_self, zero_mul] at this
    exact LtUpTo.zero.1 this
  · have := elt_ltZ_c atoms hF hco le_rfl (by norm_num) nx h
    rw [sub_self, zero_mul] at this
    exact LtUpTo.zero.1 this

/-- **C22** without hypothesis on the generators: `x < y` is right up to a relative error of `2^-60`. -/
theorem elt_lt_partial (hF : F.Lawful) (hco : CoeffLawful P coeff) {fuel : ℕ} {x : Elt P R} (hx : x.WF) {r : Bool} :
    (∀ y : Elt P R, y.WF → Elt.lt atoms F coeff fuel x y = .ok r →
      LtUpTo (2 ^ (-(61 : ℤ)) * (|x.real atoms.vals| + |y.real atoms.vals|)) r (x.real atoms.vals) (y.real atoms.vals)) ∧
    (∀ y : RN, y.WF → Elt.ltRN atoms F coeff fuel x y = .ok r →
      LtUpTo (2 ^ (-(61 : ℤ)) * (|x.real atoms.vals| + |y.real atoms|)) r (x.real atoms.vals) (y.real atoms)) ∧
    (∀ q : ℚ, Elt.ltQ atoms F coeff fuel x q = .ok r → LtUpTo (2 ^ (-(60 : ℤ)) * |x.real atoms.vals|) r (x.real atoms.vals) q) ∧
    (∀ n : ℤ, Elt.ltZ atoms F coeff fuel x n = .ok r → LtUpTo (2 ^ (-(61 : ℤ)) * |x.real atoms.vals|) r (x.real atoms.vals) n) := by
  have h2 : ∀ k, 2 ≤ 64 * 2 ^ k := fun k => by have := le_start 64 k; omega
  have nx := fun k => Elt.genNear_five atoms hx.mod (h2 k)
  have hp : ∀ a b : ℝ, 0 ≤ |a| + |b| := fun a b => add_nonneg (abs_nonneg _) (abs_nonneg _)
  refine ⟨fun y hy h => ?_, fun y hy h => ?_, fun q h => ?_, fun n h => ?_⟩
  · exact LtUpTo.mono (elt_lt_c atoms hF hco (by norm_num) le_rfl hx hy nx (fun k => Elt.genNear_five atoms hy.mod (h2 k)) h) (five_le _ (hp _ _)).1
  · exact LtUpTo.mono (elt_ltRN_c atoms hF hco (by norm_num) le_rfl hx hy nx (fun k => (RN.arb_near atoms hy (h2 k)).1) h) (five_le _ (hp _ _)).1
  · exact LtUpTo.mono (elt_ltQ_c atoms hF hco (by norm_num) le_rfl nx h) (five_le _ (abs_nonneg _)).2
  · exact LtUpTo.mono (elt_ltZ_c atoms hF hco (by norm_num) le_rfl nx h) (five_le _ (abs_nonneg _)).1

omit build in
/-- **C22**: the comparison with zero is right, without hypothesis on the generators. -/
theorem elt_sign (hF : F.Lawful) (hco : CoeffLawful P coeff) {fuel : ℕ} {x : Elt P R} (hx : x.WF) {r : Bool} (h : Elt.ltZ atoms F coeff fuel x 0 = .ok r) :
    r = true ↔ x.real atoms.vals < 0 := by
  have h2 : ∀ k, 2 ≤ 64 * 2 ^ k := fun k => by have := le_start 64 k; omega
  obtain ⟨h1, h2⟩ := LtUpTo.mono (elt_ltZ_c atoms hF hco (by norm_num) le_rfl (fun k => Elt.genNear_five atoms hx.mod (h2 k)) h) (five_le _ (abs_nonneg _)).1
  have h3 : (2 : ℝ) ^ (-(61 : ℤ)) ≤ 1 / 2 := by norm_num
  have h4 := mul_le_mul_of_nonneg_right h3 (abs_nonneg (x.real atoms.vals))
  rw [Int.cast_zero] at h1 h2
  generalize (2 : ℝ) ^ (-(61 : ℤ)) = e at h1 h2 h3 h4
  constructor
  · intro hr
    have := h1 hr
    by_contra hx0
    have hx0 := not_lt.1 hx0
    rw [abs_of_nonneg hx0] at this h4
    linarith
  · intro hx0
    cases r with
    | true => rfl
    | false =>
      have := h2 rfl
      rw [abs_of_neg hx0] at this h4
      exfalso; linarith

/-! #### termination, and `>` -/

omit build in
theorem nonzero_or {x : Elt P R} (hv : AlgebraicIndependent ℚ atoms.vals) (hx : x.WF) (hz : x.NoZeroGen) :
    x.toBool = false ∨ x.real atoms.vals ≠ 0 := by
  by_cases h : x.toBool = false
  · exact .inl h
  · exact .inr fun h0 => h ((bool_iff hv hx hz).2 h0)

/-- **C22** (termination): `x < y` returns if the numbers are different and not zero (zero is allowed if all coefficients are zero) and `x == y`
returns. -/
theorem elt_lt_returns (hF : F.Lawful) (hco : CoeffLawful P coeff) {x : Elt P R} (hx : x.WF) (hx0 : x.toBool = false ∨ x.real atoms.vals ≠ 0) :
    (∀ y : Elt P R, y.WF → (y.toBool = false ∨ y.real atoms.vals ≠ 0) → x.real atoms.vals ≠ y.real atoms.vals → ∀ e, x.eq y = .ok e →
      ∃ r N, ∀ fuel, N ≤ fuel → Elt.lt atoms F coeff fuel x y = .ok r) ∧
    (∀ y : RN, y.WF → x.real atoms.vals ≠ y.real atoms → ∀ e, x.eqRN y = .ok e → ∃ r N, ∀ fuel, N ≤ fuel → Elt.ltRN atoms F coeff fuel x y = .ok r) ∧
    (∀ q : ℚ, x.real atoms.vals ≠ q → ∃ r N, ∀ fuel, N ≤ fuel → Elt.ltQ atoms F coeff fuel x q = .ok r) ∧
    (∀ n : ℤ, x.real atoms.vals ≠ n → ∃ r N, ∀ fuel, N ≤ fuel → Elt.ltZ atoms F coeff fuel x n = .ok r) := by
  refine ⟨fun y hy hy0 hne e he => ?_, fun y hy hne e he => ?_, fun q hne => ?_, fun n hne => ?_⟩
  · cases e with
    | true => exact ⟨false, 0, fun fuel _ => by rw [Elt.lt, he]; rfl⟩
    | false =>
      obtain ⟨C, hC, hCt⟩ := Elt.arb_family atoms hF hco hy hy0
      obtain ⟨r, N, hN⟩ := Elt.ltLoop_terminates atoms hF hco hx hx0 hne (d := 1) one_pos
        (op := fun fuel prec self => do let other ← y.arb atoms F coeff fuel prec; .ok (self.lt other)) (T := id) (C := C)
        (fun B hB => by simpa using hB) (by simpa using hCt) (fun A hA => by
          obtain ⟨N, hN⟩ := hC A hA
          exact ⟨N, fun fuel hf a => by simp only [hN fuel hf]; rfl⟩)
      exact ⟨r, N, fun fuel hf => by rw [Elt.lt, he]; exact hN fuel hf⟩
  · cases e with
    | true => exact ⟨false, 0, fun fuel _ => by rw [Elt.ltRN, he]; rfl⟩
    | false =>
      obtain ⟨r, N, hN⟩ := Elt.ltLoop_terminates atoms hF hco hx hx0 hne (d := 1) one_pos
        (op := fun fuel prec self => .ok (self.lt (y.arb atoms prec))) (T := id) (C := fun p => y.arb atoms p)
        (fun B hB => by simpa using hB) (by simpa using RN.arb_tends atoms hy) (fun A hA => ⟨0, fun _ _ _ => rfl⟩)
      exact ⟨r, N, fun fuel hf => by rw [Elt.ltRN, he]; exact hN fuel hf⟩
  · by_cases he : x.eqQ q = true
    · exact ⟨false, 0, fun fuel _ => by rw [Elt.ltQ, if_pos he]⟩
    · have hd := den_pos' q
      have hnum : (q : ℝ) * q.den = ((q.num : ℚ) : ℝ) := by
        have := Rat.mul_den_eq_num q
        exact_mod_cast this
      obtain ⟨r, N, hN⟩ := Elt.ltLoop_terminates atoms hF hco hx hx0 hne hd
        (op := fun _ _ self => .ok (self.ltQ F q)) (T := fun b => b.scaled F q) (C := fun _ => exact q.num)
        (fun B hB => by have := hF.mul_exact_tends hB (q.den : ℚ); rwa [Rat.cast_natCast] at this) (by rw [hnum]; exact tends_exact _) (fun A hA => ⟨0, fun _ _ _ => rfl⟩)
      exact ⟨r, N, fun fuel hf => by rw [Elt.ltQ, if_neg he]; exact hN fuel hf⟩
  · by_cases he : x.eqZ n = true
    · exact ⟨false, 0, fun fuel _ => by rw [Elt.ltZ, if_pos he]⟩
    · obtain ⟨r, N, hN⟩ := Elt.ltLoop_terminates atoms hF hco hx hx0 hne (d := 1) one_pos
        (op := fun _ _ self => .ok (self.lt (exact n))) (T := id) (C := fun _ => exact n)
        (fun B hB => by simpa using hB) (by simpa using tends_exact (n : ℚ)) (fun A hA => ⟨0, fun _ _ _ => rfl⟩)
      exact ⟨r, N, fun fuel hf => by rw [Elt.ltZ, if_neg he]; exact hN fuel hf⟩

/-- **C22** (termination): for algebraically independent atoms, `x < y` returns if `x == y` does. -/
theorem elt_lt_terminates (hF : F.Lawful) (hco : CoeffLawful P coeff) (hv : AlgebraicIndependent ℚ atoms.vals) {x : Elt P R} (hx : x.WF)
    (zx : x.NoZeroGen) :
    (∀ y : Elt P R, y.WF → y.NoZeroGen → ∀ e, x.eq y = .ok e → ∃ r N, ∀ fuel, N ≤ fuel → Elt.lt atoms F coeff fuel x y = .ok r) ∧
    (∀ y : RN, y.WF → (y ∈ x.mod.basis ∨ x.toBool = false) → ∃ r N, ∀ fuel, N ≤ fuel → Elt.ltRN atoms F coeff fuel x y = .ok r) ∧
    (∀ q : ℚ, ∃ r N, ∀ fuel, N ≤ fuel → Elt.ltQ atoms F coeff fuel x q = .ok r) ∧
    (∀ n : ℤ, ∃ r N, ∀ fuel, N ≤ fuel → Elt.ltZ atoms F coeff fuel x n = .ok r) := by
  obtain ⟨r1, r2, r3, r4⟩ := elt_lt_returns atoms hF hco hx (nonzero_or atoms hv hx zx)
  refine ⟨fun y hy zy e he => ?_, fun y hy hb => ?_, fun q => ?_, fun n => ?_⟩
  · cases e with
    | true => exact ⟨false, 0, fun fuel _ => by rw [Elt.lt, he]; rfl⟩
    | false => exact r1 y hy (nonzero_or atoms hv hy zy) (fun h => by simpa using (eq_iff hv hx hy zx zy he).2 h) _ he
  · obtain ⟨e, he, hiff⟩ := eqRN_iff hv hx zx hb
    cases e with
    | true => exact ⟨false, 0, fun fuel _ => by rw [Elt.ltRN, he]; rfl⟩
    | false => exact r2 y hy (fun h => by simpa using hiff.2 h) _ he
  · by_cases he : x.eqQ q = true
    · exact ⟨false, 0, fun fuel _ => by rw [Elt.ltQ, if_pos he]⟩
    · exact r3 q fun h => he ((eqQ_iff hv hx (.inl zx) q).2 h)
  · by_cases he : x.eqZ n = true
    · exact ⟨false, 0, fun fuel _ => by rw [Elt.ltZ, if_pos he]⟩
    · exact r4 n fun h => he ((eqZ_iff hv hx (.inl zx) n).2 h)

/-- **C22** for `>` (which for two elements is `y < x`): for algebraically independent atoms, if the balls of the generators contain the
generators. -/
theorem elt_gt_exact (hF : F.Lawful) (hco : CoeffLawful P coeff) (hv : AlgebraicIndependent ℚ atoms.vals) {fuel : ℕ} {x : Elt P R} (hx : x.WF)
    (zx : x.NoZeroGen) (gx : x.mod.ContainedFrom atoms 64) {r : Bool} :
    (∀ y : RN, y.WF → y ∈ x.mod.basis ∨ x.toBool = false → (∀ k, (y.arb atoms (64 * 2 ^ k)).Contains (y.real atoms)) →
      Elt.gtRN atoms F coeff fuel x y = .ok r → (r = true ↔ x.real atoms.vals > y.real atoms)) ∧
    (∀ q : ℚ, Elt.gtQ atoms F coeff fuel x q = .ok r → (r = true ↔ x.real atoms.vals > q)) ∧
    (∀ n : ℤ, Elt.gtZ atoms F coeff fuel x n = .ok r → (r = true ↔ x.real atoms.vals > n)) := by
  have key : ∀ {e lt : Out Bool} {y : ℝ}, Elt.gtOf e lt = .ok r → (∀ b, e = .ok b → (b = true ↔ x.real atoms.vals = y)) →
      (∀ b, lt = .ok b → (b = true ↔ x.real atoms.vals < y)) → (r = true ↔ x.real atoms.vals > y) := by
    intro e lt y h he hlt
    rw [Elt.gtOf] at h
    obtain ⟨b, h1, h2⟩ := Out.bind_eq_ok.1 h
    have hb := he b h1
    cases b with
    | true =>
      rw [if_pos rfl] at h2
      cases h2
      rw [hb.1 rfl]; simp
    | false =>
      rw [if_neg (by simp)] at h2
      obtain ⟨b', h3, h4⟩ := Out.bind_eq_ok.1 h2
      cases h4
      have hb' := hlt b' h3
      have hne : x.real atoms.vals ≠ y := fun h => by simpa using hb.2 h
      cases b' with
      | true => simpa using (hb'.1 rfl).le
      | false =>
        have : ¬ x.real atoms.vals < y := fun h => by simpa using hb'.2 h
        simpa using lt_of_le_of_ne (not_lt.1 this) hne.symm
  have hlt := fun b => elt_lt_exact atoms hF hco (fuel := fuel) hx gx (r := b)
  refine ⟨fun y hy hb gy h => ?_, fun q h => ?_, fun n h => ?_⟩
  · refine key h (fun b hb' => ?_) fun b hb => (hlt b).2.1 y hy gy hb
    obtain ⟨t, h1, h2⟩ := eqRN_iff hv hx zx hb
    rw [h1] at hb'; cases hb'
    exact h2
  · exact key h (fun b hb => by cases hb; exact eqQ_iff hv hx (.inl zx) q) fun b hb => (hlt b).2.2.1 q hb
  · exact key h (fun b hb => by cases hb; exact eqZ_iff hv hx (.inl zx) n) fun b hb => (hlt b).2.2.2 n hb

/-- **C22**: `<` and `==` are compatible: exactly one of `x < y`, `x == y`, `y < x` holds. -/
theorem elt_trichotomy (hF : F.Lawful) (hco : CoeffLawful P coeff) (hv : AlgebraicIndependent ℚ atoms.vals) {fuel : ℕ} {x y : Elt P R} (hx : x.WF)
    (hy : y.WF) (zx : x.NoZeroGen) (zy : y.NoZeroGen) (gx : x.mod.ContainedFrom atoms 64) (gy : y.mod.ContainedFrom atoms 64) {r s t : Bool}
    (h1 : Elt.lt atoms F coeff fuel x y = .ok r) (h2 : x.eq y = .ok s) (h3 : Elt.lt atoms F coeff fuel y x = .ok t) :
    (r, s, t) = (true, false, false) ∨ (r, s, t) = (false, true, false) ∨ (r, s, t) = (false, false, true) := by
  have e1 := (elt_lt_exact atoms hF hco hx gx).1 y hy gy h1
  have e2 := eq_iff hv hx hy zx zy h2
  have e3 := (elt_lt_exact atoms hF hco hy gy).1 x hx gx h3
  rcases lt_trichotomy (x.real atoms.vals) (y.real atoms.vals) with h | h | h
  · have := e1.2 h
    have b2 : s = false := by rw [← Bool.not_eq_true, e2]; exact h.ne
    have b3 : t = false := by rw [← Bool.not_eq_true, e3]; exact h.le.not_gt
    simp [this, b2, b3]
  · have b1 : r = false := by rw [← Bool.not_eq_true, e1]; exact h.not_lt
    have := e2.2 h
    have b3 : t = false := by rw [← Bool.not_eq_true, e3]; exact h.symm.not_lt
    simp [this, b1, b3]
  · have b1 : r = false := by rw [← Bool.not_eq_true, e1]; exact h.le.not_gt
    have b2 : s = false := by rw [← Bool.not_eq_true, e2]; exact h.ne'
    have := e3.2 h
    simp [this, b1, b2]

end ExactReal.Props
