import Verif.Lemma.Embedding
import Verif.Props.EffortDivision
import Verif.Props.ElementDouble
import Verif.Props.FloorDiv

/-!
# C92: approximations over number fields do not depend on what was approximated before

Approximating a coefficient in a number field refines the field, so later approximations of any coefficient in it may be different.  The answers of
comparisons, `floor`, `ceil`, `floordiv`, conversions and hashes are right whatever the field was refined to before; so they are the same in all histories.
-/

namespace ExactReal.Props

open Arf Ball

variable {P : Type} [DecidableEq P] {R : Type} [CommRing R] [DecidableEq R] [CRing P R] [LawfulCRing P]
variable (atoms : Atoms) {F : Arith} {coeff : ℕ → ℕ → R → Ball}

/-! ### `arb` -/

/-- C92. `x.arb(accuracy)` after any history: it has the accuracy asked for, `x` is at most five radii away from its midpoint, and it contains `x` if the balls
of the generators contain the generators. -/
theorem embed_arb (hF : F.Lawful) (hco : EmbeddingLawful P coeff) {fuel A : ℕ} {x : Elt P R} (hx : x.WF) (hA : 4 ≤ A) {l l' : ℕ} {b : Ball}
    (h : x.arbE atoms F coeff fuel A l = .ok (b, l')) :
    b.hasAccuracy A = true ∧ (∃ r : ℚ, b.rad = some r ∧ 0 ≤ r ∧ |x.real atoms.vals - b.mid| ≤ 5 * r) ∧
      (x.mod.Contained atoms A → b.Contains (x.real atoms.vals)) := by
  have h' := Elt.arbE_ok h
  obtain ⟨h1, h2⟩ := elt_arb_partial atoms hF (hco l) hx (by omega) h'
  exact ⟨h1, h2, fun hg => (elt_arb_contains atoms hF (hco l) hx hA hg h').1⟩

/-- C92. `x.arb(accuracy)` returns after any history if all coefficients are zero or the value is not zero. -/
theorem embed_arb_terminates (hF : F.Lawful) (hco : EmbeddingLawful P coeff) (A : ℕ) (hA : 0 < A) {x : Elt P R} (hx : x.WF)
    (h : x.toBool = false ∨ x.real atoms.vals ≠ 0) (l : ℕ) : ∃ b l' N, ∀ fuel, N ≤ fuel → x.arbE atoms F coeff fuel A l = .ok (b, l') := by
  obtain ⟨b, N, hN⟩ := elt_arb_terminates atoms hF (hco l) A hA hx h
  obtain ⟨l', hl'⟩ := Elt.arbE_of (hN N le_rfl)
  refine ⟨b, l', N, fun fuel hf => ?_⟩
  rw [Elt.arbE] at hl' ⊢
  split_ifs at hl' ⊢
  · exact hl'
  · exact loop_mono _ hl' hf
where
  loop_mono {A : ℕ} {ts : List (RN × R)} : ∀ (n : ℕ) {m prec l : ℕ} {o : Ball × ℕ}, Elt.arbLoopE atoms F coeff A ts n prec l = .ok o → n ≤ m →
      Elt.arbLoopE atoms F coeff A ts m prec l = .ok o
    | 0, _, _, _, _, h, _ => by simp [Elt.arbLoopE] at h
    | n + 1, 0, _, _, _, _, hle => by omega
    | n + 1, m + 1, prec, l, o, h, hle => by
      rw [Elt.arbLoopE] at h ⊢
      simp only at h ⊢
      split_ifs at h ⊢
      · exact h
      · exact loop_mono n h (by omega)

/-! ### Comparisons -/

section
variable [build : Build]

omit [LawfulCRing P] in
theorem ltE_ok {fuel : ℕ} {x y : Elt P R} {r : Bool} {l l' : ℕ} (h : Elt.ltE atoms F coeff fuel x y l = .ok (r, l')) :
    (x.eq y = .ok true ∧ r = false) ∨ (x.eq y = .ok false ∧ ∃ k a b l₁ l₂, x.arb atoms F (coeffAt coeff l₁) fuel (64 * 2 ^ k) = .ok a ∧
      y.arb atoms F (coeffAt coeff l₂) fuel (64 * 2 ^ k) = .ok b ∧ a.lt b = some r) := by
  rw [Elt.ltE] at h
  obtain ⟨e, h1, h2⟩ := Out.bind_eq_ok.1 h
  cases e with
  | true => rw [if_pos rfl] at h2; cases h2; exact .inl ⟨h1, rfl⟩
  | false =>
    rw [if_neg (by simp), Elt.ltLoopE_eq_search] at h2
    obtain ⟨k, l₁, hk⟩ := searchE_ok h2
    obtain ⟨⟨a, l₂⟩, k1, k2⟩ := Out.bind_eq_ok.1 hk
    obtain ⟨⟨b, l₃⟩, k3, k4⟩ := Out.bind_eq_ok.1 k2
    simp only [Out.ok.injEq, Prod.mk.injEq] at k4
    exact .inr ⟨h1, k, a, b, l₁, l₂, Elt.arbE_ok k1, Elt.arbE_ok k3, k4.1⟩

omit [LawfulCRing P] in
theorem ltRNE_ok {fuel : ℕ} {x : Elt P R} {y : RN} {r : Bool} {l l' : ℕ} (h : Elt.ltRNE atoms F coeff fuel x y l = .ok (r, l')) :
    (x.eqRN y = .ok true ∧ r = false) ∨ (x.eqRN y = .ok false ∧ ∃ k a l₁, x.arb atoms F (coeffAt coeff l₁) fuel (64 * 2 ^ k) = .ok a ∧
      a.lt (y.arb atoms (64 * 2 ^ k)) = some r) := by
  rw [Elt.ltRNE] at h
  obtain ⟨e, h1, h2⟩ := Out.bind_eq_ok.1 h
  cases e with
  | true => rw [if_pos rfl] at h2; cases h2; exact .inl ⟨h1, rfl⟩
  | false =>
    rw [if_neg (by simp), Elt.ltLoopE_eq_search] at h2
    obtain ⟨k, l₁, hk⟩ := searchE_ok h2
    obtain ⟨⟨a, l₂⟩, k1, k2⟩ := Out.bind_eq_ok.1 hk
    simp only [Out.ok.injEq, Prod.mk.injEq] at k2
    exact .inr ⟨h1, k, a, l₁, Elt.arbE_ok k1, k2.1⟩

omit [LawfulCRing P] build in
theorem ltQE_ok {fuel : ℕ} {x : Elt P R} {q : ℚ} {r : Bool} {l l' : ℕ} (h : Elt.ltQE atoms F coeff fuel x q l = .ok (r, l')) :
    (x.eqQ q = true ∧ r = false) ∨ (x.eqQ q = false ∧ ∃ k a l₁, x.arb atoms F (coeffAt coeff l₁) fuel (64 * 2 ^ k) = .ok a ∧ a.ltQ F q = some r) := by
  rw [Elt.ltQE] at h
  split_ifs at h with he
  · cases h; exact .inl ⟨he, rfl⟩
  · rw [Elt.ltLoopE_eq_search] at h
    obtain ⟨k, l₁, hk⟩ := searchE_ok h
    obtain ⟨⟨a, l₂⟩, k1, k2⟩ := Out.bind_eq_ok.1 hk
    simp only [Out.ok.injEq, Prod.mk.injEq] at k2
    exact .inr ⟨by simpa using he, k, a, l₁, Elt.arbE_ok k1, k2.1⟩

omit [LawfulCRing P] build in
theorem ltZE_ok {fuel : ℕ} {x : Elt P R} {n : ℤ} {r : Bool} {l l' : ℕ} (h : Elt.ltZE atoms F coeff fuel x n l = .ok (r, l')) :
    (x.eqZ n = true ∧ r = false) ∨ (x.eqZ n = false ∧ ∃ k a l₁, x.arb atoms F (coeffAt coeff l₁) fuel (64 * 2 ^ k) = .ok a ∧ a.lt (exact n) = some r) := by
  rw [Elt.ltZE] at h
  split_ifs at h with he
  · cases h; exact .inl ⟨he, rfl⟩
  · rw [Elt.ltLoopE_eq_search] at h
    obtain ⟨k, l₁, hk⟩ := searchE_ok h
    obtain ⟨⟨a, l₂⟩, k1, k2⟩ := Out.bind_eq_ok.1 hk
    simp only [Out.ok.injEq, Prod.mk.injEq] at k2
    exact .inr ⟨by simpa using he, k, a, l₁, Elt.arbE_ok k1, k2.1⟩

/-- Comparisons with a general inflation factor. -/
theorem ltE_c (hF : F.Lawful) (hco : EmbeddingLawful P coeff) {c : ℝ} (hc : 1 ≤ c) (hc5 : c ≤ 5) {fuel : ℕ} {x y : Elt P R} (hx : x.WF) (hy : y.WF)
    (gx : ∀ k, Elt.GenNear atoms c (64 * 2 ^ k) x.mod) (gy : ∀ k, Elt.GenNear atoms c (64 * 2 ^ k) y.mod) {r : Bool} {l l' : ℕ}
    (h : Elt.ltE atoms F coeff fuel x y l = .ok (r, l')) :
    LtUpTo ((c - 1) * (3 / 2 * 2 ^ (-(64 : ℤ)) * (|x.real atoms.vals| + |y.real atoms.vals|))) r (x.real atoms.vals) (y.real atoms.vals) := by
  have hE : 0 ≤ (c - 1) * (3 / 2 * 2 ^ (-(64 : ℤ)) * (|x.real atoms.vals| + |y.real atoms.vals|)) :=
    mul_nonneg (by linarith) (by positivity)
  rcases ltE_ok atoms h with ⟨he, rfl⟩ | ⟨-, k, a, b, l₁, l₂, ha, hb, hlt⟩
  · exact ⟨fun h => by simp at h, fun _ => by have := eq_sound hx hy he atoms.vals; linarith⟩
  · have hA := le_start 64 k
    have gxk := gx k
    have gyk := gy k
    generalize 64 * 2 ^ k = A at gxk ha hA hlt gyk hb
    obtain ⟨-, -, s1, -⟩ := Elt.arb_slack_c atoms hF (hco l₁) hc hc5 (by omega) gxk ha
    obtain ⟨-, -, s2, -⟩ := Elt.arb_slack_c atoms hF (hco l₂) hc hc5 (by omega) gyk hb
    obtain ⟨h1, h2⟩ := lt_slack s1 s2 hlt
    have hle : (c - 1) * (3 / 2 * 2 ^ (-(A : ℤ)) * |x.real atoms.vals|) + (c - 1) * (3 / 2 * 2 ^ (-(A : ℤ)) * |y.real atoms.vals|) ≤
        (c - 1) * (3 / 2 * 2 ^ (-(64 : ℤ)) * (|x.real atoms.vals| + |y.real atoms.vals|)) := by
      rw [← mul_add, ← mul_add]
      exact err_mono hc (by norm_num) (add_nonneg (abs_nonneg (x.real atoms.vals)) (abs_nonneg (y.real atoms.vals))) hA
    exact ⟨fun hr => by have := h1 hr; linarith, fun hr => by have := h2 hr; linarith⟩

theorem ltRNE_c (hF : F.Lawful) (hco : EmbeddingLawful P coeff) {c : ℝ} (hc : 1 ≤ c) (hc5 : c ≤ 5) {fuel : ℕ} {x : Elt P R} {y : RN} (hx : x.WF)
    (hy : y.WF) (gx : ∀ k, Elt.GenNear atoms c (64 * 2 ^ k) x.mod) (gy : ∀ k, Near c (y.arb atoms (64 * 2 ^ k)) (y.real atoms)) {r : Bool} {l l' : ℕ}
    (h : Elt.ltRNE atoms F coeff fuel x y l = .ok (r, l')) :
    LtUpTo ((c - 1) * (3 / 2 * 2 ^ (-(64 : ℤ)) * (|x.real atoms.vals| + |y.real atoms|))) r (x.real atoms.vals) (y.real atoms) := by
  have hE : 0 ≤ (c - 1) * (3 / 2 * 2 ^ (-(64 : ℤ)) * (|x.real atoms.vals| + |y.real atoms|)) := mul_nonneg (by linarith) (by positivity)
  rcases ltRNE_ok atoms h with ⟨he, rfl⟩ | ⟨-, k, a, l₁, ha, hlt⟩
  · refine ⟨fun h => by simp at h, fun _ => ?_⟩
    have := eqRN_sound hx he atoms.vals
    rw [RN.value_vals] at this
    linarith
  · have hA := le_start 64 k
    have gxk := gx k
    have gyk := gy k
    generalize 64 * 2 ^ k = A at gxk ha hA hlt gyk
    obtain ⟨-, -, s1, -⟩ := Elt.arb_slack_c atoms hF (hco l₁) hc hc5 (by omega) gxk ha
    have s2 := RN.arb_slack_c atoms hc hy (prec := A) (by omega) gyk
    obtain ⟨h1, h2⟩ := lt_slack s1 s2 hlt
    have hle : (c - 1) * (3 / 2 * 2 ^ (-(A : ℤ)) * |x.real atoms.vals|) + (c - 1) * (3 / 2 * 2 ^ (-(A : ℤ)) * |y.real atoms|) ≤
        (c - 1) * (3 / 2 * 2 ^ (-(64 : ℤ)) * (|x.real atoms.vals| + |y.real atoms|)) := by
      rw [← mul_add, ← mul_add]
      exact err_mono hc (by norm_num) (add_nonneg (abs_nonneg (x.real atoms.vals)) (abs_nonneg (y.real atoms))) hA
    exact ⟨fun hr => by have := h1 hr; linarith, fun hr => by have := h2 hr; linarith⟩

omit build in
theorem ltQE_c (hF : F.Lawful) (hco : EmbeddingLawful P coeff) {c : ℝ} (hc : 1 ≤ c) (hc5 : c ≤ 5) {fuel : ℕ} {x : Elt P R} {q : ℚ}
    (gx : ∀ k, Elt.GenNear atoms c (64 * 2 ^ k) x.mod) {r : Bool} {l l' : ℕ} (h : Elt.ltQE atoms F coeff fuel x q l = .ok (r, l')) :
    LtUpTo ((c - 1) * (3 * 2 ^ (-(64 : ℤ)) * |x.real atoms.vals|)) r (x.real atoms.vals) q := by
  have hE : 0 ≤ (c - 1) * (3 * 2 ^ (-(64 : ℤ)) * |x.real atoms.vals|) := mul_nonneg (by linarith) (by positivity)
  rcases ltQE_ok atoms h with ⟨he, rfl⟩ | ⟨-, k, a, l₁, ha, hlt⟩
  · refine ⟨fun h => by simp at h, fun _ => ?_⟩
    rw [Elt.eqQ, decide_eq_true_iff] at he
    have := rational_sound he atoms.vals
    linarith
  · have hA := le_start 64 k
    have gxk := gx k
    generalize 64 * 2 ^ k = A at gxk ha hA hlt
    obtain ⟨n1, acc, -, -⟩ := Elt.arb_slack_c atoms hF (hco l₁) hc hc5 (by omega) gxk ha
    have s1 := scaled_slack_c hF hc hc5 (by omega) n1 acc q
    have hd := den_pos' q
    have hnum : Slack 0 (exact q.num) ((q : ℝ) * q.den) := by
      have := slack_exact (q.num : ℚ)
      have e : ((q.num : ℚ) : ℝ) = (q : ℝ) * q.den := by
        have := Rat.mul_den_eq_num q
        exact_mod_cast this.symm
      rwa [e] at this
    obtain ⟨h1, h2⟩ := lt_slack s1 hnum hlt
    rw [add_zero] at h1 h2
    have hle : (c - 1) * (3 * 2 ^ (-(A : ℤ)) * |x.real atoms.vals|) ≤ (c - 1) * (3 * 2 ^ (-(64 : ℤ)) * |x.real atoms.vals|) :=
      err_mono hc (by norm_num) (abs_nonneg _) hA
    refine ⟨fun hr => ?_, fun hr => ?_⟩
    · have := h1 hr
      rw [← add_mul] at this
      have := lt_of_mul_lt_mul_right this hd.le
      linarith
    · have := h2 hr
      rw [← add_mul] at this
      have := le_of_mul_le_mul_right this hd
      linarith

omit build in
theorem ltZE_c (hF : F.Lawful) (hco : EmbeddingLawful P coeff) {c : ℝ} (hc : 1 ≤ c) (hc5 : c ≤ 5) {fuel : ℕ} {x : Elt P R} {n : ℤ}
    (gx : ∀ k, Elt.GenNear atoms c (64 * 2 ^ k) x.mod) {r : Bool} {l l' : ℕ} (h : Elt.ltZE atoms F coeff fuel x n l = .ok (r, l')) :
    LtUpTo ((c - 1) * (3 / 2 * 2 ^ (-(64 : ℤ)) * |x.real atoms.vals|)) r (x.real atoms.vals) n := by
  have hE : 0 ≤ (c - 1) * (3 / 2 * 2 ^ (-(64 : ℤ)) * |x.real atoms.vals|) := mul_nonneg (by linarith) (by positivity)
  rcases ltZE_ok atoms h with ⟨he, rfl⟩ | ⟨-, k, a, l₁, ha, hlt⟩
  · refine ⟨fun h => by simp at h, fun _ => ?_⟩
    rw [Elt.eqZ, Elt.eqQ, decide_eq_true_iff] at he
    have := rational_sound he atoms.vals
    push_cast at this
    linarith
  · have hA := le_start 64 k
    have gxk := gx k
    generalize 64 * 2 ^ k = A at gxk ha hA hlt
    obtain ⟨-, -, s1, -⟩ := Elt.arb_slack_c atoms hF (hco l₁) hc hc5 (by omega) gxk ha
    have s2 := slack_exact (n : ℚ)
    obtain ⟨h1, h2⟩ := lt_slack s1 s2 hlt
    rw [add_zero] at h1 h2
    push_cast at h1 h2
    have hle : (c - 1) * (3 / 2 * 2 ^ (-(A : ℤ)) * |x.real atoms.vals|) ≤ (c - 1) * (3 / 2 * 2 ^ (-(64 : ℤ)) * |x.real atoms.vals|) :=
      err_mono hc (by norm_num) (abs_nonneg _) hA
    exact ⟨fun hr => by have := h1 hr; linarith, fun hr => by have := h2 hr; linarith⟩

/-- C92. If the balls of the generators contain the generators, then comparisons are right after any history. -/
theorem embed_lt_exact (hF : F.Lawful) (hco : EmbeddingLawful P coeff) {fuel : ℕ} {x : Elt P R} (hx : x.WF) (gx : x.mod.ContainedFrom atoms 64) {r : Bool}
    {l l' : ℕ} :
    (∀ y : Elt P R, y.WF → y.mod.ContainedFrom atoms 64 → Elt.ltE atoms F coeff fuel x y l = .ok (r, l') →
      (r = true ↔ x.real atoms.vals < y.real atoms.vals)) ∧
    (∀ y : RN, y.WF → (∀ k, (y.arb atoms (64 * 2 ^ k)).Contains (y.real atoms)) → Elt.ltRNE atoms F coeff fuel x y l = .ok (r, l') →
      (r = true ↔ x.real atoms.vals < y.real atoms)) ∧
    (∀ q : ℚ, Elt.ltQE atoms F coeff fuel x q l = .ok (r, l') → (r = true ↔ x.real atoms.vals < q)) ∧
    (∀ n : ℤ, Elt.ltZE atoms F coeff fuel x n l = .ok (r, l') → (r = true ↔ x.real atoms.vals < n)) := by
  have h2 : ∀ k, 2 ≤ 64 * 2 ^ k := fun k => by have := le_start 64 k; omega
  have nx := fun k => Elt.genNear_one atoms hx.mod (h2 k) (gx k)
  refine ⟨fun y hy gy h => ?_, fun y hy gy h => ?_, fun q h => ?_, fun n h => ?_⟩
  · have := ltE_c atoms hF hco le_rfl (by norm_num) hx hy nx (fun k => Elt.genNear_one atoms hy.mod (h2 k) (gy k)) h
    rw [sub_self, zero_mul] at this
    exact LtUpTo.zero.1 this
  · have := ltRNE_c atoms hF hco le_rfl (by norm_num) hx hy nx
      (fun k => (gy k).near (RN.arb_near atoms hy (h2 k)).1.finite) h
    rw [sub_self, zero_mul] at this
    exact LtUpTo.zero.1 this
  · have := ltQE_c atoms hF hco le_rfl (by norm_num) nx h
    rw [sub_self, zero_mul] at this
    exact LtUpTo.zero.1 this
  · have := ltZE_c atoms hF hco le_rfl (by norm_num) nx h
    rw [sub_self, zero_mul] at this
    exact LtUpTo.zero.1 this

/-- C92 without hypothesis on the generators: after any history, comparisons are right up to a relative error of `2^-60`, and the sign is right. -/
theorem embed_lt_partial (hF : F.Lawful) (hco : EmbeddingLawful P coeff) {fuel : ℕ} {x : Elt P R} (hx : x.WF) {r : Bool} {l l' : ℕ} :
    (∀ y : Elt P R, y.WF → Elt.ltE atoms F coeff fuel x y l = .ok (r, l') →
      LtUpTo (2 ^ (-(61 : ℤ)) * (|x.real atoms.vals| + |y.real atoms.vals|)) r (x.real atoms.vals) (y.real atoms.vals)) ∧
    (∀ y : RN, y.WF → Elt.ltRNE atoms F coeff fuel x y l = .ok (r, l') →
      LtUpTo (2 ^ (-(61 : ℤ)) * (|x.real atoms.vals| + |y.real atoms|)) r (x.real atoms.vals) (y.real atoms)) ∧
    (∀ q : ℚ, Elt.ltQE atoms F coeff fuel x q l = .ok (r, l') → LtUpTo (2 ^ (-(60 : ℤ)) * |x.real atoms.vals|) r (x.real atoms.vals) q) ∧
    (∀ n : ℤ, Elt.ltZE atoms F coeff fuel x n l = .ok (r, l') → LtUpTo (2 ^ (-(61 : ℤ)) * |x.real atoms.vals|) r (x.real atoms.vals) n) ∧
    (Elt.ltZE atoms F coeff fuel x 0 l = .ok (r, l') → (r = true ↔ x.real atoms.vals < 0)) := by
  have h2 : ∀ k, 2 ≤ 64 * 2 ^ k := fun k => by have := le_start 64 k; omega
  have nx := fun k => Elt.genNear_five atoms hx.mod (h2 k)
  have hp : ∀ a b : ℝ, 0 ≤ |a| + |b| := fun a b => add_nonneg (abs_nonneg _) (abs_nonneg _)
  have hZ : ∀ n : ℤ, Elt.ltZE atoms F coeff fuel x n l = .ok (r, l') → LtUpTo (2 ^ (-(61 : ℤ)) * |x.real atoms.vals|) r (x.real atoms.vals) n :=
    fun n h => LtUpTo.mono (ltZE_c atoms hF hco (by norm_num) le_rfl nx h) (five_le _ (abs_nonneg _)).1
  refine ⟨fun y hy h => ?_, fun y hy h => ?_, fun q h => ?_, hZ, fun h => ?_⟩
  · exact LtUpTo.mono (ltE_c atoms hF hco (by norm_num) le_rfl hx hy nx (fun k => Elt.genNear_five atoms hy.mod (h2 k)) h) (five_le _ (hp _ _)).1
  · exact LtUpTo.mono (ltRNE_c atoms hF hco (by norm_num) le_rfl hx hy nx (fun k => (RN.arb_near atoms hy (h2 k)).1) h) (five_le _ (hp _ _)).1
  · exact LtUpTo.mono (ltQE_c atoms hF hco (by norm_num) le_rfl nx h) (five_le _ (abs_nonneg _)).2
  · obtain ⟨h1, h2⟩ := hZ 0 h
    have h3 : (2 : ℝ) ^ (-(61 : ℤ)) ≤ 1 / 2 := by norm_num
    have h4 := mul_le_mul_of_nonneg_right h3 (abs_nonneg (x.real atoms.vals))
    rw [Int.cast_zero] at h1 h2
    generalize (2 : ℝ) ^ (-(61 : ℤ)) = e at h1 h2 h3 h4
    constructor
    · intro hr
      have := h1 hr
      by_contra hx0
      have hx0 := not_lt.1 hx0
      rw [abs_of_nonneg hx0] at this h4
      linarith
    · intro hx0
      cases r with
      | true => rfl
      | false =>
        have := h2 rfl
        rw [abs_of_neg hx0] at this h4
        exfalso; linarith

/-- C92. Two comparisons of the same elements in different histories have the same answer, if the balls of the generators contain the generators. -/
theorem embed_lt_same (hF : F.Lawful) (hco : EmbeddingLawful P coeff) {fuel fuel' : ℕ} {x y : Elt P R} (hx : x.WF) (hy : y.WF)
    (gx : x.mod.ContainedFrom atoms 64) (gy : y.mod.ContainedFrom atoms 64) {r r' : Bool} {l l' m m' : ℕ}
    (h : Elt.ltE atoms F coeff fuel x y l = .ok (r, l')) (h' : Elt.ltE atoms F coeff fuel' x y m = .ok (r', m')) : r = r' := by
  have h1 := (embed_lt_exact atoms hF hco hx gx).1 y hy gy h
  have h2 := (embed_lt_exact atoms hF hco hx gx).1 y hy gy h'
  rw [← h2] at h1
  cases r <;> cases r' <;> simp_all

end

/-! ### `floor`, `ceil` and `double` -/

omit [LawfulCRing P] in
theorem boundsE_ok {α : Type} [DecidableEq α] {g : ℚ → α} {x : Elt P R} {fuel start l l' : ℕ} {n : α}
    (h : searchE (Elt.boundsBodyE g fun p l => x.arbE atoms F coeff fuel p l) fuel start l = .ok (n, l')) : ∃ k s lo hi r l₁,
      x.arb atoms F (coeffAt coeff l₁) fuel (start * 2 ^ k) = .ok s ∧ s.rad = some r ∧ lo ≤ s.mid - r ∧ s.mid + r ≤ hi ∧ g lo = n ∧ g hi = n := by
  obtain ⟨k, l₁, hk⟩ := searchE_ok h
  obtain ⟨⟨s, l₂⟩, h1, h2⟩ := Out.bind_eq_ok.1 hk
  obtain ⟨⟨lo, hi⟩, h3, h4⟩ := Out.bind_eq_ok.1 h2
  obtain ⟨r, r1, r2, r3, -⟩ := Props.interval_spec h3
  simp only [Out.ok.injEq, Prod.mk.injEq] at h4
  obtain ⟨h4, -⟩ := h4
  split_ifs at h4 with h5
  simp only [Option.some.injEq] at h4
  exact ⟨k, s, lo, hi, r, l₁, Elt.arbE_ok h1, r1, r2, r3, h4, h5 ▸ h4⟩

/-- `floor` and `ceil` with a general inflation factor. -/
theorem roundE_c (hF : F.Lawful) (hco : EmbeddingLawful P coeff) {c : ℝ} (hc : 1 ≤ c) (hc5 : c ≤ 5) {fuel : ℕ} {x : Elt P R}
    (gx : ∀ k, Elt.GenNear atoms c (64 * 2 ^ k) x.mod) {n : ℤ} {l l' : ℕ} :
    (x.floorE atoms F coeff fuel l = .ok (n, l') → n - (c - 1) * (3 / 2 * 2 ^ (-(64 : ℤ)) * |x.real atoms.vals|) ≤ x.real atoms.vals ∧
      x.real atoms.vals < n + 1 + (c - 1) * (3 / 2 * 2 ^ (-(64 : ℤ)) * |x.real atoms.vals|)) ∧
    (x.ceilE atoms F coeff fuel l = .ok (n, l') → n - 1 - (c - 1) * (3 / 2 * 2 ^ (-(64 : ℤ)) * |x.real atoms.vals|) < x.real atoms.vals ∧
      x.real atoms.vals ≤ n + (c - 1) * (3 / 2 * 2 ^ (-(64 : ℤ)) * |x.real atoms.vals|)) := by
  have hE : 0 ≤ (c - 1) * (3 / 2 * 2 ^ (-(64 : ℤ)) * |x.real atoms.vals|) := mul_nonneg (by linarith) (by positivity)
  have main : ∀ g : ℚ → ℤ, Elt.roundLoopE g (fun prec l => x.arbE atoms F coeff fuel prec l) fuel 64 l = .ok (n, l') → ∃ lo hi : ℚ,
      lo - (c - 1) * (3 / 2 * 2 ^ (-(64 : ℤ)) * |x.real atoms.vals|) ≤ x.real atoms.vals ∧
      x.real atoms.vals ≤ hi + (c - 1) * (3 / 2 * 2 ^ (-(64 : ℤ)) * |x.real atoms.vals|) ∧ g lo = n ∧ g hi = n := by
    intro g h
    rw [Elt.roundLoopE_eq_search] at h
    obtain ⟨k, s, lo, hi, r, l₁, h1, h3, h4, h5, h6, h7⟩ := boundsE_ok atoms h
    have hA := le_start 64 k
    obtain ⟨-, -, ⟨r', hr', hs1, hs2⟩, -⟩ := Elt.arb_slack_c atoms hF (hco l₁) hc hc5 (by omega) (gx k) h1
    have hm := err_mono hc (show (0 : ℝ) ≤ 3 / 2 by norm_num) (abs_nonneg (x.real atoms.vals)) hA
    rw [h3] at hr'
    cases hr'
    have h4' := (Rat.cast_le (K := ℝ)).2 h4
    have h5' := (Rat.cast_le (K := ℝ)).2 h5
    push_cast at h4' h5'
    rw [abs_le] at hs2
    refine ⟨lo, hi, ?_, ?_, h6, h7⟩ <;> linarith [hs2.1, hs2.2]
  constructor
  · intro h
    rw [Elt.floorE] at h
    cases hi : x.integer? with
    | some m =>
      rw [hi] at h
      cases h
      rw [integer_sound hi] at *
      constructor <;> linarith
    | none =>
      rw [hi] at h
      obtain ⟨lo, hi, h1, h2, h3, h4⟩ := main _ h
      rw [arf_floor_eq, Int.floor_eq_iff] at h3 h4
      have h3' : ((n : ℚ) : ℝ) ≤ lo := by exact_mod_cast h3.1
      have h4' : (hi : ℝ) < ((n + 1 : ℚ) : ℝ) := by exact_mod_cast h4.2
      push_cast at h3' h4'
      constructor <;> linarith
  · intro h
    rw [Elt.ceilE] at h
    cases hi : x.integer? with
    | some m =>
      rw [hi] at h
      cases h
      rw [integer_sound hi] at *
      constructor <;> linarith
    | none =>
      rw [hi] at h
      obtain ⟨lo, hi, h1, h2, h3, h4⟩ := main _ h
      rw [arf_ceil_eq, Int.ceil_eq_iff] at h3 h4
      have h3' : ((n - 1 : ℚ) : ℝ) < lo := by exact_mod_cast h3.1
      have h4' : (hi : ℝ) ≤ ((n : ℚ) : ℝ) := by exact_mod_cast h4.2
      push_cast at h3' h4'
      constructor <;> linarith

/-- C92. If the balls of the generators contain the generators, then `floor` and `ceil` are right after any history. -/
theorem embed_floor_exact (hF : F.Lawful) (hco : EmbeddingLawful P coeff) {fuel : ℕ} {x : Elt P R} (hx : x.WF) (gx : x.mod.ContainedFrom atoms 64) {n : ℤ}
    {l l' : ℕ} : (x.floorE atoms F coeff fuel l = .ok (n, l') → n = ⌊x.real atoms.vals⌋) ∧ (x.ceilE atoms F coeff fuel l = .ok (n, l') → n = ⌈x.real atoms.vals⌉) := by
  have h2 : ∀ k, 2 ≤ 64 * 2 ^ k := fun k => by have := le_start 64 k; omega
  obtain ⟨h3, h4⟩ := roundE_c atoms hF hco le_rfl (by norm_num) (fun k => Elt.genNear_one atoms hx.mod (h2 k) (gx k)) (fuel := fuel) (n := n) (l := l) (l' := l')
  rw [sub_self, zero_mul, sub_zero, add_zero] at h3
  rw [sub_self, zero_mul, sub_zero, add_zero] at h4
  exact ⟨fun h => (Int.floor_eq_iff.2 (h3 h)).symm, fun h => (Int.ceil_eq_iff.2 (h4 h)).symm⟩

/-- C92 without hypothesis on the generators: right up to a relative error of `2^-61`. -/
theorem embed_floor_partial (hF : F.Lawful) (hco : EmbeddingLawful P coeff) {fuel : ℕ} {x : Elt P R} (hx : x.WF) {n : ℤ} {l l' : ℕ} :
    (x.floorE atoms F coeff fuel l = .ok (n, l') → n - 2 ^ (-(61 : ℤ)) * |x.real atoms.vals| ≤ x.real atoms.vals ∧
      x.real atoms.vals < n + 1 + 2 ^ (-(61 : ℤ)) * |x.real atoms.vals|) ∧
    (x.ceilE atoms F coeff fuel l = .ok (n, l') → n - 1 - 2 ^ (-(61 : ℤ)) * |x.real atoms.vals| < x.real atoms.vals ∧
      x.real atoms.vals ≤ n + 2 ^ (-(61 : ℤ)) * |x.real atoms.vals|) := by
  have h2 : ∀ k, 2 ≤ 64 * 2 ^ k := fun k => by have := le_start 64 k; omega
  obtain ⟨h3, h4⟩ := roundE_c atoms hF hco (c := 5) (by norm_num) le_rfl (fun k => Elt.genNear_five atoms hx.mod (h2 k)) (fuel := fuel) (n := n) (l := l) (l' := l')
  have hm := (five_le |x.real atoms.vals| (abs_nonneg _)).1
  generalize ((5 : ℝ) - 1) * (3 / 2 * 2 ^ (-(64 : ℤ)) * |x.real atoms.vals|) = s at *
  generalize (2 : ℝ) ^ (-(61 : ℤ)) * |x.real atoms.vals| = t at *
  refine ⟨fun h => ?_, fun h => ?_⟩
  · obtain ⟨e1, e2⟩ := h3 h
    constructor <;> linarith
  · obtain ⟨e1, e2⟩ := h4 h
    constructor <;> linarith

/-- The conversion of elements that are not rational, with a general inflation factor. -/
theorem doubleE_c (hF : F.Lawful) (hco : EmbeddingLawful P coeff) {c : ℝ} (hc : 1 ≤ c) (hc5 : c ≤ 5) {fuel : ℕ} {x : Elt P R}
    (gx : ∀ k, Elt.GenNear atoms c (55 * 2 ^ k) x.mod) (hq : x.rational? = none) {d : Double} {l l' : ℕ} (h : x.toDoubleE atoms F coeff fuel l = .ok (d, l')) :
    Double.NearestUpTo (2 * ((c - 1) * (3 / 2 * 2 ^ (-(55 : ℤ)) * |x.real atoms.vals|))) (x.real atoms.vals) d := by
  have hE : 0 ≤ (c - 1) * (3 / 2 * 2 ^ (-(55 : ℤ)) * |x.real atoms.vals|) := mul_nonneg (by linarith) (by positivity)
  rw [Elt.toDoubleE, hq] at h
  simp only at h
  rw [Elt.doubleLoopE_eq_search] at h
  obtain ⟨k, s, lo, hi, r, l₁, h1, h3, h4, h5, h6, h7⟩ := boundsE_ok atoms h
  have hA := le_start 55 k
  obtain ⟨hnear, -, ⟨r', hr', hs1, hs2⟩, -⟩ := Elt.arb_slack_c atoms hF (hco l₁) hc hc5 (by omega) (gx k) h1
  have hm : (c - 1) * (3 / 2 * 2 ^ (-((55 * 2 ^ k : ℕ) : ℤ)) * |x.real atoms.vals|) ≤ (c - 1) * (3 / 2 * 2 ^ (-(55 : ℤ)) * |x.real atoms.vals|) :=
    mul_le_mul_of_nonneg_left (mul_le_mul_of_nonneg_right (mul_le_mul_of_nonneg_left (zmonoR (by omega)) (by norm_num)) (abs_nonneg _)) (by linarith)
  rw [h3] at hr'
  cases hr'
  have h4' := (Rat.cast_le (K := ℝ)).2 h4
  have h5' := (Rat.cast_le (K := ℝ)).2 h5
  push_cast at h4' h5'
  rw [abs_le] at hs2
  have hr0 : 0 ≤ r := by
    obtain ⟨r'', e1, e2, -⟩ := hnear
    rw [h3] at e1; cases e1; exact e2
  exact Double.nearest_almost (by linarith) h6 h7 hE (by linarith [hs2.1]) (by linarith [hs2.2])

/-- C92. If the balls of the generators contain the generators, then the conversion to `double` is correctly rounded after any history, for elements that
are not rational, are zero, or not subnormal; in general it is correctly rounded up to a relative error of `3·2^-53`. -/
theorem embed_double (hF : F.Lawful) (hco : EmbeddingLawful P coeff) {fuel : ℕ} {x : Elt P R} (hx : x.WF) {d : Double} {l l' : ℕ}
    (h : x.toDoubleE atoms F coeff fuel l = .ok (d, l')) :
    Double.NearestUpTo (3 * 2 ^ (-(53 : ℤ)) * |x.real atoms.vals|) (x.real atoms.vals) d ∧
      (x.mod.ContainedFrom atoms 55 → (x.rational? = none ∨ x.real atoms.vals = 0 ∨ 2 ^ (-1022 : ℤ) ≤ |x.real atoms.vals|) →
        Double.NearestUpTo 0 (x.real atoms.vals) d) := by
  have h2 : ∀ k, 2 ≤ 55 * 2 ^ k := fun k => by have := le_start 55 k; omega
  have e55 : (2 : ℝ) ^ (-(53 : ℤ)) = 4 * 2 ^ (-(55 : ℤ)) := by norm_num
  have hpos : 0 ≤ (2 : ℝ) ^ (-(55 : ℤ)) * |x.real atoms.vals| := by positivity
  cases hq : x.rational? with
  | none =>
    constructor
    · refine (doubleE_c atoms hF hco (c := 5) (by norm_num) le_rfl (fun k => Elt.genNear_five atoms hx.mod (h2 k)) hq h).mono ?_
      rw [e55]
      generalize (2 : ℝ) ^ (-(55 : ℤ)) = e at *
      linarith
    · intro gx _
      have := doubleE_c atoms hF hco le_rfl (by norm_num) (fun k => Elt.genNear_one atoms hx.mod (h2 k) (gx k)) hq h
      rwa [sub_self, zero_mul, mul_zero] at this
  | some q =>
    have h' : x.toDouble atoms F (coeffAt coeff l) fuel = .ok d := by
      rw [Elt.toDoubleE, hq] at h
      rw [Elt.toDouble, hq]
      simp only [Out.ok.injEq, Prod.mk.injEq] at h ⊢
      exact h.1
    refine ⟨elt_double_partial atoms hF (hco l) hx h', fun gx hn => elt_double_exact atoms hF (hco l) hx gx ?_ h'⟩
    rwa [hq]

/-- C92. Elements that compare equal have the same hash in any two histories, for algebraically independent atoms, if they are rational or if the balls of the
generators contain the generators. -/
theorem embed_hash_partial [Build] (hF : F.Lawful) (hco : EmbeddingLawful P coeff) (hv : AlgebraicIndependent ℚ atoms.vals) (hashDouble : Double → UInt64)
    {fuel fuel' : ℕ} {x y : Elt P R} (hx : x.WF) (hy : y.WF) (zx : x.NoZeroGen) (zy : y.NoZeroGen) (he : x.eq y = .ok true)
    (hc : (∃ q : ℚ, x.real atoms.vals = q) ∨ x.mod.ContainedFrom atoms 55 ∧ y.mod.ContainedFrom atoms 55) {h k : UInt64} {l l' m m' : ℕ}
    (h1 : x.hashE atoms F coeff hashDouble fuel l = .ok (h, l')) (h2 : y.hashE atoms F coeff hashDouble fuel' m = .ok (k, m')) : h = k := by
  have hval := eq_sound hx hy he atoms.vals
  obtain ⟨⟨d, dl⟩, d1, d2⟩ := Out.bind_eq_ok.1 h1
  obtain ⟨⟨e, el⟩, e1, e2⟩ := Out.bind_eq_ok.1 h2
  cases d2
  cases e2
  congr 1
  by_cases hr : ∃ q : ℚ, x.real atoms.vals = q
  · obtain ⟨q, hq⟩ := hr
    have q1 := (rational_iff hv hx (.inl zx) q).2 hq
    have q2 := (rational_iff hv hy (.inl zy) q).2 (hval ▸ hq)
    rw [Elt.toDoubleE, q1] at d1
    rw [Elt.toDoubleE, q2] at e1
    simp only [Out.ok.injEq, Prod.mk.injEq] at d1 e1
    rw [← d1.1, ← e1.1]
  · obtain ⟨c1, c2⟩ := hc.resolve_left hr
    have n1 : x.rational? = none := by
      cases h : x.rational? with
      | none => rfl
      | some q => exact absurd ⟨q, rational_sound h _⟩ hr
    have n2 : y.rational? = none := by
      cases h : y.rational? with
      | none => rfl
      | some q => exact absurd ⟨q, hval.trans (rational_sound h _)⟩ hr
    have k1 := (embed_double atoms hF hco hx d1).2 c1 (.inl n1)
    have k2 := (embed_double atoms hF hco hy e1).2 c2 (.inl n2)
    rw [← hval] at k2
    exact nearest_unique (irrational_of_none atoms hv hx zx n1) k1 k2

end ExactReal.Props
