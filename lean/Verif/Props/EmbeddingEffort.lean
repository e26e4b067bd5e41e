import Verif.Props.Embedding

/-!
# C92, continued: `floordiv`, and how far approximations are refined after any history

The bounds for the number of iterations of C88 do not depend on what the number field was refined to before.
-/

namespace ExactReal.Props

open Arf Ball

variable {P : Type} [DecidableEq P] {R : Type} [CommRing R] [DecidableEq R] [CRing P R] [LawfulCRing P]
variable (atoms : Atoms) {F : Arith} {coeff : ℕ → ℕ → R → Ball}

/-! ### `floordiv` -/

/-- `floordiv` in one module with a general inflation factor. -/
theorem floordivSameE_c (hF : F.Lawful) (hco : EmbeddingLawful P coeff) {c : ℝ} (hc : 1 ≤ c) (hc5 : c ≤ 5) {fuel : ℕ} {x y : Elt P R} (hx : x.WF) (hy : y.WF)
    (hm : x.mod = y.mod) (gx : ∀ k, Elt.GenNear atoms c (64 * 2 ^ k) x.mod) (h0 : y.real atoms.vals ≠ 0) {n : ℤ} {l l' : ℕ}
    (h : Elt.floordivSameE atoms F coeff fuel x y l = .ok (n, l')) :
    ∃ x' y' : ℝ, |x' - x.real atoms.vals| ≤ (c - 1) * (3 / 2 * 2 ^ (-(64 : ℤ)) * |x.real atoms.vals|) ∧
      |y' - y.real atoms.vals| ≤ (c - 1) * (3 / 2 * 2 ^ (-(64 : ℤ)) * |y.real atoms.vals|) ∧ n = ⌊x' / y'⌋ := by
  have hE : ∀ z : ℝ, 0 ≤ (c - 1) * (3 / 2 * 2 ^ (-(64 : ℤ)) * |z|) := fun z => mul_nonneg (by linarith) (by positivity)
  rw [Elt.floordivSameE] at h
  split_ifs at h with hb
  · cases h
    refine ⟨0, y.real atoms.vals, ?_, ?_, ?_⟩
    · rw [bool_sound (by simpa using hb)]; simp
    · rw [sub_self, abs_zero]; exact hE _
    · simp
  · cases he : Elt.exactLoop P none (x.coeffs.zip y.coeffs) with
    | some m =>
      rw [he] at h
      cases h
      have := real_of_multiple hx hy hm (Elt.exactLoop_sound he).2 atoms.vals
      refine ⟨x.real atoms.vals, y.real atoms.vals, ?_, ?_, ?_⟩
      · rw [sub_self, abs_zero]; exact hE _
      · rw [sub_self, abs_zero]; exact hE _
      · rw [this, mul_div_cancel_right₀ _ h0, Int.floor_intCast]
    | none =>
      rw [he] at h
      simp only at h
      rw [Elt.floordivLoopE_eq_search] at h
      obtain ⟨k, l₁, hk⟩ := searchE_ok h
      have hA := le_start 64 k
      obtain ⟨⟨d, l₂⟩, h1, h2⟩ := Out.bind_eq_ok.1 hk
      simp only at h2
      cases hn : d.ne (Ball.exact 0) with
      | none => rw [hn] at h2; cases h2
      | some b =>
        cases b with
        | false => rw [hn] at h2; cases h2
        | true =>
          rw [hn] at h2
          obtain ⟨⟨a, l₃⟩, h3, h4⟩ := Out.bind_eq_ok.1 h2
          obtain ⟨⟨lo, hi⟩, h5, h6⟩ := Out.bind_eq_ok.1 h4
          obtain ⟨-, -, sx, -⟩ := Elt.arb_slack_c atoms hF (hco l₂) hc hc5 (by omega) (gx k) (Elt.arbE_ok h3)
          obtain ⟨-, -, sy, -⟩ := Elt.arb_slack_c atoms hF (hco l₁) hc hc5 (by omega) (by rw [← hm]; exact gx k) (Elt.arbE_ok h1)
          have hz := Ball.ne_zero_spec hn
          obtain ⟨x', cx, dx⟩ := (sx.mono (err_mono hc (show (0 : ℝ) ≤ 3 / 2 by norm_num) (abs_nonneg _) hA)).point (hE _)
          obtain ⟨y', cy, dy⟩ := (sy.mono (err_mono hc (show (0 : ℝ) ≤ 3 / 2 by norm_num) (abs_nonneg _) hA)).point (hE _)
          refine ⟨x', y', dx, dy, ?_⟩
          have hq := hF.div_contains (64 * 2 ^ k) a d x' y' cx cy hz
          have fa : a.Finite := by obtain ⟨r, hr, hr0, -⟩ := sx; exact ⟨r, hr, hr0⟩
          have fd : d.Finite := by obtain ⟨r, hr, hr0, -⟩ := sy; exact ⟨r, hr, hr0⟩
          obtain ⟨r, hr, hr0⟩ := hF.div_finite (64 * 2 ^ k) a d fa fd hz
          rw [contains_iff hr, abs_le] at hq
          obtain ⟨r', r1, b1, b2, -⟩ := Props.interval_spec h5
          rw [hr] at r1
          cases r1
          have b1' := (Rat.cast_le (K := ℝ)).2 b1
          have b2' := (Rat.cast_le (K := ℝ)).2 b2
          push_cast at b1' b2'
          simp only [Out.ok.injEq, Prod.mk.injEq] at h6
          obtain ⟨h6, -⟩ := h6
          split_ifs at h6 with hf
          cases h6
          rw [arf_floor_eq] at hf ⊢
          rw [arf_floor_eq] at hf
          have e1 := Int.floor_le lo
          have e2 := Int.lt_floor_add_one hi
          rw [← hf] at e2
          have e1' : ((⌊lo⌋ : ℤ) : ℝ) ≤ lo := by exact_mod_cast e1
          have e2' : (hi : ℝ) < ((⌊lo⌋ : ℤ) : ℝ) + 1 := by exact_mod_cast e2
          rw [eq_comm, Int.floor_eq_iff]
          constructor <;> linarith

section
variable [build : Build]

/-- `floordiv` is `floordivSame` in the common module. -/
theorem floordivE_reduce {x y : Elt P R} (hx : x.WF) (hy : y.WF) :
    (x.toBool = false ∧ ∀ fuel l, Elt.floordivE atoms F coeff fuel x y l = .ok (0, l)) ∨
    (x.toBool = true ∧ Mod.span x.mod y.mod = .throws .logicError ∧ ∀ fuel l, Elt.floordivE atoms F coeff fuel x y l = .throws .logicError) ∨
    (x.toBool = true ∧ ∃ s x' y', Mod.span x.mod y.mod = .ok s ∧ x'.WF ∧ y'.WF ∧ x'.mod = s ∧ y'.mod = s ∧ x'.fs = x.fs ∧ y'.fs = y.fs ∧ x'.toBool = true ∧
      ∀ fuel l, Elt.floordivE atoms F coeff fuel x y l = Elt.floordivSameE atoms F coeff fuel x' y' l) := by
  cases hb : x.toBool with
  | false => exact .inl ⟨rfl, fun fuel l => by rw [Elt.floordivE, hb]; rfl⟩
  | true =>
    right
    by_cases hm : x.mod = y.mod
    · right
      refine ⟨rfl, x.mod, x, y, ?_, hx, hy, rfl, hm.symm, rfl, rfl, hb, fun fuel l => ?_⟩
      · rw [← hm]; exact span_self (R := R) hx.mod
      · rw [Elt.floordivE, hb, if_neg (by simp), if_neg (by simp [hm])]
    · rcases Mod.span_throws (R := R) hx.mod hy.mod with ⟨s, hs⟩ | ⟨hs, -⟩
      · right
        obtain ⟨x', px, wx, mx, fx⟩ := Elt.promote_span_left hx hy.mod hs
        obtain ⟨y', py, wy, my, fy⟩ := Elt.promote_span_right hx.mod hy hs
        have hb' : x'.toBool = true := by
          rw [← Bool.not_eq_false, ← Elt.fs_eq_zero_iff wx, fx, Elt.fs_eq_zero_iff hx, hb]; simp
        refine ⟨rfl, s, x', y', hs, wx, wy, mx, my, fx, fy, hb', fun fuel l => ?_⟩
        rw [Elt.floordivE, hb, if_neg (by simp), if_pos hm, hs, Out.ok_bind, px, Out.ok_bind, py, Out.ok_bind]
      · left
        refine ⟨rfl, hs, fun fuel l => ?_⟩
        rw [Elt.floordivE, hb, if_neg (by simp), if_pos hm, hs]; rfl

/-- C92. `x.floordiv(y)` for `y ≠ 0` after any history: right up to a relative error of `2^-59`, and right if the balls of the generators of the common module
contain the generators. -/
theorem embed_floordiv (hF : F.Lawful) (hco : EmbeddingLawful P coeff) {fuel : ℕ} {x y : Elt P R} (hx : x.WF) (hy : y.WF) (h0 : y.real atoms.vals ≠ 0) {n : ℤ}
    {l l' : ℕ} (h : Elt.floordivE atoms F coeff fuel x y l = .ok (n, l')) :
    (n - 2 ^ (-(59 : ℤ)) * |x.real atoms.vals / y.real atoms.vals| ≤ x.real atoms.vals / y.real atoms.vals ∧
      x.real atoms.vals / y.real atoms.vals < n + 1 + 2 ^ (-(59 : ℤ)) * |x.real atoms.vals / y.real atoms.vals|) ∧
    ((∀ s, Mod.span x.mod y.mod = .ok s → s.ContainedFrom atoms 64) → n = ⌊x.real atoms.vals / y.real atoms.vals⌋) := by
  rcases floordivE_reduce atoms hx hy (F := F) (coeff := coeff) with ⟨hb, he⟩ | ⟨-, -, he⟩ | ⟨-, s, x', y', hs, wx, wy, mx, my, fx, fy, -, he⟩
  · rw [he] at h; cases h
    rw [bool_sound hb]; simp
  · rw [he] at h; cases h
  · rw [he] at h
    have vx : x'.real atoms.vals = x.real atoms.vals := by rw [Elt.real_eq_evalF, fx, ← Elt.real_eq_evalF]
    have vy : y'.real atoms.vals = y.real atoms.vals := by rw [Elt.real_eq_evalF, fy, ← Elt.real_eq_evalF]
    have h2 : ∀ k, 2 ≤ 64 * 2 ^ k := fun k => by have := le_start 64 k; omega
    constructor
    · obtain ⟨a, b, ha, hb, hn⟩ := floordivSameE_c atoms hF hco (c := 5) (by norm_num) le_rfl wx wy (mx.trans my.symm)
        (fun k => Elt.genNear_five atoms wx.mod (h2 k)) (by rw [vy]; exact h0) h
      rw [vx] at ha
      rw [vy] at hb
      have hq := quotient_error h0 (ha.trans (five_le _ (abs_nonneg _)).1) (hb.trans (five_le _ (abs_nonneg _)).1)
      have hl := Int.floor_le (a / b)
      have hu := Int.lt_floor_add_one (a / b)
      rw [← hn] at hl hu
      rw [abs_le] at hq
      constructor <;> linarith [hq.1, hq.2]
    · intro hg
      obtain ⟨a, b, ha, hb, hn⟩ := floordivSameE_c atoms hF hco le_rfl (by norm_num) wx wy (mx.trans my.symm)
        (fun k => Elt.genNear_one atoms wx.mod (h2 k) (by rw [mx]; exact hg s hs k)) (by rw [vy]; exact h0) h
      rw [sub_self, zero_mul, abs_nonpos_iff, sub_eq_zero] at ha hb
      rw [hn, ha, hb, vx, vy]

end

/-! ### Effort -/

/-- What `arb` returns in the loops that double the accuracy. -/
theorem arbE_within (hF : F.Lawful) (hco : EmbeddingLawful P coeff) (hac : EmbeddingAccurate P coeff) {start : ℕ} (hs : 4 ≤ start) {x : Elt P R} (hx : x.WF)
    {n : ℕ} (h : x.Enough atoms start n) {fuel : ℕ} (hf : n < fuel) (k l : ℕ) : ∃ b l' r, x.arbE atoms F coeff fuel (start * 2 ^ k) l = .ok (b, l') ∧
      b.rad = some r ∧ 0 ≤ r ∧ (r : ℝ) ≤ 3 / 2 * 2 ^ (-((start * 2 ^ k : ℕ) : ℤ)) * |x.real atoms.vals| ∧ |x.real atoms.vals - b.mid| ≤ 5 * r ∧
      b.hasAccuracy (start * 2 ^ k : ℕ) = true := by
  obtain ⟨b, r, h1, h2⟩ := arb_within atoms hF (hco l) (hac l) hs hx h hf k
  obtain ⟨l', h3⟩ := Elt.arbE_of h1
  exact ⟨b, l', r, h3, h2⟩

/-- C92. `x < y` has an answer after as many iterations as in C88, whatever the history. -/
theorem embed_lt_effort [Build] (hF : F.Lawful) (hco : EmbeddingLawful P coeff) (hac : EmbeddingAccurate P coeff) {x y : Elt P R} (hx : x.WF) (hy : y.WF)
    {n k : ℕ} (nx : x.Enough atoms 64 n) (ny : y.Enough atoms 64 n)
    (h : 9 * (|x.real atoms.vals| + |y.real atoms.vals|) < 2 ^ (64 * 2 ^ k) * |x.real atoms.vals - y.real atoms.vals|) {e : Bool} (he : x.eq y = .ok e)
    {fuel : ℕ} (hn : n < fuel) (hk : k < fuel) (l : ℕ) : ∃ r l', Elt.ltE atoms F coeff fuel x y l = .ok (r, l') := by
  suffices h : ∃ o, Elt.ltE atoms F coeff fuel x y l = .ok o by
    obtain ⟨⟨r, l'⟩, ho⟩ := h
    exact ⟨r, l', ho⟩
  rw [Elt.ltE, he]
  cases e with
  | true => exact ⟨_, rfl⟩
  | false =>
    rw [Out.ok_bind, if_neg (by simp), Elt.ltLoopE_eq_search]
    refine searchE_within k (fun i _ l => ?_) (fun l => ?_) hk l
    · obtain ⟨b, l', r, b1, -⟩ := arbE_within atoms hF hco hac (by norm_num) hx nx hn i l
      obtain ⟨c, l'', s, c1, -⟩ := arbE_within atoms hF hco hac (by norm_num) hy ny hn i l'
      exact ⟨_, by rw [b1, Out.ok_bind, c1, Out.ok_bind]⟩
    · obtain ⟨b, l', r, b1, b2, b3, b4, b5, -⟩ := arbE_within atoms hF hco hac (by norm_num) hx nx hn k l
      obtain ⟨c, l'', s, c1, c2, c3, c4, c5, -⟩ := arbE_within atoms hF hco hac (by norm_num) hy ny hn k l'
      have := two_pow_neg_mul h
      obtain ⟨z, hz⟩ := lt_isSome_of_far b2 c2 b5 c5 (by nlinarith)
      exact ⟨z, l'', by rw [b1, Out.ok_bind, c1, Out.ok_bind]; simp only [hz]⟩

/-- A call returns if it does not fail. -/
theorem pair_ok {α : Type} {o : Out (α × ℕ)} (h : ∃ p, o = .ok p) : ∃ a l', o = .ok (a, l') := by
  obtain ⟨⟨a, l'⟩, h⟩ := h
  exact ⟨a, l', h⟩

/-- C92. The same for real numbers. -/
theorem embed_ltRN_effort [Build] (hF : F.Lawful) (hco : EmbeddingLawful P coeff) (hac : EmbeddingAccurate P coeff) {x : Elt P R} {y : RN} (hx : x.WF)
    (hy : y.WF) {n k : ℕ} (nx : x.Enough atoms 64 n)
    (h : 9 * |x.real atoms.vals| + 3 * magnitude (y.real atoms) < 2 ^ (64 * 2 ^ k) * |x.real atoms.vals - y.real atoms|) {e : Bool} (he : x.eqRN y = .ok e)
    {fuel : ℕ} (hn : n < fuel) (hk : k < fuel) (l : ℕ) : ∃ r l', Elt.ltRNE atoms F coeff fuel x y l = .ok (r, l') := by
  apply pair_ok
  rw [Elt.ltRNE, he]
  cases e with
  | true => exact ⟨_, rfl⟩
  | false =>
    rw [Out.ok_bind, if_neg (by simp), Elt.ltLoopE_eq_search]
    refine searchE_within k (fun i _ l => ?_) (fun l => ?_) hk l
    · obtain ⟨b, l', r, b1, -⟩ := arbE_within atoms hF hco hac (by norm_num) hx nx hn i l
      exact ⟨_, by rw [b1, Out.ok_bind]⟩
    · obtain ⟨b, l', r, b1, b2, b3, b4, b5, -⟩ := arbE_within atoms hF hco hac (by norm_num) hx nx hn k l
      have hp : 2 ≤ 64 * 2 ^ k := by have := le_start 64 k; omega
      obtain ⟨s, s1, s2, s3, s4⟩ := RN.arb_error atoms hy hp
      have := two_pow_neg_mul (c := 1) (a := 9 * |x.real atoms.vals| + 3 * magnitude (y.real atoms)) (lt_of_le_of_lt (by rw [_root_.one_mul]) h)
      have my := magnitude_pos (y.real atoms)
      have ay := abs_le_magnitude (y.real atoms)
      have hu := zposR (-((64 * 2 ^ k : ℕ) : ℤ))
      obtain ⟨z, hz⟩ := lt_isSome_of_far b2 s1 b5 s4 (by nlinarith)
      exact ⟨z, l', by rw [b1, Out.ok_bind, hz]⟩

/-- C92. The same for rationals and integers. -/
theorem embed_ltQ_effort (hF : F.Lawful) (hco : EmbeddingLawful P coeff) (hac : EmbeddingAccurate P coeff) {x : Elt P R} (hx : x.WF) {n k : ℕ}
    (nx : x.Enough atoms 64 n) {q : ℚ} (h : 11 * |x.real atoms.vals| < 2 ^ (64 * 2 ^ k) * |x.real atoms.vals - q|) {fuel : ℕ} (hn : n < fuel) (hk : k < fuel)
    (l : ℕ) : (∃ r l', Elt.ltQE atoms F coeff fuel x q l = .ok (r, l')) ∧ ∀ m : ℤ, q = m → ∃ r l', Elt.ltZE atoms F coeff fuel x m l = .ok (r, l') := by
  have key := two_pow_neg_mul h
  have hx0 := abs_nonneg (x.real atoms.vals)
  have hu := zposR (-((64 * 2 ^ k : ℕ) : ℤ))
  have hux := mul_nonneg hu.le hx0
  have hok : ∀ i l, ∃ b, x.arbE atoms F coeff fuel (64 * 2 ^ i) l = .ok b := fun i l => by
    obtain ⟨b, l', r, b1, -⟩ := arbE_within atoms hF hco hac (by norm_num) hx nx hn i l
    exact ⟨_, b1⟩
  constructor
  · apply pair_ok
    rw [Elt.ltQE]
    split_ifs
    · exact ⟨_, rfl⟩
    · rw [Elt.ltLoopE_eq_search]
      refine searchE_within k (fun i _ l => by obtain ⟨b, hb⟩ := hok i l; exact ⟨_, by rw [hb, Out.ok_bind]⟩) (fun l => ?_) hk l
      obtain ⟨b, l', r, b1, b2, b3, b4, b5, -⟩ := arbE_within atoms hF hco hac (by norm_num) hx nx hn k l
      obtain ⟨⟨z, hz⟩, -⟩ := scaled_error hF b2 b3 b5 q (by nlinarith)
      exact ⟨z, l', by rw [b1, Out.ok_bind, hz]⟩
  · rintro m rfl
    apply pair_ok
    rw [Elt.ltZE]
    split_ifs
    · exact ⟨_, rfl⟩
    · rw [Elt.ltLoopE_eq_search]
      refine searchE_within k (fun i _ l => by obtain ⟨b, hb⟩ := hok i l; exact ⟨_, by rw [hb, Out.ok_bind]⟩) (fun l => ?_) hk l
      obtain ⟨b, l', r, b1, b2, b3, b4, b5, -⟩ := arbE_within atoms hF hco hac (by norm_num) hx nx hn k l
      obtain ⟨z, hz⟩ := lt_isSome_of_far (b := exact (m : ℚ)) (y := ((m : ℚ) : ℝ)) (e := 0) (s := 0) b2 rfl b5 (by simp [exact]) (by push_cast at *; nlinarith)
      exact ⟨z, l', by rw [b1, Out.ok_bind, hz]⟩

/-- The loops that compare bounds. -/
theorem boundsE_effort {α : Type} [DecidableEq α] {g : ℚ → α} (hF : F.Lawful) (hco : EmbeddingLawful P coeff) (hac : EmbeddingAccurate P coeff) {x : Elt P R}
    (hx : x.WF) {start n k : ℕ} (hs : 4 ≤ start) (nx : x.Enough atoms start n) {ε : ℝ} {c : α} (hg : ∀ q : ℚ, |(q : ℝ) - x.real atoms.vals| < ε → g q = c)
    (h : 33 * |x.real atoms.vals| < 2 ^ (start * 2 ^ k) * ε) {fuel : ℕ} (hn : n < fuel) (hk : k < fuel) (l : ℕ) :
    ∃ o, searchE (Elt.boundsBodyE g fun p l => x.arbE atoms F coeff fuel p l) fuel start l = .ok o := by
  have key := two_pow_neg_mul h
  refine searchE_within k (fun i _ l => ?_) (fun l => ?_) hk l
  · obtain ⟨b, l', r, b1, b2, b3, -, -, b6⟩ := arbE_within atoms hF hco hac hs hx nx hn i l
    have := le_start start i
    obtain ⟨lo, hi, e, -⟩ := interval_near b2 b3 (hasAccuracy_mono (by omega) b6)
    exact ⟨_, by rw [Elt.boundsBodyE, b1, Out.ok_bind]; simp only; rw [e, Out.ok_bind]⟩
  · obtain ⟨b, l', r, b1, b2, b3, b4, b5, b6⟩ := arbE_within atoms hF hco hac hs hx nx hn k l
    have := le_start start k
    obtain ⟨lo, hi, e, l1, l2, u1, u2⟩ := interval_near b2 b3 (hasAccuracy_mono (by omega) b6)
    have l1' := (Rat.cast_le (K := ℝ)).2 l1
    have l2' := (Rat.cast_le (K := ℝ)).2 l2
    have u1' := (Rat.cast_le (K := ℝ)).2 u1
    have u2' := (Rat.cast_le (K := ℝ)).2 u2
    have h0' : (0 : ℝ) ≤ r := by exact_mod_cast b3
    push_cast at l1' l2' u1' u2'
    rw [abs_le] at b5
    have g1 := hg lo (abs_lt.2 ⟨by nlinarith [b5.1, b5.2], by nlinarith [b5.1, b5.2]⟩)
    have g2 := hg hi (abs_lt.2 ⟨by nlinarith [b5.1, b5.2], by nlinarith [b5.1, b5.2]⟩)
    exact ⟨c, l', by rw [Elt.boundsBodyE, b1, Out.ok_bind]; simp only; rw [e, Out.ok_bind, g1, g2, if_pos rfl]⟩

/-- C92. `floor` and `ceil` return after as many iterations as in C88, whatever the history. -/
theorem embed_floor_effort (hF : F.Lawful) (hco : EmbeddingLawful P coeff) (hac : EmbeddingAccurate P coeff) {x : Elt P R} (hx : x.WF) {n k : ℕ}
    (nx : x.Enough atoms 64 n) {ε : ℝ} (hε : ∀ m : ℤ, ε ≤ |x.real atoms.vals - m|) (h : 33 * |x.real atoms.vals| < 2 ^ (64 * 2 ^ k) * ε) {fuel : ℕ}
    (hn : n < fuel) (hk : k < fuel) (l : ℕ) : (∃ m l', x.floorE atoms F coeff fuel l = .ok (m, l')) ∧ ∃ m l', x.ceilE atoms F coeff fuel l = .ok (m, l') := by
  cases hi : x.integer? with
  | some m => exact ⟨⟨m, l, by rw [Elt.floorE, hi]⟩, ⟨m, l, by rw [Elt.ceilE, hi]⟩⟩
  | none =>
    have hεpos : 0 < ε := by
      by_contra hc
      have := abs_nonneg (x.real atoms.vals)
      have : (2 : ℝ) ^ (64 * 2 ^ k) * ε ≤ 0 := mul_nonpos_of_nonneg_of_nonpos (by positivity) (not_lt.1 hc)
      linarith
    set y := x.real atoms.vals with hy
    have hl : (⌊y⌋ : ℝ) + ε ≤ y := by
      have := hε ⌊y⌋
      rw [abs_of_nonneg (by linarith [Int.floor_le y])] at this
      linarith
    have hu : y + ε ≤ ⌊y⌋ + 1 := by
      have := hε (⌊y⌋ + 1)
      push_cast at this
      rw [abs_of_nonpos (by linarith [Int.lt_floor_add_one y])] at this
      linarith
    have hnear : ∀ q : ℚ, |(q : ℝ) - y| < ε → (⌊y⌋ : ℝ) < q ∧ (q : ℝ) < ⌊y⌋ + 1 := by
      intro q hq
      rw [abs_lt] at hq
      constructor <;> linarith [hq.1, hq.2]
    constructor
    · apply pair_ok
      rw [Elt.floorE, hi]
      simp only
      rw [Elt.roundLoopE_eq_search]
      exact boundsE_effort atoms (g := Arf.floor) hF hco hac hx (start := 64) (by norm_num) nx (ε := ε) (c := ⌊y⌋) (fun q hq => by
        obtain ⟨h1, h2⟩ := hnear q hq
        rw [arf_floor_eq, Int.floor_eq_iff]
        exact ⟨by exact_mod_cast h1.le, by exact_mod_cast h2⟩) h hn hk l
    · apply pair_ok
      rw [Elt.ceilE, hi]
      simp only
      rw [Elt.roundLoopE_eq_search]
      exact boundsE_effort atoms (g := Arf.ceil) hF hco hac hx (start := 64) (by norm_num) nx (ε := ε) (c := ⌊y⌋ + 1) (fun q hq => by
        obtain ⟨h1, h2⟩ := hnear q hq
        rw [arf_ceil_eq, Int.ceil_eq_iff]
        refine ⟨?_, ?_⟩
        · push_cast; rw [add_sub_cancel_right]; exact_mod_cast h1
        · exact_mod_cast h2.le) h hn hk l

/-- C92. The conversion to `double` returns after as many iterations as in C88, whatever the history. -/
theorem embed_double_effort (hF : F.Lawful) (hco : EmbeddingLawful P coeff) (hac : EmbeddingAccurate P coeff) {x : Elt P R} (hx : x.WF) {n k : ℕ}
    (nx : x.Enough atoms 55 n) {ε : ℝ} {d : Double} (hε : ∀ q : ℚ, |(q : ℝ) - x.real atoms.vals| < ε → Double.ofArf q = d)
    (h : 33 * |x.real atoms.vals| < 2 ^ (55 * 2 ^ k) * ε) {fuel : ℕ} (hn : n < fuel) (hk : k < fuel) (l : ℕ) :
    ∃ d l', x.toDoubleE atoms F coeff fuel l = .ok (d, l') := by
  apply pair_ok
  rw [Elt.toDoubleE]
  cases hq : x.rational? with
  | some q => exact ⟨_, rfl⟩
  | none =>
    simp only
    rw [Elt.doubleLoopE_eq_search]
    exact boundsE_effort atoms (g := Double.ofArf) hF hco hac hx (start := 55) (by norm_num) nx hε h hn hk l

theorem floordivLoopE_effort (hF : F.Lawful) (hco : EmbeddingLawful P coeff) (hac : EmbeddingAccurate P coeff) {x y : Elt P R} (hx : x.WF) (hy : y.WF) {n k : ℕ}
    (nx : x.Enough atoms 64 n) (ny : y.Enough atoms 64 n) (x0 : x.real atoms.vals ≠ 0) (y0 : y.real atoms.vals ≠ 0) {ε : ℝ}
    (hε : ∀ m : ℤ, ε ≤ |x.real atoms.vals / y.real atoms.vals - m|)
    (h : 512 * |x.real atoms.vals / y.real atoms.vals| < 2 ^ (64 * 2 ^ k) * ε) {fuel : ℕ} (hn : n < fuel) (hk : k < fuel) (l : ℕ) :
    ∃ o, Elt.floordivLoopE F (fun p l => x.arbE atoms F coeff fuel p l) (fun p l => y.arbE atoms F coeff fuel p l) fuel 64 l = .ok o := by
  rw [Elt.floordivLoopE_eq_search]
  have key : ∀ i l, ∃ l', ∃ lo hi : ℚ,
      |(lo : ℝ) - x.real atoms.vals / y.real atoms.vals| ≤ 512 * 2 ^ (-((64 * 2 ^ i : ℕ) : ℤ)) * |x.real atoms.vals / y.real atoms.vals| ∧
      |(hi : ℝ) - x.real atoms.vals / y.real atoms.vals| ≤ 512 * 2 ^ (-((64 * 2 ^ i : ℕ) : ℤ)) * |x.real atoms.vals / y.real atoms.vals| ∧
      Elt.floordivBodyE F (fun p l => x.arbE atoms F coeff fuel p l) (fun p l => y.arbE atoms F coeff fuel p l) (64 * 2 ^ i) l =
        .ok (if Arf.floor lo = Arf.floor hi then some (Arf.floor lo) else none, l') := by
    intro i l
    obtain ⟨c, l', s, c1, c2, c3, c4, c5, c6⟩ := arbE_within atoms hF hco hac (by norm_num) hy ny hn i l
    obtain ⟨b, l'', r, b1, b2, b3, b4, b5, b6⟩ := arbE_within atoms hF hco hac (by norm_num) hx nx hn i l'
    obtain ⟨e1, lo, hi, e2, e3, e4⟩ := floordiv_error hF (le_start 64 i) b6 c6 b2 c2 b3 c3 x0 y0 b4 c4 b5 c5
    exact ⟨l'', lo, hi, e3, e4, by rw [Elt.floordivBodyE, c1, Out.ok_bind]; simp only [e1]; rw [b1, Out.ok_bind]; simp only; rw [e2, Out.ok_bind]⟩
  refine searchE_within k (fun i _ l => ?_) (fun l => ?_) hk l
  · obtain ⟨l', lo, hi, -, -, e⟩ := key i l
    exact ⟨_, e⟩
  · obtain ⟨l', lo, hi, h1, h2, e⟩ := key k l
    have hlt := two_pow_neg_mul h
    set q := x.real atoms.vals / y.real atoms.vals with hq
    have hf : ∀ z : ℚ, |(z : ℝ) - q| < ε → Arf.floor z = ⌊q⌋ := by
      intro z hz
      rw [abs_lt] at hz
      have hl : (⌊q⌋ : ℝ) + ε ≤ q := by
        have := hε ⌊q⌋
        rw [abs_of_nonneg (by linarith [Int.floor_le q])] at this
        linarith
      have hu : q + ε ≤ ⌊q⌋ + 1 := by
        have := hε (⌊q⌋ + 1)
        push_cast at this
        rw [abs_of_nonpos (by linarith [Int.lt_floor_add_one q])] at this
        linarith
      have h3 : (⌊q⌋ : ℝ) < z := by linarith [hz.1]
      have h4 : (z : ℝ) < ⌊q⌋ + 1 := by linarith [hz.2]
      rw [arf_floor_eq, Int.floor_eq_iff]
      exact ⟨by exact_mod_cast h3.le, by exact_mod_cast h4⟩
    rw [hf lo (h1.trans_lt hlt), hf hi (h2.trans_lt hlt), if_pos rfl] at e
    exact ⟨_, _, e⟩

/-- C92. `floordiv` returns after as many iterations as in C88, whatever the history. -/
theorem embed_floordiv_effort [Build] (hF : F.Lawful) (hco : EmbeddingLawful P coeff) (hac : EmbeddingAccurate P coeff) {x y x' y' : Elt P R} (hx : x.WF)
    (hy : y.WF) {s : Mod P} (hs : Mod.span x.mod y.mod = .ok s) (hx' : x.promote s = .ok x') (hy' : y.promote s = .ok y') {n k : ℕ}
    (nx : x'.Enough atoms 64 n) (ny : y'.Enough atoms 64 n) (y0 : y.real atoms.vals ≠ 0) {ε : ℝ}
    (hε : ∀ m : ℤ, ε ≤ |x.real atoms.vals / y.real atoms.vals - m|)
    (h : 512 * |x.real atoms.vals / y.real atoms.vals| < 2 ^ (64 * 2 ^ k) * ε) {fuel : ℕ} (hn : n < fuel) (hk : k < fuel) (l : ℕ) :
    ∃ m l', Elt.floordivE atoms F coeff fuel x y l = .ok (m, l') := by
  apply pair_ok
  have hex : x.mod = s ∧ x' = x ∧ y' = y ∧ x.mod = y.mod ∨ x.mod ≠ y.mod := by
    by_cases hm : x.mod = y.mod
    · left
      have : s = x.mod := by
        rw [← hm, span_self (R := R) hx.mod] at hs
        cases hs; rfl
      subst this
      rw [Elt.promote, if_pos rfl] at hx'
      rw [Elt.promote, if_pos hm.symm] at hy'
      cases hx'; cases hy'
      exact ⟨rfl, rfl, rfl, hm⟩
    · exact .inr hm
  obtain ⟨x'', px, wx, mx, fx⟩ := Elt.promote_span_left hx hy.mod hs
  obtain ⟨y'', py, wy, my, fy⟩ := Elt.promote_span_right hx.mod hy hs
  rw [hx'] at px; cases px
  rw [hy'] at py; cases py
  have vx : x'.real atoms.vals = x.real atoms.vals := by rw [Elt.real_eq_evalF, fx, ← Elt.real_eq_evalF]
  have vy : y'.real atoms.vals = y.real atoms.vals := by rw [Elt.real_eq_evalF, fy, ← Elt.real_eq_evalF]
  rw [← vy] at y0
  rw [← vx, ← vy] at hε h
  have hsame : ∃ o, Elt.floordivSameE atoms F coeff fuel x' y' l = .ok o := by
    rw [Elt.floordivSameE]
    split_ifs with hb
    · exact ⟨_, rfl⟩
    · cases hexl : Elt.exactLoop P none (x'.coeffs.zip y'.coeffs) with
      | some n => exact ⟨_, rfl⟩
      | none =>
        refine floordivLoopE_effort atoms hF hco hac wx wy nx ny ?_ y0 hε h hn hk l
        intro h0
        rw [h0, zero_div, abs_zero, mul_zero] at h
        have h1 := hε 0
        rw [h0] at h1
        simp only [zero_div, Int.cast_zero, sub_zero, abs_zero] at h1
        have : (2 : ℝ) ^ (64 * 2 ^ k) * ε ≤ 0 := mul_nonpos_of_nonneg_of_nonpos (by positivity) h1
        linarith
  rw [Elt.floordivE]
  split_ifs with hb hm
  · exact ⟨_, rfl⟩
  · rw [hs, Out.ok_bind, hx', Out.ok_bind, hy', Out.ok_bind]
    exact hsame
  · rcases hex with ⟨-, rfl, rfl, -⟩ | hex
    · exact hsame
    · exact absurd hex hm

/-! ### The theorems apply -/

/-- If the balls are evaluated with all the digits of the generator that are known, then they are as good as asked for, whatever the history. -/
theorem embedding_lawful {g : ℕ → R → Ball} (hg : CoeffLawful P g) : EmbeddingLawful P fun level _ c => g level c := fun l => by
  have ht : Filter.Tendsto (fun p => max l p) Filter.atTop Filter.atTop := Filter.tendsto_atTop_mono (fun p => le_max_right l p) Filter.tendsto_id
  exact ⟨fun p c => hg.contains (max l p) c, fun p c => hg.finite (max l p) c,
    fun c => ⟨ht.eventually (hg.tends c).finite, (hg.tends c).radius.comp ht, (hg.tends c).mid.comp ht⟩⟩

theorem embedding_accurate {g : ℕ → R → Ball} (hg : CoeffAccurate P g) : EmbeddingAccurate P fun level _ c => g level c := fun l => by
  have hle : ∀ (k : ℤ) (p : ℕ), (2 : ℝ) ^ (k - ((max l p : ℕ) : ℤ)) ≤ 2 ^ (k - (p : ℤ)) := fun k p => zmonoR (by have := le_max_right l p; omega)
  refine ⟨fun p c hp => ?_, fun p c hp => ?_⟩
  · exact (hg.mid (max l p) c (hp.trans (le_max_right l p))).trans (mul_le_mul_of_nonneg_right (hle 1 p) (abs_nonneg _))
  · exact (hg.radius (max l p) c (hp.trans (le_max_right l p))).trans (mul_le_mul_of_nonneg_right (hle 2 p) (abs_nonneg _))

/-- Coefficients in number fields. -/
example : ∃ coeff : ℕ → ℕ → _ → Ball, EmbeddingLawful NumberField coeff ∧ EmbeddingAccurate NumberField coeff := by
  obtain ⟨g, h1, h2⟩ := exists_coeffAccurate NumberField
  exact ⟨_, embedding_lawful h1, embedding_accurate h2⟩

/-- Balls of integers that are not exact, as if they were evaluated from an approximate generator. -/
def blurred (prec : ℕ) (c : ℤ) : Ball := ⟨c, some (|(c : ℚ)| / 2 ^ prec)⟩

theorem blurred_radius (p : ℕ) (c : ℤ) : ((blurred p c).radius : ℝ) = |(c : ℝ)| * 2 ^ (0 - (p : ℤ)) := by
  rw [radius_eq (r := |(c : ℚ)| / 2 ^ p) rfl]
  push_cast
  rw [zero_sub, zpow_neg, zpow_natCast, div_eq_mul_inv]

theorem blurred_lawful : CoeffLawful IntegerRing blurred where
  contains p c := by
    rw [num_int, contains_iff (r := |(c : ℚ)| / 2 ^ p) rfl]
    have : (blurred p c).mid = (c : ℚ) := rfl
    rw [this, sub_self, abs_zero]
    exact_mod_cast (by positivity : (0 : ℚ) ≤ |(c : ℚ)| / 2 ^ p)
  finite p c := ⟨_, rfl, by positivity⟩
  tends c := by
    rw [num_int]
    refine ⟨Filter.Eventually.of_forall fun p => ⟨_, rfl, by positivity⟩, ?_, tendsto_const_nhds⟩
    simp only [blurred_radius]
    have := (zpow_neg_tendsto 0).const_mul |(c : ℝ)|
    rwa [mul_zero] at this

theorem blurred_accurate : CoeffAccurate IntegerRing blurred where
  mid p c _ := by
    rw [num_int]
    have : (blurred p c).mid = (c : ℚ) := rfl
    rw [this, sub_self, abs_zero]
    positivity
  radius p c _ := by
    rw [num_int, blurred_radius, _root_.mul_comm]
    push_cast
    exact mul_le_mul_of_nonneg_right (zmonoR (by omega)) (abs_nonneg _)

/-- Balls do depend on the history. -/
example : (embed (fun l _ c => blurred l c) 4 1 0).1 ≠ (embed (fun l _ c => blurred l c) 4 1 99).1 := by
  simp [embed, blurred]

/-- `17/2 - 2^-62 - 2a` (slightly below 7) and its negative meet the hypotheses, in all histories. -/
example [Build] (l : ℕ) : (∃ r l', Elt.ltE floorAtoms FlintLike.arith (fun l _ c => blurred l c) 2 floorX ceilX l = .ok (r, l')) ∧
    ∃ r l', Elt.ltZE floorAtoms FlintLike.arith (fun l _ c => blurred l c) 2 floorX 0 l = .ok (r, l') := by
  obtain ⟨w1, w2, -⟩ := elt_floor_fails 0
  obtain ⟨v1, v2⟩ := effort_values
  have hlo : (6 : ℝ) ≤ 17 / 2 - 1 / 2 ^ 62 - 2 * (3 / 4 - 1 / 2 ^ 63 + (2 ^ 10 - 1) / 2 ^ 76) := by norm_num
  generalize (17 : ℝ) / 2 - 1 / 2 ^ 62 - 2 * (3 / 4 - 1 / 2 ^ 63 + (2 ^ 10 - 1) / 2 ^ 76) = v at v1 v2 hlo
  have hsize : floorX.size floorAtoms ≤ 12 ∧ ceilX.size floorAtoms ≤ 12 := by
    constructor <;>
    · simp only [Elt.size, Elt.terms, floorX, ceilX, floorMod, List.zip_cons_cons, List.zip_nil_right, List.map_cons, List.map_nil,
        List.sum_cons, List.sum_nil, num_int, RN.real_rat, RN.real_atom]
      show _ + (_ * magnitude floorDigits.value + 0) ≤ _
      rw [floorDigits_value, magnitude, magnitude, if_neg (by norm_num), if_neg (by norm_num)]
      norm_num [abs_of_pos, abs_of_neg]
  have e1 : floorX.Enough floorAtoms 64 1 := by
    refine .inr ⟨?_, ?_⟩
    · change floorX.real floorAtoms.vals ≠ 0
      rw [v1]; linarith
    · change _ ≤ _ * |floorX.real floorAtoms.vals|
      rw [v1, abs_of_pos (by linarith)]
      refine (mul_le_mul_of_nonneg_left hsize.1 (by positivity)).trans ?_
      refine le_trans ?_ (mul_le_mul_of_nonneg_left hlo (by positivity))
      norm_num [floorX, floorMod]
  have e2 : ceilX.Enough floorAtoms 64 1 := by
    refine .inr ⟨?_, ?_⟩
    · change ceilX.real floorAtoms.vals ≠ 0
      rw [v2]; linarith
    · change _ ≤ _ * |ceilX.real floorAtoms.vals|
      rw [v2, abs_neg, abs_of_pos (by linarith)]
      refine (mul_le_mul_of_nonneg_left hsize.2 (by positivity)).trans ?_
      refine le_trans ?_ (mul_le_mul_of_nonneg_left hlo (by positivity))
      norm_num [ceilX, floorMod]
  have hL := embedding_lawful blurred_lawful
  have hA := embedding_accurate blurred_accurate
  constructor
  · refine embed_lt_effort floorAtoms FlintLike.lawful hL hA w1 w2 e1 e2 (k := 0) ?_ (e := false) (by simp [Elt.eq, floorX, ceilX]) (by norm_num) (by norm_num) l
    rw [v1, v2, abs_neg, abs_of_pos (by linarith), abs_of_pos (by linarith)]
    norm_num
    linarith
  · refine (embed_ltQ_effort floorAtoms FlintLike.lawful hL hA w1 e1 (q := 0) (k := 0) ?_ (by norm_num) (by norm_num) l).2 0 (by simp)
    rw [v1, Rat.cast_zero, sub_zero, abs_of_pos (by linarith)]
    norm_num
    linarith

end ExactReal.Props
