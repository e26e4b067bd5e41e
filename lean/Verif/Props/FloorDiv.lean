import Verif.Props.ElementRound
import Verif.Props.Module

/-!
# C20: `floordiv`

The shortcut for exact multiples is right and complete; the loop is right if the balls of the generators contain the generators and right up to a
relative error of `2^-60` in general; for algebraically independent atoms it returns for every non-zero divisor.
-/

namespace ExactReal

open Arf Ball Filter

/-- There is a point of the ball close to a number with slack. -/
theorem Ball.Slack.point {s : ℝ} {b : Ball} {x : ℝ} (hs : 0 ≤ s) (h : Slack s b x) : ∃ y, b.Contains y ∧ |y - x| ≤ s := by
  obtain ⟨r, h1, h2, h3⟩ := h
  have h2' : (0 : ℝ) ≤ r := by exact_mod_cast h2
  rw [abs_le] at h3
  by_cases hu : (b.mid : ℝ) + r < x
  · exact ⟨b.mid + r, by rw [contains_iff h1, add_sub_cancel_left, abs_of_nonneg h2'], by rw [abs_le]; constructor <;> linarith⟩
  · by_cases hl : x < (b.mid : ℝ) - r
    · exact ⟨b.mid - r, by rw [contains_iff h1, sub_sub_cancel_left, abs_neg, abs_of_nonneg h2'], by rw [abs_le]; constructor <;> linarith⟩
    · exact ⟨x, by rw [contains_iff h1, abs_le]; constructor <;> linarith, by simpa using hs⟩

/-- `b != 0` answers yes only if the ball does not contain zero. -/
theorem Ball.ne_zero_spec {b : Ball} (h : b.ne (exact 0) = some true) : ¬ b.Contains 0 := by
  cases hr : b.rad with
  | none => simp [Ball.ne, Ball.eq, allEq, allNe, allLt, hr] at h
  | some r =>
    rw [contains_iff hr]
    have h' : (b.mid + r < 0 ∨ 0 < b.mid - r) := by
      simp only [Ball.ne, Ball.eq, allEq, allNe, allLt, hr, exact] at h
      split_ifs at h with h1 h2
      · simp at h
      · simpa using h2
    intro hc
    rw [zero_sub, abs_neg, abs_le] at hc
    rcases h' with h' | h'
    · have := (Rat.cast_lt (K := ℝ)).2 h'; push_cast at this; linarith
    · have := (Rat.cast_lt (K := ℝ)).2 h'; push_cast at this; linarith

/-- A ball that is accurate to one bit and not zero is recognized to be non-zero. -/
theorem Ball.ne_zero_of {b : Ball} {r : ℚ} (hr : b.rad = some r) (h : r < |b.mid|) : b.ne (exact 0) = some true := by
  have h2 : (b.mid + r < 0 ∨ 0 < b.mid - r) := by
    rcases abs_cases b.mid with ⟨e, -⟩ | ⟨e, -⟩ <;> rw [e] at h
    · right; linarith
    · left; linarith
  have h1 : ¬ (r = 0 ∧ b.mid = 0) := by rintro ⟨rfl, h0⟩; rw [h0] at h; simp at h
  have e1 : allEq b (exact 0) = false := by
    rw [← Bool.not_eq_true]
    simp only [allEq, hr, exact, Bool.and_eq_true, decide_eq_true_eq, Option.some.injEq]
    exact fun hh => h1 ⟨hh.1.1, of_decide_eq_true hh.2⟩
  have e2 : allNe b (exact 0) = true := by
    simp only [allNe, allLt, hr, exact, Bool.or_eq_true, decide_eq_true_eq, sub_zero, zero_add, add_zero]
    exact h2
  rw [Ball.ne, Ball.eq, e1, e2]
  rfl

namespace Elt

/-- One iteration of the loop of `floordiv`. -/
def floordivBody (F : Arith) (self rhs : ℕ → Out Ball) (p : ℕ) : Out (Option ℤ) := do
  let d ← rhs p
  match d.ne (Ball.exact 0) with
  | none => .ok none
  | some false => .ub
  | some true => do
    let a ← self p
    let i ← (F.div p a d).interval
    .ok (if Arf.floor i.1 = Arf.floor i.2 then some (Arf.floor i.1) else none)

theorem floordivLoop_eq_search (F : Arith) (self rhs : ℕ → Out Ball) : ∀ fuel prec : ℕ,
    floordivLoop F self rhs fuel prec = search (floordivBody F self rhs) fuel prec
  | 0, _ => rfl
  | fuel + 1, prec => by
    rw [floordivLoop, search, floordivBody]
    cases h : rhs prec with
    | ok d =>
      rw [Out.ok_bind, Out.ok_bind]
      cases hn : d.ne (Ball.exact 0) with
      | none => exact floordivLoop_eq_search F self rhs fuel (prec * 2)
      | some b =>
        cases b with
        | false => rfl
        | true =>
          simp only
          cases ha : self prec with
          | ok a =>
            rw [Out.ok_bind, Out.ok_bind]
            cases hi : (F.div prec a d).interval with
            | ok i =>
              rw [Out.ok_bind, Out.ok_bind]
              split_ifs with hf
              · rfl
              · exact floordivLoop_eq_search F self rhs fuel (prec * 2)
            | throws e => rfl
            | abort => rfl
            | ub => rfl
            | pending => rfl
          | throws e => rfl
          | abort => rfl
          | ub => rfl
          | pending => rfl
    | throws e => rfl
    | abort => rfl
    | ub => rfl
    | pending => rfl

variable {P : Type} [DecidableEq P] {R : Type} [CommRing R] [DecidableEq R] [CRing P R]

/-- The shortcut returns `n` only if every coefficient of the dividend is `n` times the coefficient of the divisor. -/
theorem exactLoop_sound {l : List (R × R)} : ∀ {f : Option ℤ} {n : ℤ}, exactLoop P f l = some n →
    (∀ m, f = some m → m = n) ∧ ∀ t ∈ l, t.1 = t.2 * (n : R) := by
  induction l with
  | nil => intro f n h; rw [exactLoop] at h; subst h; simp
  | cons t l ih =>
    obtain ⟨a, b⟩ := t
    intro f n h
    rw [exactLoop] at h
    simp only at h
    split_ifs at h with ha hb hf hm hb'
    · obtain ⟨h1, h2⟩ := ih h
      have hn := h1 _ rfl
      refine ⟨fun m hm' => ?_, ?_⟩
      · subst hm'
        simp only [Option.isSome_some, Bool.true_and, decide_eq_true_eq, not_not, Option.some.injEq] at hf
        rw [hf, hn]
      · rintro t (_ | ⟨_, ht⟩)
        · rw [not_not] at hm; rw [← hn]; exact hm.symm
        · exact h2 t ht
    · obtain ⟨h1, h2⟩ := ih h
      refine ⟨h1, ?_⟩
      rintro t (_ | ⟨_, ht⟩)
      · rw [not_not] at ha hb'; simp only [ha, hb', zero_mul]
      · exact h2 t ht

/-- The shortcut finds the quotient if there is one, provided that `Ring::floor` is right for integers. -/
theorem exactLoop_complete [LawfulCRing P] (hfl : ∀ n : ℤ, CRing.floor P (n : R) = n) {n : ℤ} {l : List (R × R)}
    (h : ∀ t ∈ l, t.1 = t.2 * (n : R)) (hne : ∃ t ∈ l, t.1 ≠ 0) : exactLoop P none l = some n := by
  have hq : ∀ b : R, b ≠ 0 → CRing.floor P (CRing.quo P (b * (n : R)) b) = n := fun b hb => by
    rw [LawfulCRing.quo_exact (P := P) (q := (n : R)) hb (by ring), hfl]
  have hn : n ≠ 0 := by
    rintro rfl
    obtain ⟨t, ht, h0⟩ := hne
    exact h0 (by rw [h t ht]; simp)
  have hz : ∀ n : ℤ, (n : R) = 0 → n = 0 := fun n hn => by
    have := congrArg (LawfulCRing.emb (P := P)) hn
    rw [map_intCast, map_zero] at this
    exact_mod_cast this
  have hinj := LawfulCRing.emb_injective (P := P)
  have hb0 : ∀ b : R, b ≠ 0 → b * (n : R) ≠ 0 := by
    intro b hb h0
    have h1 := congrArg (LawfulCRing.emb (P := P)) h0
    rw [map_mul, map_zero, mul_eq_zero] at h1
    rcases h1 with h1 | h1
    · exact hb (hinj (by rw [h1, map_zero]))
    · exact hn (hz n (hinj (by rw [h1, map_zero])))
  have key : ∀ l : List (R × R), (∀ t ∈ l, t.1 = t.2 * (n : R)) → exactLoop P (some n) l = some n := by
    intro l
    induction l with
    | nil => intro _; rfl
    | cons t l ih =>
      obtain ⟨a, b⟩ := t
      intro h
      have hab : a = b * (n : R) := h (a, b) (by simp)
      subst hab
      rw [exactLoop]
      by_cases hb : b = 0
      · subst hb
        simp only [zero_mul, ne_eq, not_true_eq_false, if_false]
        exact ih fun t ht => h t (by simp [ht])
      · rw [if_pos (hb0 b hb), if_pos hb]
        simp only [hq b hb]
        simp only [Option.isSome_some, ne_eq, not_true_eq_false, decide_false, Bool.and_false, Bool.false_eq_true, if_false]
        exact ih fun t ht => h t (by simp [ht])
  induction l with
  | nil => obtain ⟨t, ht, -⟩ := hne; cases ht
  | cons t l ih =>
    obtain ⟨a, b⟩ := t
    have hab : a = b * (n : R) := h (a, b) (by simp)
    subst hab
    rw [exactLoop]
    by_cases hb : b = 0
    · subst hb
      simp only [zero_mul, ne_eq, not_true_eq_false, if_false]
      refine ih (fun t ht => h t (by simp [ht])) ?_
      obtain ⟨t, ht, h0⟩ := hne
      rcases List.mem_cons.1 ht with rfl | ht
      · simp at h0
      · exact ⟨t, ht, h0⟩
    · rw [if_pos (hb0 b hb), if_pos hb]
      simp only [hq b hb]
      simp only [Option.isSome_none, Bool.false_and, ne_eq, not_true_eq_false, Bool.false_eq_true, if_false]
      exact key l fun t ht => h t (by simp [ht])

end Elt

namespace Props

variable {P : Type} [DecidableEq P] {R : Type} [CommRing R] [DecidableEq R] [CRing P R] [LawfulCRing P]
variable (atoms : Atoms) {F : Arith} {coeff : ℕ → R → Ball}

/-- `Ring::floor` is right for integers.  (For `RationalField` it is wrong for negative numbers that are not integers, `rational_floor_wrong`.) -/
class FloorInt (P : Type) [DecidableEq P] {R : outParam Type} [outParam (CommRing R)] [outParam (DecidableEq R)] [CRing P R] : Prop where
  floor_int : ∀ n : ℤ, CRing.floor P (n : R) = n

instance : FloorInt IntegerRing := ⟨fun _ => rfl⟩
instance : FloorInt RationalField := ⟨fun n => by show Int.tdiv (n : ℚ).num (n : ℚ).den = n; simp⟩
instance : FloorInt NumberField := ⟨fun n => by show ⌊(((n : AlgReal) : ℝ))⌋ = n; simp⟩

/-- `x` is `n` times `y` if its coefficients are. -/
theorem real_of_multiple {x y : Elt P R} (hx : x.WF) (hy : y.WF) (hm : x.mod = y.mod) {n : ℤ} (h : ∀ t ∈ x.coeffs.zip y.coeffs, t.1 = t.2 * (n : R))
    (v : ℕ → ℝ) : x.real v = n * y.real v := by
  have hl : x.coeffs.length = y.coeffs.length := by rw [hx.length, hy.length, hm]
  rw [Elt.real, Elt.real, Elt.value, Elt.value, Elt.terms, Elt.terms, hm]
  generalize x.coeffs = a at *
  generalize y.coeffs = b at *
  generalize y.mod.basis = g
  induction g generalizing a b with
  | nil => simp
  | cons g gs ih =>
    cases a with
    | nil => cases b with
      | nil => simp
      | cons _ _ => simp at hl
    | cons c a => cases b with
      | nil => simp at hl
      | cons d b =>
        simp only [List.zip_cons_cons, List.map_cons, List.sum_cons]
        rw [ih a b (fun t ht => h t (by simp [ht])) (by simpa using hl), show c = d * (n : R) from h (c, d) (by simp), map_mul, map_intCast]
        ring

/-- The coefficients of an exact multiple. -/
theorem multiple_of_real (hv : AlgebraicIndependent ℚ atoms.vals) {x y : Elt P R} (hx : x.WF) (hy : y.WF) (hm : x.mod = y.mod) (zx : x.NoZeroGen) {n : ℤ}
    (h : x.real atoms.vals = n * y.real atoms.vals) : ∀ t ∈ x.coeffs.zip y.coeffs, t.1 = t.2 * (n : R) := by
  let z : Elt P R := ⟨y.mod, y.coeffs.map fun c => c * (n : R)⟩
  have wz : z.WF := ⟨hy.mod, by simp [z, hy.length], fun c hc => by
    obtain ⟨d, hd, rfl⟩ := List.mem_map.1 hc
    exact Subring.mul_mem _ (hy.mem d hd) (intCast_mem _ n)⟩
  have hz : z.real atoms.vals = n * y.real atoms.vals := by
    refine real_of_multiple wz hy rfl (fun t ht => ?_) _
    simp only [z, List.zip_map_left] at ht
    obtain ⟨⟨a, b⟩, h1, rfl⟩ := List.mem_map.1 ht
    have : a = b := by
      have := List.zip_eq_zipWith (l₁ := y.coeffs) (l₂ := y.coeffs)
      rw [List.mem_iff_getElem] at h1
      obtain ⟨i, hi, he⟩ := h1
      rw [List.getElem_zip] at he
      cases he; rfl
    simp [this]
  have hfs := (Elt.real_eq_iff_same hv hx wz hm zx).1 (h.trans hz.symm)
  have he := Elt.ext_fs hx wz hm hfs
  intro t ht
  have hc : x.coeffs = y.coeffs.map fun c => c * (n : R) := by rw [he]
  rw [hc, List.zip_map_left] at ht
  obtain ⟨⟨a, b⟩, h1, rfl⟩ := List.mem_map.1 ht
  have : a = b := by
    rw [List.mem_iff_getElem] at h1
    obtain ⟨i, hi, he⟩ := h1
    rw [List.getElem_zip] at he
    cases he; rfl
  simp [this]

section
variable [build : Build]

/-- `floordiv` is `floordivSame` in the common module. -/
theorem floordiv_reduce {x y : Elt P R} (hx : x.WF) (hy : y.WF) :
    (x.toBool = false ∧ ∀ fuel, Elt.floordiv atoms F coeff fuel x y = .ok 0) ∨
    (x.toBool = true ∧ Mod.span x.mod y.mod = .throws .logicError ∧ ∀ fuel, Elt.floordiv atoms F coeff fuel x y = .throws .logicError) ∨
    (x.toBool = true ∧ ∃ s x' y', Mod.span x.mod y.mod = .ok s ∧ x'.WF ∧ y'.WF ∧ x'.mod = s ∧ y'.mod = s ∧ x'.fs = x.fs ∧ y'.fs = y.fs ∧ x'.toBool = true ∧
      ∀ fuel, Elt.floordiv atoms F coeff fuel x y = Elt.floordivSame atoms F coeff fuel x' y') := by
  cases hb : x.toBool with
  | false => exact .inl ⟨rfl, fun fuel => by rw [Elt.floordiv, hb]; rfl⟩
  | true =>
    right
    by_cases hm : x.mod = y.mod
    · right
      refine ⟨rfl, x.mod, x, y, ?_, hx, hy, rfl, hm.symm, rfl, rfl, hb, fun fuel => ?_⟩
      · rw [← hm]; exact span_self (R := R) hx.mod
      · rw [Elt.floordiv, hb, if_neg (by simp), if_neg (by simp [hm])]
    · rcases Mod.span_throws (R := R) hx.mod hy.mod with ⟨s, hs⟩ | ⟨hs, -⟩
      · right
        obtain ⟨x', px, wx, mx, fx⟩ := Elt.promote_span_left hx hy.mod hs
        obtain ⟨y', py, wy, my, fy⟩ := Elt.promote_span_right hx.mod hy hs
        have hb' : x'.toBool = true := by
          rw [← Bool.not_eq_false, ← Elt.fs_eq_zero_iff wx, fx, Elt.fs_eq_zero_iff hx, hb]; simp
        refine ⟨rfl, s, x', y', hs, wx, wy, mx, my, fx, fy, hb', fun fuel => ?_⟩
        rw [Elt.floordiv, hb, if_neg (by simp), if_pos hm, hs, Out.ok_bind, px, Out.ok_bind, py, Out.ok_bind]
      · left
        refine ⟨rfl, hs, fun fuel => ?_⟩
        rw [Elt.floordiv, hb, if_neg (by simp), if_pos hm, hs]; rfl

omit build in
/-- `floordiv` in one module with a general inflation factor: the result is the floor of the quotient of numbers close to the operands. -/
theorem floordivSame_c (hF : F.Lawful) (hco : CoeffLawful P coeff) {c : ℝ} (hc : 1 ≤ c) (hc5 : c ≤ 5) {fuel : ℕ} {x y : Elt P R} (hx : x.WF) (hy : y.WF)
    (hm : x.mod = y.mod) (gx : ∀ k, Elt.GenNear atoms c (64 * 2 ^ k) x.mod) (h0 : y.real atoms.vals ≠ 0) {n : ℤ}
    (h : Elt.floordivSame atoms F coeff fuel x y = .ok n) :
    ∃ x' y' : ℝ, |x' - x.real atoms.vals| ≤ (c - 1) * (3 / 2 * 2 ^ (-(64 : ℤ)) * |x.real atoms.vals|) ∧
      |y' - y.real atoms.vals| ≤ (c - 1) * (3 / 2 * 2 ^ (-(64 : ℤ)) * |y.real atoms.vals|) ∧ n = ⌊x' / y'⌋ := by
  have hE : ∀ z : ℝ, 0 ≤ (c - 1) * (3 / 2 * 2 ^ (-(64 : ℤ)) * |z|) := fun z => mul_nonneg (by linarith) (by positivity)
  rw [Elt.floordivSame] at h
  split_ifs at h with hb
  · cases h
    refine ⟨0, y.real atoms.vals, ?_, ?_, ?_⟩
    · rw [bool_sound (by simpa using hb)]; simp
    · rw [sub_self, abs_zero]; exact hE _
    · simp
  · cases he : Elt.exactLoop P none (x.coeffs.zip y.coeffs) with
    | some m =>
      rw [he] at h
      cases h
      have := real_of_multiple hx hy hm (Elt.exactLoop_sound he).2 atoms.vals
      refine ⟨x.real atoms.vals, y.real atoms.vals, ?_, ?_, ?_⟩
      · rw [sub_self, abs_zero]; exact hE _
      · rw [sub_self, abs_zero]; exact hE _
      · rw [this, mul_div_cancel_right₀ _ h0, Int.floor_intCast]
    | none =>
      rw [he] at h
      simp only at h
      rw [Elt.floordivLoop_eq_search] at h
      obtain ⟨k, hk⟩ := search_ok h
      have hA := le_start 64 k
      obtain ⟨d, h1, h2⟩ := Out.bind_eq_ok.1 hk
      cases hn : d.ne (Ball.exact 0) with
      | none => rw [hn] at h2; cases h2
      | some b =>
        cases b with
        | false => rw [hn] at h2; cases h2
        | true =>
          rw [hn] at h2
          obtain ⟨a, h3, h4⟩ := Out.bind_eq_ok.1 h2
          obtain ⟨⟨lo, hi⟩, h5, h6⟩ := Out.bind_eq_ok.1 h4
          obtain ⟨-, -, sx, -⟩ := Elt.arb_slack_c atoms hF hco hc hc5 (by omega) (gx k) h3
          obtain ⟨-, -, sy, -⟩ := Elt.arb_slack_c atoms hF hco hc hc5 (by omega) (by rw [← hm]; exact gx k) h1
          have hz := Ball.ne_zero_spec hn
          obtain ⟨x', cx, dx⟩ := (sx.mono (err_mono hc (show (0 : ℝ) ≤ 3 / 2 by norm_num) (abs_nonneg _) hA)).point (hE _)
          obtain ⟨y', cy, dy⟩ := (sy.mono (err_mono hc (show (0 : ℝ) ≤ 3 / 2 by norm_num) (abs_nonneg _) hA)).point (hE _)
          refine ⟨x', y', dx, dy, ?_⟩
          have hq := hF.div_contains (64 * 2 ^ k) a d x' y' cx cy hz
          have fa : a.Finite := by obtain ⟨r, hr, hr0, -⟩ := sx; exact ⟨r, hr, hr0⟩
          have fd : d.Finite := by obtain ⟨r, hr, hr0, -⟩ := sy; exact ⟨r, hr, hr0⟩
          obtain ⟨r, hr, hr0⟩ := hF.div_finite (64 * 2 ^ k) a d fa fd hz
          rw [contains_iff hr, abs_le] at hq
          obtain ⟨r', r1, b1, b2, -⟩ := Props.interval_spec h5
          rw [hr] at r1
          cases r1
          have b1' := (Rat.cast_le (K := ℝ)).2 b1
          have b2' := (Rat.cast_le (K := ℝ)).2 b2
          push_cast at b1' b2'
          simp only [Out.ok.injEq] at h6
          split_ifs at h6 with hf
          cases h6
          rw [arf_floor_eq] at hf ⊢
          rw [arf_floor_eq] at hf
          have e1 := Int.floor_le lo
          have e2 := Int.lt_floor_add_one hi
          rw [← hf] at e2
          have e1' : ((⌊lo⌋ : ℤ) : ℝ) ≤ lo := by exact_mod_cast e1
          have e2' : (hi : ℝ) < ((⌊lo⌋ : ℤ) : ℝ) + 1 := by exact_mod_cast e2
          rw [eq_comm, Int.floor_eq_iff]
          constructor <;> linarith

/-- **C20**: if the balls of the generators of the common module contain the generators, then `x.floordiv(y)`, whenever it returns and `y ≠ 0`, is the
floor of the quotient. -/
theorem floordiv_exact (hF : F.Lawful) (hco : CoeffLawful P coeff) {fuel : ℕ} {x y : Elt P R} (hx : x.WF) (hy : y.WF)
    (hg : ∀ s, Mod.span x.mod y.mod = .ok s → s.ContainedFrom atoms 64) (h0 : y.real atoms.vals ≠ 0) {n : ℤ}
    (h : Elt.floordiv atoms F coeff fuel x y = .ok n) : n = ⌊x.real atoms.vals / y.real atoms.vals⌋ := by
  rcases floordiv_reduce atoms hx hy (F := F) (coeff := coeff) with ⟨hb, he⟩ | ⟨-, -, he⟩ | ⟨-, s, x', y', hs, wx, wy, mx, my, fx, fy, -, he⟩
  · rw [he] at h; cases h
    rw [bool_sound hb]; simp
  · rw [he] at h; cases h
  · rw [he] at h
    have vx : x'.real atoms.vals = x.real atoms.vals := by rw [Elt.real_eq_evalF, fx, ← Elt.real_eq_evalF]
    have vy : y'.real atoms.vals = y.real atoms.vals := by rw [Elt.real_eq_evalF, fy, ← Elt.real_eq_evalF]
    have h2 : ∀ k, 2 ≤ 64 * 2 ^ k := fun k => by have := le_start 64 k; omega
    obtain ⟨a, b, ha, hb, hn⟩ := floordivSame_c atoms hF hco le_rfl (by norm_num) wx wy (mx.trans my.symm)
      (fun k => Elt.genNear_one atoms wx.mod (h2 k) (by rw [mx]; exact hg s hs k)) (by rw [vy]; exact h0) h
    rw [sub_self, zero_mul, abs_nonpos_iff, sub_eq_zero] at ha hb
    rw [hn, ha, hb, vx, vy]

omit build in
/-- Relative errors of the operands and of the quotient. -/
theorem quotient_error {x y x' y' : ℝ} (hy : y ≠ 0) (hx' : |x' - x| ≤ 2 ^ (-(61 : ℤ)) * |x|) (hy' : |y' - y| ≤ 2 ^ (-(61 : ℤ)) * |y|) :
    |x' / y' - x / y| ≤ 2 ^ (-(59 : ℤ)) * |x / y| := by
  have e : (2 : ℝ) ^ (-(59 : ℤ)) = 4 * 2 ^ (-(61 : ℤ)) := by norm_num
  have hs : (2 : ℝ) ^ (-(61 : ℤ)) ≤ 1 / 2 := by norm_num
  have hp := zposR (-(61 : ℤ))
  rw [e]
  generalize (2 : ℝ) ^ (-(61 : ℤ)) = δ at *
  have hya : 0 < |y| := abs_pos.2 hy
  have hyl : |y| / 2 ≤ |y'| := by
    have h1 := abs_sub_abs_le_abs_sub y y'
    rw [abs_sub_comm] at h1
    nlinarith
  have hy0 : y' ≠ 0 := fun h => by rw [h, abs_zero] at hyl; linarith
  have hxa := abs_nonneg x
  have e2 : x' / y' - x / y = ((x' - x) * y - x * (y' - y)) / (y' * y) := by field_simp; ring
  rw [e2, abs_div, abs_div, abs_mul, div_le_iff₀ (mul_pos (abs_pos.2 hy0) hya)]
  have h3 : |(x' - x) * y - x * (y' - y)| ≤ 2 * δ * (|x| * |y|) := by
    refine (abs_sub _ _).trans ?_
    rw [abs_mul, abs_mul]
    nlinarith [mul_le_mul_of_nonneg_right hx' hya.le, mul_le_mul_of_nonneg_left hy' hxa]
  refine h3.trans ?_
  have e4 : 4 * δ * (|x| / |y|) * (|y'| * |y|) = 4 * δ * (|x| * |y'|) := by field_simp
  rw [e4]
  nlinarith [mul_le_mul_of_nonneg_left hyl hxa]

/-- **C20** without hypothesis on the generators: right up to a relative error of `2^-59`.  (It is not exactly right, `floordiv_fails`.) -/
theorem floordiv_partial (hF : F.Lawful) (hco : CoeffLawful P coeff) {fuel : ℕ} {x y : Elt P R} (hx : x.WF) (hy : y.WF) (h0 : y.real atoms.vals ≠ 0) {n : ℤ}
    (h : Elt.floordiv atoms F coeff fuel x y = .ok n) :
    n - 2 ^ (-(59 : ℤ)) * |x.real atoms.vals / y.real atoms.vals| ≤ x.real atoms.vals / y.real atoms.vals ∧
      x.real atoms.vals / y.real atoms.vals < n + 1 + 2 ^ (-(59 : ℤ)) * |x.real atoms.vals / y.real atoms.vals| := by
  rcases floordiv_reduce atoms hx hy (F := F) (coeff := coeff) with ⟨hb, he⟩ | ⟨-, -, he⟩ | ⟨-, s, x', y', hs, wx, wy, mx, my, fx, fy, -, he⟩
  · rw [he] at h; cases h
    rw [bool_sound hb]; simp
  · rw [he] at h; cases h
  · rw [he] at h
    have vx : x'.real atoms.vals = x.real atoms.vals := by rw [Elt.real_eq_evalF, fx, ← Elt.real_eq_evalF]
    have vy : y'.real atoms.vals = y.real atoms.vals := by rw [Elt.real_eq_evalF, fy, ← Elt.real_eq_evalF]
    have h2 : ∀ k, 2 ≤ 64 * 2 ^ k := fun k => by have := le_start 64 k; omega
    obtain ⟨a, b, ha, hb, hn⟩ := floordivSame_c atoms hF hco (c := 5) (by norm_num) le_rfl wx wy (mx.trans my.symm)
      (fun k => Elt.genNear_five atoms wx.mod (h2 k)) (by rw [vy]; exact h0) h
    rw [vx] at ha
    rw [vy] at hb
    have hq := quotient_error h0 (ha.trans (five_le _ (abs_nonneg _)).1) (hb.trans (five_le _ (abs_nonneg _)).1)
    have hl := Int.floor_le (a / b)
    have hu := Int.lt_floor_add_one (a / b)
    rw [← hn] at hl hu
    rw [abs_le] at hq
    constructor <;> linarith [hq.1, hq.2]

/-- **C20**: the shortcut.  For algebraically independent atoms, if `x` is an integer multiple of `y ≠ 0` then `x.floordiv(y)` is that integer, without any
approximation (whatever the fuel and the arithmetic of balls). -/
theorem floordiv_multiple [FloorInt P] (hv : AlgebraicIndependent ℚ atoms.vals) {x y : Elt P R} (hx : x.WF) (hy : y.WF) (zx : x.NoZeroGen) (zy : y.NoZeroGen)
    {n : ℤ} (hn : x.real atoms.vals = n * y.real atoms.vals) (h0 : y.real atoms.vals ≠ 0) {s : Mod P} (hs : Mod.span x.mod y.mod = .ok s)
    (F : Arith) (coeff : ℕ → R → Ball) (fuel : ℕ) : Elt.floordiv atoms F coeff fuel x y = .ok n := by
  rcases floordiv_reduce atoms hx hy (F := F) (coeff := coeff) with ⟨hb, he⟩ | ⟨-, he, -⟩ | ⟨-, s', x', y', hs', wx, wy, mx, my, fx, fy, hb', he⟩
  · rw [he]
    rw [bool_sound hb, eq_comm, mul_eq_zero] at hn
    have : n = 0 := by exact_mod_cast hn.resolve_right h0
    rw [this]
  · rw [hs] at he; cases he
  · rw [he, Elt.floordivSame, hb', if_neg (by simp)]
    rw [hs] at hs'
    cases hs'
    have vx : x'.real atoms.vals = x.real atoms.vals := by rw [Elt.real_eq_evalF, fx, ← Elt.real_eq_evalF]
    have vy : y'.real atoms.vals = y.real atoms.vals := by rw [Elt.real_eq_evalF, fy, ← Elt.real_eq_evalF]
    have hmem := (Mod.span_ok (R := R) hx.mod hy.mod hs).2.1
    have zx' : x'.NoZeroGen := by unfold Elt.NoZeroGen; rw [mx, hmem]; exact fun h => h.elim zx zy
    have hm := multiple_of_real atoms hv wx wy (mx.trans my.symm) zx' (n := n) (by rw [vx, vy, hn])
    have hne : ∃ t ∈ x'.coeffs.zip y'.coeffs, t.1 ≠ 0 := by
      have : ∃ c ∈ x'.coeffs, c ≠ 0 := by
        by_contra hcon
        push_neg at hcon
        rw [(Elt.toBool_eq_false_iff x').2 hcon] at hb'
        cases hb'
      obtain ⟨c, hc, hc0⟩ := this
      have hl : x'.coeffs.length = y'.coeffs.length := by rw [wx.length, wy.length, mx, my]
      rw [← List.map_fst_zip (l₁ := x'.coeffs) (l₂ := y'.coeffs) hl.le] at hc
      obtain ⟨t, ht, rfl⟩ := List.mem_map.1 hc
      exact ⟨t, ht, hc0⟩
    rw [Elt.exactLoop_complete FloorInt.floor_int hm hne]

/-- **C20**: division of a non-zero element by zero is undefined behaviour (finding F10). -/
theorem floordiv_zero {x y : Elt P R} (hx : x.WF) (hy : y.WF) (hb : x.toBool = true) (hz : y.toBool = false) {s : Mod P} (hs : Mod.span x.mod y.mod = .ok s)
    (F : Arith) (coeff : ℕ → R → Ball) (fuel : ℕ) : Elt.floordiv atoms F coeff (fuel + 1) x y = .ub := by
  rcases floordiv_reduce atoms hx hy (F := F) (coeff := coeff) with ⟨hb', -⟩ | ⟨-, he, -⟩ | ⟨-, s', x', y', hs', wx, wy, mx, my, fx, fy, hb', he⟩
  · rw [hb] at hb'; cases hb'
  · rw [hs] at he; cases he
  · rw [he, Elt.floordivSame, hb', if_neg (by simp)]
    have hz' : y'.toBool = false := by rw [← Elt.fs_eq_zero_iff wy, fy, Elt.fs_eq_zero_iff hy, hz]
    cases hex : Elt.exactLoop P none (x'.coeffs.zip y'.coeffs) with
    | some n =>
      exfalso
      have h1 := (Elt.exactLoop_sound hex).2
      have : x'.toBool = false := by
        rw [Elt.toBool_eq_false_iff]
        intro c hc
        have hl : x'.coeffs.length = y'.coeffs.length := by rw [wx.length, wy.length, mx, my]
        rw [← List.map_fst_zip (l₁ := x'.coeffs) (l₂ := y'.coeffs) hl.le] at hc
        obtain ⟨t, ht, rfl⟩ := List.mem_map.1 hc
        rw [h1 t ht, (Elt.toBool_eq_false_iff y').1 hz' t.2 (List.of_mem_zip ht).2, zero_mul]
      rw [hb'] at this; cases this
    | none =>
      simp only
      rw [Elt.floordivLoop, Elt.arb, hz']
      rfl

omit build [DecidableEq P] [CommRing R] [DecidableEq R] [CRing P R] [LawfulCRing P] in
/-- If both balls are accurate then so is the quotient. -/
theorem div_accuracy (hF : F.Lawful) {p : ℕ} (hp : 64 ≤ p) {a b : Ball} (ha : a.hasAccuracy p = true) (hb : b.hasAccuracy p = true) (fa : a.Finite)
    (fb : b.Finite) (a0 : a.mid ≠ 0) (b0 : b.mid ≠ 0) : ¬ b.Contains 0 ∧ b.ne (Ball.exact 0) = some true ∧ (F.div p a b).hasAccuracy 2 = true ∧ (F.div p a b).Finite := by
  obtain ⟨ra, ea, fa'⟩ := fa
  obtain ⟨rb, eb, fb'⟩ := fb
  obtain ⟨ra', ea', la⟩ := accuracy_spec ha
  obtain ⟨rb', eb', lb⟩ := accuracy_spec hb
  rw [ea] at ea'; cases ea'
  rw [eb] at eb'; cases eb'
  have la := la fa'
  have lb := lb fb'
  have hp1 : (2 : ℚ) ^ (-(p : ℤ)) ≤ 1 / 2 ^ 64 := by
    refine (zpow_mono (show -(p : ℤ) ≤ -64 by omega)).trans ?_; norm_num
  have am := abs_pos.2 a0
  have bm := abs_pos.2 b0
  have la' : ra ≤ 1 / 2 ^ 64 * |a.mid| := la.trans (mul_le_mul_of_nonneg_right hp1 am.le)
  have lb' : rb ≤ 1 / 2 ^ 64 * |b.mid| := lb.trans (mul_le_mul_of_nonneg_right hp1 bm.le)
  have hlt : rb < |b.mid| := by nlinarith
  have hne := Ball.ne_zero_of eb hlt
  have hc := Ball.ne_zero_spec hne
  have fq := hF.div_finite p a b ⟨ra, ea, fa'⟩ ⟨rb, eb, fb'⟩ hc
  refine ⟨hc, hne, ?_, fq⟩
  have hr := hF.div_radius p a b (by omega) ⟨ra, ea, fa'⟩ ⟨rb, eb, fb'⟩ hc
  have hm := hF.div_mid p a b (by omega) hc ⟨ra, ea, fa'⟩ ⟨rb, eb, fb'⟩
  rw [radius_eq ea, radius_eq eb] at hr hm
  obtain ⟨r, er, r0⟩ := fq
  rw [radius_eq er] at hr
  have q0 : 0 < |a.mid / b.mid| := by rw [abs_div]; exact div_pos am bm
  have herr : (|a.mid| * rb + |b.mid| * ra) / (|b.mid| * (|b.mid| - rb)) ≤ 1 / 2 ^ 62 * |a.mid / b.mid| := by
    have hd : 0 < |b.mid| - rb := by linarith
    rw [abs_div, div_le_iff₀ (mul_pos bm hd)]
    have e : 1 / 2 ^ 62 * (|a.mid| / |b.mid|) * (|b.mid| * (|b.mid| - rb)) = 1 / 2 ^ 62 * (|a.mid| * (|b.mid| - rb)) := by field_simp
    rw [e]
    have k1 : |a.mid| * rb ≤ 1 / 2 ^ 64 * (|a.mid| * |b.mid|) := by nlinarith
    have k2 : |b.mid| * ra ≤ 1 / 2 ^ 64 * (|a.mid| * |b.mid|) := by nlinarith
    have k3 : 1 / 2 * |b.mid| ≤ |b.mid| - rb := by linarith
    have k4 := mul_le_mul_of_nonneg_left k3 am.le
    linarith
  have hp2 : (2 : ℚ) ^ (1 - (p : ℤ)) ≤ 1 / 2 ^ 63 := by
    refine (zpow_mono (show 1 - (p : ℤ) ≤ -63 by omega)).trans ?_; norm_num
  have hp3 : (2 : ℚ) ^ (2 - (p : ℤ)) ≤ 1 / 2 ^ 62 := by
    refine (zpow_mono (show 2 - (p : ℤ) ≤ -62 by omega)).trans ?_; norm_num
  have m1 := mul_le_mul_of_nonneg_right hp2 q0.le
  have m2 := mul_le_mul_of_nonneg_right hp3 q0.le
  rw [mul_div_assoc] at hm hr
  have hm' : |(F.div p a b).mid - a.mid / b.mid| ≤ 1 / 2 * |a.mid / b.mid| := by linarith
  have hmid : 1 / 2 * |a.mid / b.mid| ≤ |(F.div p a b).mid| := by
    have := abs_sub_abs_le_abs_sub (a.mid / b.mid) (F.div p a b).mid
    rw [abs_sub_comm] at this
    linarith
  refine le_accuracy er r0 (fun h => by rw [h, abs_zero] at hmid; linarith) ?_
  rw [show (2 : ℚ) ^ (-(2 : ℤ) - 2) = 1 / 16 by norm_num]
  linarith

/-- **C20** (termination): `floordiv` returns if the divisor is not zero and the quotient is not an integer. -/
theorem floordiv_returns (hF : F.Lawful) (hco : CoeffLawful P coeff) {x y : Elt P R} (hx : x.WF) (hy : y.WF) (h0 : y.real atoms.vals ≠ 0)
    (hi : ¬ ∃ n : ℤ, x.real atoms.vals = n * y.real atoms.vals) {s : Mod P} (hs : Mod.span x.mod y.mod = .ok s) :
    ∃ n N, ∀ fuel, N ≤ fuel → Elt.floordiv atoms F coeff fuel x y = .ok n := by
  rcases floordiv_reduce atoms hx hy (F := F) (coeff := coeff) with ⟨-, he⟩ | ⟨-, he, -⟩ | ⟨-, s', x', y', hs', wx, wy, mx, my, fx, fy, hb', he⟩
  · exact ⟨0, 0, fun fuel _ => he fuel⟩
  · rw [hs] at he; cases he
  · have vx : x'.real atoms.vals = x.real atoms.vals := by rw [Elt.real_eq_evalF, fx, ← Elt.real_eq_evalF]
    have vy : y'.real atoms.vals = y.real atoms.vals := by rw [Elt.real_eq_evalF, fy, ← Elt.real_eq_evalF]
    have hx0 : x'.real atoms.vals ≠ 0 := by rw [vx]; exact fun h => hi ⟨0, by rw [h]; simp⟩
    rw [← vy] at h0
    rw [← vx, ← vy] at hi
    cases hex : Elt.exactLoop P none (x'.coeffs.zip y'.coeffs) with
    | some n => exact ⟨n, 0, fun fuel _ => by rw [he, Elt.floordivSame, hb', if_neg (by simp), hex]⟩
    | none =>
      obtain ⟨A, hA, hAt⟩ := Elt.arb_family atoms hF hco wx (.inr hx0)
      obtain ⟨B, hB, hBt⟩ := Elt.arb_family atoms hF hco wy (.inr h0)
      have hqt := hF.div_tends hAt hBt h0
      set q := x'.real atoms.vals / y'.real atoms.vals with hq
      have hni : ∀ n : ℤ, q ≠ n := fun n h => hi ⟨n, by rw [← h, hq, div_mul_cancel₀ _ h0]⟩
      have hl : (⌊q⌋ : ℝ) < q := lt_of_le_of_ne (Int.floor_le q) (hni _).symm
      have hu : q < ⌊q⌋ + 1 := Int.lt_floor_add_one q
      set ε := min (q - ⌊q⌋) (⌊q⌋ + 1 - q) with hε
      have hεpos : 0 < ε := lt_min (by linarith) (by linarith)
      have hnear : ∀ z : ℚ, |(z : ℝ) - q| < ε → Arf.floor z = ⌊q⌋ := by
        intro z hz
        rw [abs_lt] at hz
        have h1 := min_le_left (q - ⌊q⌋) (⌊q⌋ + 1 - q)
        have h2 := min_le_right (q - ⌊q⌋) (⌊q⌋ + 1 - q)
        have h3 : (⌊q⌋ : ℝ) < z := by linarith [hz.1]
        have h4 : (z : ℝ) < ⌊q⌋ + 1 := by linarith [hz.2]
        rw [arf_floor_eq, Int.floor_eq_iff]
        exact ⟨by exact_mod_cast h3.le, by exact_mod_cast h4⟩
      have hint := interval_tends hqt (by simpa using hni 0) hεpos
      have hstart : ∀ k, 64 ≤ 64 * 2 ^ k := fun k => le_start 64 k
      -- all balls have the accuracy that was asked for
      have hacc : ∀ p, 64 ≤ p → (B p).ne (Ball.exact 0) = some true ∧ ∃ lo hi, (F.div p (A p) (B p)).interval = .ok (lo, hi) := by
        intro p hp
        obtain ⟨N, hN⟩ := hA p (by omega)
        obtain ⟨M, hM⟩ := hB p (by omega)
        obtain ⟨a1, a2⟩ := Elt.arb_near_five atoms hF hco (by omega) wx (hN N le_rfl)
        obtain ⟨b1, b2⟩ := Elt.arb_near_five atoms hF hco (by omega) wy (hM M le_rfl)
        have mid0 : ∀ {b : Ball} {z : ℝ}, Near 5 b z → b.hasAccuracy p = true → z ≠ 0 → b.mid ≠ 0 := by
          intro b z hn ha hz0 hm0
          obtain ⟨r, e, f, g⟩ := hn
          obtain ⟨r', e', l⟩ := accuracy_spec ha
          rw [e] at e'; cases e'
          have := l f
          rw [hm0, abs_zero, mul_zero] at this
          have hr : r = 0 := le_antisymm this f
          rw [hr, hm0, Rat.cast_zero, mul_zero, sub_zero, abs_nonpos_iff] at g
          exact hz0 g
        obtain ⟨-, h2, h3, h4⟩ := div_accuracy hF hp a2 b2 a1.finite b1.finite (mid0 a1 a2 hx0) (mid0 b1 b2 h0)
        obtain ⟨r, hr, hr0⟩ := h4
        obtain ⟨lo, hi, h, -⟩ := interval_near hr hr0 h3
        exact ⟨h2, lo, hi, h⟩
      choose hne lo hi hlh using fun k => hacc (64 * 2 ^ k) (hstart k)
      have key : ∃ n N, ∀ fuel ≥ N, search (Elt.floordivBody F (fun p => x'.arb atoms F coeff fuel p) fun p => y'.arb atoms F coeff fuel p) fuel 64 = .ok n := by
        refine search_terminates (g := fun k => if Arf.floor (lo k) = Arf.floor (hi k) then some (Arf.floor (lo k)) else none) (fun k => ?_) ?_
        · obtain ⟨N, hN⟩ := hA (64 * 2 ^ k) (by have := hstart k; omega)
          obtain ⟨M, hM⟩ := hB (64 * 2 ^ k) (by have := hstart k; omega)
          refine ⟨max N M, fun fuel hf => ?_⟩
          rw [Elt.floordivBody, hM fuel (le_trans (le_max_right _ _) hf), Out.ok_bind, hne k]
          simp only
          rw [hN fuel (le_trans (le_max_left _ _) hf), Out.ok_bind, hlh k, Out.ok_bind]
        · obtain ⟨k, lo', hi', h1, h2, h3⟩ := ((tendsto_prec (show 0 < 64 by omega)).eventually hint).exists
          rw [hlh k] at h1
          cases h1
          exact ⟨k, by rw [hnear _ h2, hnear _ h3, if_pos rfl]; rfl⟩
      obtain ⟨n, N, hN⟩ := key
      exact ⟨n, N, fun fuel hf => by
        rw [he, Elt.floordivSame, hb', if_neg (by simp), hex]
        simp only
        rw [Elt.floordivLoop_eq_search]
        exact hN fuel hf⟩

/-- **C20** (termination): for algebraically independent atoms, `floordiv` returns for every divisor that is not zero, unless the modules of the operands have
no common module. -/
theorem floordiv_terminates [FloorInt P] (hF : F.Lawful) (hco : CoeffLawful P coeff) (hv : AlgebraicIndependent ℚ atoms.vals) {x y : Elt P R} (hx : x.WF)
    (hy : y.WF) (zx : x.NoZeroGen) (zy : y.NoZeroGen) (hz : y.toBool = true) {s : Mod P} (hs : Mod.span x.mod y.mod = .ok s) :
    ∃ n N, ∀ fuel, N ≤ fuel → Elt.floordiv atoms F coeff fuel x y = .ok n := by
  have h0 : y.real atoms.vals ≠ 0 := fun h => by rw [(bool_iff hv hy zy).2 h] at hz; cases hz
  by_cases hi : ∃ n : ℤ, x.real atoms.vals = n * y.real atoms.vals
  · obtain ⟨n, hn⟩ := hi
    exact ⟨n, 0, fun fuel _ => floordiv_multiple atoms hv hx hy zx zy hn h0 hs F coeff fuel⟩
  · exact floordiv_returns atoms hF hco hx hy h0 hi hs

end

/-! ### `floordiv` can be wrong -/

/-- `1/2 + 2^-66 - 2^-76` -/
def divDigits : Digits := ⟨finiteDigits (2 ^ 75 + 2 ^ 10 - 1) 76, 0, by decide⟩

theorem divDigits_value : divDigits.value = 1 / 2 + 1 / 2 ^ 66 - 1 / 2 ^ 76 := by
  rw [value_finite divDigits 76 (fun i hi => by simp [divDigits, finiteDigits, hi])]
  have : Digits.prefixValue divDigits.digit 76 = 1 / 2 + 1 / 2 ^ 66 - 1 / 2 ^ 76 := by decide +kernel
  rw [this]; push_cast; norm_num

def divAtoms : Atoms := fun _ => .random divDigits

/-- The rational generator. -/
def divQ : ℚ := 5 / 8 + 1 / 2 ^ 66 + 1 / 2 ^ 76
/-- The module with generators `divQ` and the random number. -/
def divMod : Mod IntegerRing := ⟨.mk, [.rat divQ, .atom 0]⟩
/-- `4 q - 3 a` -/
def divX : Elt IntegerRing ℤ := ⟨divMod, [4, -3]⟩
/-- `2 a`, slightly larger. -/
def divY : Elt IntegerRing ℤ := ⟨divMod, [0, 2]⟩

theorem div_ball_rat : (RN.rat divQ).arb divAtoms 65 = ⟨5 / 8 + 1 / 2 ^ 65, some (1 / 2 ^ 67)⟩ := by
  have : (RN.rat divQ).arf divAtoms (65 : ℕ) = 5 / 8 + 1 / 2 ^ 65 := by
    rw [RN.arf_nat, RN.arf_, if_neg (by norm_num)]; decide +kernel
  rw [RN.arb_eq, this]; decide +kernel

theorem div_ball_atom : (RN.atom 0).arb divAtoms 65 = ⟨1 / 2, some (1 / 2 ^ 67)⟩ := by
  have : (RN.atom 0).arf divAtoms (65 : ℕ) = 1 / 2 := by
    rw [RN.arf_nat]
    show divDigits.arf 65 = _
    rw [Digits.arf, first_eq_zero _ (by decide)]
    decide +kernel
  rw [RN.arb_eq, this]; decide +kernel

theorem div_arb (fuel : ℕ) :
    divX.arb divAtoms FlintLike.arith IntegerRing.arb (fuel + 1) 64 = .ok ⟨1 + 1 / 2 ^ 63, some (7 / 2 ^ 67)⟩ ∧
    divY.arb divAtoms FlintLike.arith IntegerRing.arb (fuel + 1) 64 = .ok ⟨1, some (1 / 2 ^ 66)⟩ := by
  have h : Elt.arbSum divAtoms FlintLike.arith IntegerRing.arb 65 (Ball.exact 0) divX.terms = ⟨1 + 1 / 2 ^ 63, some (7 / 2 ^ 67)⟩ := by
    simp only [Elt.terms, divX, divMod, List.zip_cons_cons, List.zip_nil_right, Elt.arbSum, div_ball_rat, div_ball_atom]
    decide +kernel
  have h' : Elt.arbSum divAtoms FlintLike.arith IntegerRing.arb 65 (Ball.exact 0) divY.terms = ⟨1, some (1 / 2 ^ 66)⟩ := by
    simp only [Elt.terms, divY, divMod, List.zip_cons_cons, List.zip_nil_right, Elt.arbSum, div_ball_rat, div_ball_atom]
    decide +kernel
  have e : 64 + Nat.clog 2 divX.mod.basis.length = 65 := by decide
  have e' : 64 + Nat.clog 2 divY.mod.basis.length = 65 := by decide
  constructor
  · rw [Elt.arb, if_neg (by decide), e, Elt.arbLoop, h, if_pos (by decide +kernel)]
  · rw [Elt.arb, if_neg (by decide), e', Elt.arbLoop, h', if_pos (by decide +kernel)]

/-- **C20 is false**: with an arithmetic that meets FLINT's contract there are positive elements `x < y` for which `x.floordiv(y)` is 1. -/
theorem floordiv_fails [Build] (fuel : ℕ) : divX.WF ∧ divY.WF ∧ Elt.floordiv divAtoms FlintLike.arith IntegerRing.arb (fuel + 1) divX divY = .ok 1 ∧
    0 < divX.real divAtoms.vals ∧ divX.real divAtoms.vals < divY.real divAtoms.vals := by
  have hv : divAtoms.vals 0 = divDigits.value := rfl
  have v1 : divX.real divAtoms.vals = 4 * (5 / 8 + 1 / 2 ^ 66 + 1 / 2 ^ 76) - 3 * (1 / 2 + 1 / 2 ^ 66 - 1 / 2 ^ 76) := by
    simp [Elt.real, Elt.value, Elt.terms, divX, divMod, RN.value, divQ, hv, divDigits_value]
    ring
  have v2 : divY.real divAtoms.vals = 2 * (1 / 2 + 1 / 2 ^ 66 - 1 / 2 ^ 76) := by
    simp [Elt.real, Elt.value, Elt.terms, divY, divMod, RN.value, divQ, hv, divDigits_value]
  have hm : divMod.WF := by
    have h : Mod.make IntegerRing.mk [.rat divQ, .atom 0] = .ok divMod := by
      simp [Mod.make, Mod.sort, RN.lt, RN.deglex, Mod.check, Mod.compatible, RN.isRat, RN.rational?, divMod]
    exact (Mod.make_ok (by simp [RN.WF]) h).2.2
  refine ⟨⟨hm, rfl, fun _ _ => trivial⟩, ⟨hm, rfl, fun _ _ => trivial⟩, ?_, ?_, ?_⟩
  · rw [Elt.floordiv, if_neg (by decide), if_neg (by simp [divX, divY]), Elt.floordivSame, if_neg (by decide),
      show Elt.exactLoop IntegerRing none (divX.coeffs.zip divY.coeffs) = none by decide]
    simp only
    rw [Elt.floordivLoop, (div_arb fuel).2, Out.ok_bind, show (Ball.mk 1 (some (1 / 2 ^ 66))).ne (Ball.exact 0) = some true by decide +kernel]
    simp only
    rw [(div_arb fuel).1, Out.ok_bind]
    have hi : (FlintLike.arith.div 64 ⟨1 + 1 / 2 ^ 63, some (7 / 2 ^ 67)⟩ ⟨1, some (1 / 2 ^ 66)⟩).interval = .ok (1, 1 + 1 / 2 ^ 62) := by decide +kernel
    rw [hi, Out.ok_bind, if_pos (by decide +kernel)]
    decide +kernel
  · rw [v1]; norm_num
  · rw [v1, v2]; norm_num

/-! ### The hypotheses can be met -/

/-- All hypotheses of `floordiv_exact` and `floordiv_terminates` are met by `3 - 2a` and `7a`, and `floordiv` returns; the hypotheses of `floordiv_multiple`
are met by `-2 · 7a` and `7a`. -/
theorem good_floordiv [Build] : ∃ (F : Arith) (atoms : Atoms), F.Lawful ∧ CoeffLawful IntegerRing IntegerRing.arb ∧ AlgebraicIndependent ℚ atoms.vals ∧
    goodX.WF ∧ goodY.WF ∧ goodX.NoZeroGen ∧ goodY.NoZeroGen ∧ goodY.real atoms.vals ≠ 0 ∧
    (∀ s, Mod.span goodX.mod goodY.mod = .ok s → s.ContainedFrom atoms 64) ∧ Mod.span goodX.mod goodY.mod = .ok goodMod ∧
    (∃ fuel n, Elt.floordiv atoms F IntegerRing.arb fuel goodX goodY = .ok n) ∧
    Elt.floordiv atoms F IntegerRing.arb 0 ⟨goodMod, [0, -14]⟩ goodY = .ok (-2) := by
  obtain ⟨atoms, hv, h0⟩ := exists_liouville_atoms
  have hc := liouville_contained atoms h0 IntegerRing.mk 64 (by norm_num) (by norm_num)
  obtain ⟨wx, wy, zx, zy⟩ := good_wf
  have hsp : Mod.span goodX.mod goodY.mod = .ok goodMod := span_self (R := ℤ) wx.mod
  have hy0 : goodY.real atoms.vals ≠ 0 := fun h => by
    have := (bool_iff hv wy zy).2 h
    revert this; decide
  obtain ⟨n, N, h⟩ := floordiv_terminates atoms FlintLike.lawful coeffLawful_int hv wx wy zx zy (by decide) hsp
  refine ⟨FlintLike.arith, atoms, FlintLike.lawful, coeffLawful_int, hv, wx, wy, zx, zy, hy0, fun s hs => ?_, hsp, ⟨N, n, h N le_rfl⟩, ?_⟩
  · rw [hsp] at hs; cases hs; exact hc
  · refine floordiv_multiple atoms hv (x := ⟨goodMod, [0, -14]⟩) (y := goodY) (n := -2) ⟨wx.mod, rfl, fun _ _ => trivial⟩ wy
      (by simp [Elt.NoZeroGen, goodMod]) zy ?_ hy0 hsp FlintLike.arith IntegerRing.arb 0
    simp [Elt.real, Elt.value, Elt.terms, goodY, goodMod, RN.value]
    ring

end Props

end ExactReal
