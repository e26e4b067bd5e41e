import Verif.Props.Effort
import Verif.Props.FloorDiv
import Verif.Props.ElementDouble

/-!
# C88: how far approximations are refined, `floordiv` and the conversion to `double`
-/

namespace ExactReal.Props
open ExactReal Ball Elt

section
variable {F : Arith}

/-- The error of a quotient. -/
theorem floordiv_error (hF : F.Lawful) {p : ℕ} (hp : 64 ≤ p) {a b : Ball} {x y : ℝ} {r s : ℚ} (ha : a.hasAccuracy p = true) (hb : b.hasAccuracy p = true)
    (er : a.rad = some r) (es : b.rad = some s) (r0 : 0 ≤ r) (s0 : 0 ≤ s) (x0 : x ≠ 0) (y0 : y ≠ 0)
    (hr : (r : ℝ) ≤ 3 / 2 * 2 ^ (-(p : ℤ)) * |x|) (hs : (s : ℝ) ≤ 3 / 2 * 2 ^ (-(p : ℤ)) * |y|) (hx : |x - a.mid| ≤ 5 * r) (hy : |y - b.mid| ≤ 5 * s) :
    b.ne (Ball.exact 0) = some true ∧ ∃ lo hi, (F.div p a b).interval = .ok (lo, hi) ∧ |(lo : ℝ) - x / y| ≤ 512 * 2 ^ (-(p : ℤ)) * |x / y| ∧
      |(hi : ℝ) - x / y| ≤ 512 * 2 ^ (-(p : ℤ)) * |x / y| := by
  have hp1 : (2 : ℝ) ^ (-(p : ℤ)) ≤ 1 / 2 ^ 64 := by
    refine (zpow_le_zpow_right₀ (by norm_num) (show -(p : ℤ) ≤ -64 by omega)).trans ?_; norm_num
  have hu : (0 : ℝ) < 2 ^ (-(p : ℤ)) := by positivity
  obtain ⟨ra', ea', la⟩ := accuracy_spec ha
  obtain ⟨rb', eb', lb⟩ := accuracy_spec hb
  rw [er] at ea'; cases ea'
  rw [es] at eb'; cases eb'
  have la := (Rat.cast_le (K := ℝ)).2 (la r0)
  have lb := (Rat.cast_le (K := ℝ)).2 (lb s0)
  push_cast at la lb
  have e1 : (2 : ℝ) ^ (1 - (p : ℤ)) = 2 * 2 ^ (-(p : ℤ)) := by rw [sub_eq_add_neg, zpow_add₀ (by norm_num)]; norm_num
  have e2 : (2 : ℝ) ^ (2 - (p : ℤ)) = 4 * 2 ^ (-(p : ℤ)) := by rw [sub_eq_add_neg, zpow_add₀ (by norm_num)]; norm_num
  have ax := abs_pos.2 x0
  have ay := abs_pos.2 y0
  have tx := abs_sub_abs_le_abs_sub x (a.mid : ℝ)
  have ty := abs_sub_abs_le_abs_sub y (b.mid : ℝ)
  have tx' := abs_sub_abs_le_abs_sub (a.mid : ℝ) x
  rw [abs_sub_comm] at tx'
  have ux : (2 : ℝ) ^ (-(p : ℤ)) * |x| ≤ 1 / 2 ^ 64 * |x| := mul_le_mul_of_nonneg_right hp1 ax.le
  have uy : (2 : ℝ) ^ (-(p : ℤ)) * |y| ≤ 1 / 2 ^ 64 * |y| := mul_le_mul_of_nonneg_right hp1 ay.le
  have am : (0 : ℝ) < |(a.mid : ℝ)| := by nlinarith
  have bm : (0 : ℝ) < |(b.mid : ℝ)| := by nlinarith
  have a0 : a.mid ≠ 0 := by intro h; rw [h] at am; simp at am
  have b0 : b.mid ≠ 0 := by intro h; rw [h] at bm; simp at bm
  obtain ⟨hc, hne, hac, hfin⟩ := div_accuracy hF hp ha hb ⟨r, er, r0⟩ ⟨s, es, s0⟩ a0 b0
  refine ⟨hne, ?_⟩
  have hm := (Rat.cast_le (K := ℝ)).2 (hF.div_mid p a b (by omega) hc ⟨r, er, r0⟩ ⟨s, es, s0⟩)
  have hq := (Rat.cast_le (K := ℝ)).2 (hF.div_radius p a b (by omega) ⟨r, er, r0⟩ ⟨s, es, s0⟩ hc)
  obtain ⟨t, et, t0⟩ := hfin
  rw [radius_eq er, radius_eq es] at hm hq
  rw [radius_eq et] at hq
  obtain ⟨lo, hi, e, l1, l2, u1, u2⟩ := interval_near et t0 hac
  refine ⟨lo, hi, e, ?_⟩
  have l1 := (Rat.cast_le (K := ℝ)).2 l1
  have l2 := (Rat.cast_le (K := ℝ)).2 l2
  have u1 := (Rat.cast_le (K := ℝ)).2 u1
  have u2 := (Rat.cast_le (K := ℝ)).2 u2
  have t0 : (0 : ℝ) ≤ t := by exact_mod_cast t0
  have r0 : (0 : ℝ) ≤ r := by exact_mod_cast r0
  have s0 : (0 : ℝ) ≤ s := by exact_mod_cast s0
  push_cast at hm hq l1 l2 u1 u2
  rw [e1, mul_div_assoc] at hm
  rw [e2, mul_div_assoc] at hq
  generalize (2 : ℝ) ^ (-(p : ℤ)) = u at *
  generalize (F.div p a b).mid = m at *
  generalize (a.mid : ℝ) = A at *
  generalize (b.mid : ℝ) = B at *
  have hB : 1 / 2 * |B| ≤ |B| - s := by nlinarith
  have hd : 0 < |B| - s := by linarith
  have q0 : 0 ≤ |A / B| := abs_nonneg _
  have herr : (|A| * s + |B| * r) / (|B| * (|B| - s)) ≤ 4 * u * |A / B| := by
    rw [abs_div, div_le_iff₀ (mul_pos bm hd)]
    have e : 4 * u * (|A| / |B|) * (|B| * (|B| - s)) = 4 * u * (|A| * (|B| - s)) := by field_simp
    rw [e]
    have k1 : |A| * s ≤ u * (|A| * |B|) := by nlinarith
    have k2 : |B| * r ≤ u * (|A| * |B|) := by nlinarith
    have k3 := mul_le_mul_of_nonneg_left (mul_le_mul_of_nonneg_left hB am.le) hu.le
    linarith
  have hxy : |A / B - x / y| ≤ 16 * u * |x / y| := by
    have : A / B - x / y = ((A - x) * y + x * (y - B)) / (B * y) := by
      have hB0 : B ≠ 0 := abs_pos.1 bm
      field_simp
      ring
    rw [this, abs_div, abs_mul, abs_div, div_le_iff₀ (mul_pos bm ay)]
    have e : 16 * u * (|x| / |y|) * (|B| * |y|) = 16 * u * (|x| * |B|) := by field_simp
    rw [e]
    refine (abs_add_le _ _).trans ?_
    rw [abs_mul, abs_mul, abs_sub_comm A x]
    have k1 : |x - A| * |y| ≤ 15 / 2 * u * |x| * |y| := mul_le_mul_of_nonneg_right (by linarith) ay.le
    have k2 : |x| * |y - B| ≤ |x| * (15 / 2 * u * |y|) := mul_le_mul_of_nonneg_left (by linarith) ax.le
    have k3 : 15 / 16 * |y| ≤ |B| := by linarith
    have k4 := mul_le_mul_of_nonneg_left k3 (mul_pos hu ax).le
    linarith
  have hz : 0 ≤ |x / y| := abs_nonneg _
  have uz : u * |x / y| ≤ 1 / 2 ^ 64 * |x / y| := mul_le_mul_of_nonneg_right hp1 hz
  have hAB : |A / B| ≤ 5 / 4 * |x / y| := by
    have := abs_sub_abs_le_abs_sub (A / B) (x / y)
    linarith
  have hAB' := mul_le_mul_of_nonneg_left hAB hu.le
  rw [abs_le] at hm hxy
  constructor <;> rw [abs_le] <;> constructor <;> linarith [hm.1, hm.2, hxy.1, hxy.2]

end

section
variable {P : Type} [DecidableEq P] {R : Type} [CommRing R] [DecidableEq R] [CRing P R] [LawfulCRing P]
variable (atoms : Atoms) {F : Arith} {coeff : ℕ → R → Ball}

theorem floordivLoop_effort (hF : F.Lawful) (hco : CoeffLawful P coeff) (hac : CoeffAccurate P coeff) {x y : Elt P R} (hx : x.WF) (hy : y.WF) {n k : ℕ}
    (nx : x.Enough atoms 64 n) (ny : y.Enough atoms 64 n) (x0 : x.real atoms.vals ≠ 0) (y0 : y.real atoms.vals ≠ 0) {ε : ℝ}
    (hε : ∀ m : ℤ, ε ≤ |x.real atoms.vals / y.real atoms.vals - m|)
    (h : 512 * |x.real atoms.vals / y.real atoms.vals| < 2 ^ (64 * 2 ^ k) * ε) {fuel : ℕ} (hn : n < fuel) (hk : k < fuel) :
    ∃ m, Elt.floordivLoop F (fun p => x.arb atoms F coeff fuel p) (fun p => y.arb atoms F coeff fuel p) fuel 64 = .ok m := by
  rw [Elt.floordivLoop_eq_search]
  have key : ∀ i, ∃ lo hi : ℚ, |(lo : ℝ) - x.real atoms.vals / y.real atoms.vals| ≤ 512 * 2 ^ (-((64 * 2 ^ i : ℕ) : ℤ)) * |x.real atoms.vals / y.real atoms.vals| ∧
      |(hi : ℝ) - x.real atoms.vals / y.real atoms.vals| ≤ 512 * 2 ^ (-((64 * 2 ^ i : ℕ) : ℤ)) * |x.real atoms.vals / y.real atoms.vals| ∧
      Elt.floordivBody F (fun p => x.arb atoms F coeff fuel p) (fun p => y.arb atoms F coeff fuel p) (64 * 2 ^ i) =
        .ok (if Arf.floor lo = Arf.floor hi then some (Arf.floor lo) else none) := by
    intro i
    obtain ⟨b, r, b1, b2, b3, b4, b5, b6⟩ := arb_within atoms hF hco hac (by norm_num) hx nx hn i
    obtain ⟨c, s, c1, c2, c3, c4, c5, c6⟩ := arb_within atoms hF hco hac (by norm_num) hy ny hn i
    obtain ⟨e1, lo, hi, e2, e3, e4⟩ := floordiv_error hF (le_start 64 i) b6 c6 b2 c2 b3 c3 x0 y0 b4 c4 b5 c5
    exact ⟨lo, hi, e3, e4, by rw [Elt.floordivBody, c1, Out.ok_bind, e1]; simp only; rw [b1, Out.ok_bind, e2, Out.ok_bind]⟩
  refine search_within k (fun i _ => ?_) ?_ hk
  · obtain ⟨lo, hi, -, -, e⟩ := key i
    exact ⟨_, e⟩
  · obtain ⟨lo, hi, h1, h2, e⟩ := key k
    have hlt := two_pow_neg_mul h
    set q := x.real atoms.vals / y.real atoms.vals with hq
    have hf : ∀ z : ℚ, |(z : ℝ) - q| < ε → Arf.floor z = ⌊q⌋ := by
      intro z hz
      rw [abs_lt] at hz
      have hl : (⌊q⌋ : ℝ) + ε ≤ q := by
        have := hε ⌊q⌋
        rw [abs_of_nonneg (by linarith [Int.floor_le q])] at this
        linarith
      have hu : q + ε ≤ ⌊q⌋ + 1 := by
        have := hε (⌊q⌋ + 1)
        push_cast at this
        rw [abs_of_nonpos (by linarith [Int.lt_floor_add_one q])] at this
        linarith
      have h3 : (⌊q⌋ : ℝ) < z := by linarith [hz.1]
      have h4 : (z : ℝ) < ⌊q⌋ + 1 := by linarith [hz.2]
      rw [arf_floor_eq, Int.floor_eq_iff]
      exact ⟨by exact_mod_cast h3.le, by exact_mod_cast h4⟩
    rw [hf lo (h1.trans_lt hlt), hf hi (h2.trans_lt hlt), if_pos rfl] at e
    exact ⟨_, e⟩

variable [build : Build]

/-- C88. `floordiv` returns by the time that the accuracy suffices to tell the quotient from the integers (`ε` is its distance to them).  The elements are
approximated in the module that is spanned by their modules. -/
theorem elt_floordiv_effort (hF : F.Lawful) (hco : CoeffLawful P coeff) (hac : CoeffAccurate P coeff) {x y x' y' : Elt P R} (hx : x.WF) (hy : y.WF) {s : Mod P}
    (hs : Mod.span x.mod y.mod = .ok s) (hx' : x.promote s = .ok x') (hy' : y.promote s = .ok y') {n k : ℕ}
    (nx : x'.Enough atoms 64 n) (ny : y'.Enough atoms 64 n) (y0 : y.real atoms.vals ≠ 0) {ε : ℝ}
    (hε : ∀ m : ℤ, ε ≤ |x.real atoms.vals / y.real atoms.vals - m|)
    (h : 512 * |x.real atoms.vals / y.real atoms.vals| < 2 ^ (64 * 2 ^ k) * ε) {fuel : ℕ} (hn : n < fuel) (hk : k < fuel) :
    ∃ m, Elt.floordiv atoms F coeff fuel x y = .ok m := by
  have hex : x.mod = s ∧ x' = x ∧ y' = y ∧ x.mod = y.mod ∨ x.mod ≠ y.mod := by
    by_cases hm : x.mod = y.mod
    · left
      have : s = x.mod := by
        rw [← hm, span_self (R := R) hx.mod] at hs
        cases hs; rfl
      subst this
      rw [Elt.promote, if_pos rfl] at hx'
      rw [Elt.promote, if_pos hm.symm] at hy'
      cases hx'; cases hy'
      exact ⟨rfl, rfl, rfl, hm⟩
    · exact .inr hm
  obtain ⟨x'', px, wx, mx, fx⟩ := Elt.promote_span_left hx hy.mod hs
  obtain ⟨y'', py, wy, my, fy⟩ := Elt.promote_span_right hx.mod hy hs
  rw [hx'] at px; cases px
  rw [hy'] at py; cases py
  have vx : x'.real atoms.vals = x.real atoms.vals := by rw [Elt.real_eq_evalF, fx, ← Elt.real_eq_evalF]
  have vy : y'.real atoms.vals = y.real atoms.vals := by rw [Elt.real_eq_evalF, fy, ← Elt.real_eq_evalF]
  rw [← vy] at y0
  rw [← vx, ← vy] at hε h
  have hsame : ∃ m, Elt.floordivSame atoms F coeff fuel x' y' = .ok m := by
    rw [Elt.floordivSame]
    split_ifs with hb
    · exact ⟨_, rfl⟩
    · cases hexl : Elt.exactLoop P none (x'.coeffs.zip y'.coeffs) with
      | some n => exact ⟨n, rfl⟩
      | none =>
        refine floordivLoop_effort atoms hF hco hac wx wy nx ny ?_ y0 hε h hn hk
        intro h0
        rw [h0, zero_div, abs_zero, mul_zero] at h
        have h1 := hε 0
        rw [h0] at h1
        simp only [zero_div, Int.cast_zero, sub_zero, abs_zero] at h1
        have : (2 : ℝ) ^ (64 * 2 ^ k) * ε ≤ 0 := mul_nonpos_of_nonneg_of_nonpos (by positivity) h1
        linarith
  rw [Elt.floordiv]
  split_ifs with hb hm
  · exact ⟨_, rfl⟩
  · rw [hs, Out.ok_bind, hx', Out.ok_bind, hy', Out.ok_bind]
    exact hsame
  · rcases hex with ⟨-, rfl, rfl, -⟩ | hex
    · exact hsame
    · exact absurd hex hm

omit build in
/-- C88. The conversion to `double` returns by the time that the accuracy suffices to tell the number from those that are rounded to other doubles. -/
theorem elt_double_effort (hF : F.Lawful) (hco : CoeffLawful P coeff) (hac : CoeffAccurate P coeff) {x : Elt P R} (hx : x.WF) {n k : ℕ}
    (nx : x.Enough atoms 55 n) {ε : ℝ} {d : Double} (hε : ∀ q : ℚ, |(q : ℝ) - x.real atoms.vals| < ε → Double.ofArf q = d)
    (h : 33 * |x.real atoms.vals| < 2 ^ (55 * 2 ^ k) * ε) {fuel : ℕ} (hn : n < fuel) (hk : k < fuel) : ∃ d, x.toDouble atoms F coeff fuel = .ok d := by
  rw [Elt.toDouble]
  cases hq : x.rational? with
  | some q => exact ⟨_, rfl⟩
  | none =>
    obtain ⟨m, hm⟩ := bounds_effort atoms (g := Double.ofArf) hF hco hac hx (start := 55) (by norm_num) nx hε h hn hk
    exact ⟨m, by simp only; rw [doubleLoop_eq]; exact hm⟩

end

/-! ### Nothing is approximated with more bits than that -/

section
variable {P : Type} [DecidableEq P] {R : Type} [CommRing R] [DecidableEq R] [CRing P R]
variable {atoms atoms' : Atoms} {F F' : Arith} {coeff coeff' : ℕ → R → Ball}

theorem arb_local_all {x : Elt P R} {start n M N : ℕ} (ha : atoms.AgreeUpTo N atoms') (hF : F.AgreeUpTo M F') (hc : AgreeUpTo M coeff coeff')
    (mx : (start * 2 ^ n + Nat.clog 2 x.mod.basis.length) * 2 ^ n ≤ M) (hN : ∀ g ∈ x.mod.basis, M + g.extra ≤ N) :
    ∀ k < n + 1, x.arb atoms F coeff (n + 1) (start * 2 ^ k) = x.arb atoms' F' coeff' (n + 1) (start * 2 ^ k) := by
  intro k hk
  have : start * 2 ^ k ≤ start * 2 ^ n := Nat.mul_le_mul_left _ (Nat.pow_le_pow_right (by norm_num) (by omega))
  exact Elt.arb_local ha hF hc ((Nat.mul_le_mul_right _ (Nat.add_le_add_right this _)).trans mx) hN

/-- C88. With `n` times twice the precision, `arb` does not look beyond `(A + ⌈log₂ rank⌉) 2 ^ n` bits (and a few more for the factors of products). -/
theorem elt_arb_local {x : Elt P R} {A n M N : ℕ} (ha : atoms.AgreeUpTo N atoms') (hF : F.AgreeUpTo M F') (hc : AgreeUpTo M coeff coeff')
    (mx : (A + Nat.clog 2 x.mod.basis.length) * 2 ^ n ≤ M) (hN : ∀ g ∈ x.mod.basis, M + g.extra ≤ N) :
    x.arb atoms F coeff (n + 1) A = x.arb atoms' F' coeff' (n + 1) A := Elt.arb_local ha hF hc mx hN

/-- C88. The conversion to `double` does not look further, either. -/
theorem elt_double_local {x : Elt P R} {n M N : ℕ} (ha : atoms.AgreeUpTo N atoms') (hF : F.AgreeUpTo M F') (hc : AgreeUpTo M coeff coeff')
    (mx : (55 * 2 ^ n + Nat.clog 2 x.mod.basis.length) * 2 ^ n ≤ M) (hN : ∀ g ∈ x.mod.basis, M + g.extra ≤ N) :
    x.toDouble atoms F coeff (n + 1) = x.toDouble atoms' F' coeff' (n + 1) := by
  rw [Elt.toDouble, Elt.toDouble]
  cases x.rational? with
  | some m => rfl
  | none =>
    simp only [doubleLoop_eq]
    exact search_congr fun k hk => by rw [boundsBody, boundsBody, arb_local_all ha hF hc mx hN k hk]

/-- C88. Nor does `floordiv` (the elements are approximated in the module that is spanned by their modules). -/
theorem elt_floordiv_local [LawfulCRing P] [Build] {x y : Elt P R} (hx : x.WF) (hy : y.WF) {s : Mod P} (hs : Mod.span x.mod y.mod = .ok s)
    {n M N : ℕ} (ha : atoms.AgreeUpTo N atoms') (hF : F.AgreeUpTo M F') (hc : AgreeUpTo M coeff coeff')
    (mx : (64 * 2 ^ n + Nat.clog 2 s.basis.length) * 2 ^ n ≤ M) (hN : ∀ g ∈ s.basis, M + g.extra ≤ N) :
    x.floordiv atoms F coeff (n + 1) y = x.floordiv atoms' F' coeff' (n + 1) y := by
  have key : ∀ {x' y' : Elt P R}, x'.mod = s → y'.mod = s → Elt.floordivSame atoms F coeff (n + 1) x' y' = Elt.floordivSame atoms' F' coeff' (n + 1) x' y' := by
    intro x' y' ex ey
    rw [Elt.floordivSame, Elt.floordivSame]
    split_ifs
    · rfl
    · cases Elt.exactLoop P none (x'.coeffs.zip y'.coeffs) with
      | some n => rfl
      | none =>
        simp only [Elt.floordivLoop_eq_search]
        refine search_congr fun k hk => ?_
        have hle : 64 * 2 ^ k ≤ M := by
          have h1 : 64 * 2 ^ k ≤ 64 * 2 ^ n := Nat.mul_le_mul_left _ (Nat.pow_le_pow_right (by norm_num) (by omega))
          exact h1.trans ((Nat.le_add_right _ _).trans ((Nat.le_mul_of_pos_right _ (by positivity)).trans mx))
        simp only [Elt.floordivBody]
        rw [arb_local_all (x := x') ha hF hc (ex ▸ mx) (ex ▸ hN) k hk, arb_local_all (x := y') ha hF hc (ey ▸ mx) (ey ▸ hN) k hk, (hF _ hle).2.2]
  obtain ⟨x', px, wx, mx', fx⟩ := Elt.promote_span_left hx hy.mod hs
  obtain ⟨y', py, wy, my', fy⟩ := Elt.promote_span_right hx.mod hy hs
  rw [Elt.floordiv, Elt.floordiv]
  split_ifs with h1 h2
  · rfl
  · rw [hs, Out.ok_bind, Out.ok_bind, px, Out.ok_bind, Out.ok_bind, py, Out.ok_bind, Out.ok_bind, key mx' my']
  · have h2 : x.mod = y.mod := not_not.1 h2
    have e : s = x.mod := by
      rw [← h2, span_self (R := R) hx.mod] at hs
      cases hs; rfl
    exact key e.symm (h2 ▸ e.symm)

end

/-! ### The theorems apply -/

/-- `17/2 - 2^-62`, in the module of `17/2 - 2^-62 - 2a`. -/
def floordivY : Elt IntegerRing ℤ := ⟨floorMod, [1, 0]⟩

/-- The quotient is approximately `14/17`. -/
example [Build] : ∃ m, Elt.floordiv floorAtoms FlintLike.arith IntegerRing.arb 2 floorX floordivY = .ok m := by
  obtain ⟨w1, -⟩ := elt_floor_fails 0
  obtain ⟨v1, -⟩ := effort_values
  have w2 : floordivY.WF := ⟨w1.mod, rfl, fun c _ => by trivial⟩
  have v2 : floordivY.real floorAtoms.vals = 17 / 2 - 1 / 2 ^ 62 := by
    simp only [Elt.real_eq_termsValue, Elt.termsValue, Elt.terms, floordivY, floorMod, List.zip_cons_cons, List.zip_nil_right, List.map_cons, List.map_nil,
      List.sum_cons, List.sum_nil, num_int, RN.real_rat, RN.real_atom]
    norm_num
  have hsize : floorX.size floorAtoms ≤ 12 ∧ floordivY.size floorAtoms ≤ 12 := by
    constructor <;>
    · simp only [Elt.size, Elt.terms, floorX, floordivY, floorMod, List.zip_cons_cons, List.zip_nil_right, List.map_cons, List.map_nil,
        List.sum_cons, List.sum_nil, num_int, RN.real_rat, RN.real_atom]
      show _ + (_ * magnitude floorDigits.value + 0) ≤ _
      rw [floorDigits_value, magnitude, magnitude, if_neg (by norm_num), if_neg (by norm_num)]
      norm_num [abs_of_pos, abs_of_neg]
  have hq : 4 / 5 ≤ floorX.real floorAtoms.vals / floordivY.real floorAtoms.vals ∧ floorX.real floorAtoms.vals / floordivY.real floorAtoms.vals ≤ 9 / 10 := by
    rw [v1, v2]
    norm_num
  refine elt_floordiv_effort floorAtoms (s := floorMod) (x' := floorX) (y' := floordivY) (n := 1) (k := 0) (ε := 1 / 10) FlintLike.lawful coeffLawful_int coeffAccurate_int w1 w2
    (span_self (R := ℤ) w1.mod) (by simp [Elt.promote, floorX]) (by simp [Elt.promote, floordivY]) (.inr ⟨?_, ?_⟩) (.inr ⟨?_, ?_⟩) ?_ ?_ ?_ (by norm_num) (by norm_num)
  · change floorX.real floorAtoms.vals ≠ 0
    rw [v1]; norm_num
  · change _ ≤ _ * |floorX.real floorAtoms.vals|
    rw [v1, abs_of_pos (by norm_num)]
    refine (mul_le_mul_of_nonneg_left hsize.1 (by positivity)).trans ?_
    norm_num [floorX, floorMod]
  · change floordivY.real floorAtoms.vals ≠ 0
    rw [v2]; norm_num
  · change _ ≤ _ * |floordivY.real floorAtoms.vals|
    rw [v2, abs_of_pos (by norm_num)]
    refine (mul_le_mul_of_nonneg_left hsize.2 (by positivity)).trans ?_
    norm_num [floordivY, floorMod]
  · rw [v2]; norm_num
  · intro m
    rcases le_or_gt m 0 with hm | hm
    · have : (m : ℝ) ≤ 0 := by exact_mod_cast hm
      rw [abs_of_pos (by linarith [hq.1])]; linarith [hq.1]
    · have : (1 : ℝ) ≤ m := by exact_mod_cast hm
      rw [abs_of_neg (by linarith [hq.2])]; linarith [hq.2]
  · rw [abs_of_pos (by linarith [hq.1])]
    have := hq.2
    norm_num
    linarith

end ExactReal.Props
