import Verif.Lemma.Interval
import Verif.Props.ElementOrderFails

/-!
# C21: `floor` and `ceil`

As with the comparisons: right if the balls of the generators contain the generators, right up to a relative error of `2^-61` in general, and the
loops return for algebraically independent atoms.
-/

namespace ExactReal.Props

open Arf Ball

variable {P : Type} [DecidableEq P] {R : Type} [CommRing R] [DecidableEq R] [CRing P R] [LawfulCRing P]
variable (atoms : Atoms) {F : Arith} {coeff : ℕ → R → Ball}

theorem arf_floor_eq (x : ℚ) : Arf.floor x = ⌊x⌋ := Rnd.toInt_int .near _
theorem arf_ceil_eq (x : ℚ) : Arf.ceil x = ⌈x⌉ := Rnd.toInt_int .near _

omit [CommRing R] [DecidableEq R] [CRing P R] [LawfulCRing P] [DecidableEq P] in
theorem roundLoop_eq (g : ℚ → ℤ) (self : ℕ → Out Ball) (fuel prec : ℕ) : Elt.roundLoop g self fuel prec = search (boundsBody g self) fuel prec :=
  Elt.roundLoop_eq_search g self fuel prec

theorem integer_sound {x : Elt P R} {n : ℤ} (h : x.integer? = some n) (v : ℕ → ℝ) : x.real v = n := by
  rw [Elt.integer?] at h
  cases hr : x.rational? with
  | none => rw [hr] at h; simp at h
  | some q =>
    rw [hr] at h
    have hq := rational_sound hr v
    simp only [Option.bind_some] at h
    split_ifs at h with hd
    cases h
    rw [hq]
    have : q = (q.num : ℚ) := by
      conv_lhs => rw [← Rat.num_div_den q]
      rw [hd]; simp
    rw [this]; simp

/-- `floor` and `ceil` with a general inflation factor. -/
theorem elt_round_c (hF : F.Lawful) (hco : CoeffLawful P coeff) {c : ℝ} (hc : 1 ≤ c) (hc5 : c ≤ 5) {fuel : ℕ} {x : Elt P R}
    (gx : ∀ k, Elt.GenNear atoms c (64 * 2 ^ k) x.mod) {n : ℤ} :
    (x.floor atoms F coeff fuel = .ok n → n - (c - 1) * (3 / 2 * 2 ^ (-(64 : ℤ)) * |x.real atoms.vals|) ≤ x.real atoms.vals ∧
      x.real atoms.vals < n + 1 + (c - 1) * (3 / 2 * 2 ^ (-(64 : ℤ)) * |x.real atoms.vals|)) ∧
    (x.ceil atoms F coeff fuel = .ok n → n - 1 - (c - 1) * (3 / 2 * 2 ^ (-(64 : ℤ)) * |x.real atoms.vals|) < x.real atoms.vals ∧
      x.real atoms.vals ≤ n + (c - 1) * (3 / 2 * 2 ^ (-(64 : ℤ)) * |x.real atoms.vals|)) := by
  have hE : 0 ≤ (c - 1) * (3 / 2 * 2 ^ (-(64 : ℤ)) * |x.real atoms.vals|) := mul_nonneg (by linarith) (by positivity)
  have main : ∀ g : ℚ → ℤ, Elt.roundLoop g (fun prec => x.arb atoms F coeff fuel prec) fuel 64 = .ok n → ∃ lo hi : ℚ,
      lo - (c - 1) * (3 / 2 * 2 ^ (-(64 : ℤ)) * |x.real atoms.vals|) ≤ x.real atoms.vals ∧
      x.real atoms.vals ≤ hi + (c - 1) * (3 / 2 * 2 ^ (-(64 : ℤ)) * |x.real atoms.vals|) ∧ g lo = n ∧ g hi = n := by
    intro g h
    rw [roundLoop_eq] at h
    obtain ⟨k, s, lo, hi, r, h1, -, h3, h4, h5, h6, h7⟩ := boundsBody_ok h
    have hA := le_start 64 k
    obtain ⟨-, -, ⟨r', hr', hs1, hs2⟩, -⟩ := Elt.arb_slack_c atoms hF hco hc hc5 (by omega) (gx k) h1
    have hm := err_mono hc (show (0 : ℝ) ≤ 3 / 2 by norm_num) (abs_nonneg (x.real atoms.vals)) hA
    rw [h3] at hr'
    cases hr'
    have h4' := (Rat.cast_le (K := ℝ)).2 h4
    have h5' := (Rat.cast_le (K := ℝ)).2 h5
    push_cast at h4' h5'
    rw [abs_le] at hs2
    refine ⟨lo, hi, ?_, ?_, h6, h7⟩ <;> linarith [hs2.1, hs2.2]
  constructor
  · intro h
    rw [Elt.floor] at h
    cases hi : x.integer? with
    | some m =>
      rw [hi] at h
      cases h
      rw [integer_sound hi] at *
      constructor <;> linarith
    | none =>
      rw [hi] at h
      obtain ⟨lo, hi, h1, h2, h3, h4⟩ := main _ h
      rw [arf_floor_eq, Int.floor_eq_iff] at h3 h4
      have h3' : ((n : ℚ) : ℝ) ≤ lo := by exact_mod_cast h3.1
      have h4' : (hi : ℝ) < ((n + 1 : ℚ) : ℝ) := by exact_mod_cast h4.2
      push_cast at h3' h4'
      constructor <;> linarith
  · intro h
    rw [Elt.ceil] at h
    cases hi : x.integer? with
    | some m =>
      rw [hi] at h
      cases h
      rw [integer_sound hi] at *
      constructor <;> linarith
    | none =>
      rw [hi] at h
      obtain ⟨lo, hi, h1, h2, h3, h4⟩ := main _ h
      rw [arf_ceil_eq, Int.ceil_eq_iff] at h3 h4
      have h3' : ((n - 1 : ℚ) : ℝ) < lo := by exact_mod_cast h3.1
      have h4' : (hi : ℝ) ≤ ((n : ℚ) : ℝ) := by exact_mod_cast h4.2
      push_cast at h3' h4'
      constructor <;> linarith

/-- **C21**: if the balls of the generators contain the generators, then `floor` and `ceil`, whenever they return, are the floor and the ceiling of
the value. -/
theorem elt_floor_exact (hF : F.Lawful) (hco : CoeffLawful P coeff) {fuel : ℕ} {x : Elt P R} (hx : x.WF) (gx : x.mod.ContainedFrom atoms 64) {n : ℤ} :
    (x.floor atoms F coeff fuel = .ok n → n = ⌊x.real atoms.vals⌋) ∧ (x.ceil atoms F coeff fuel = .ok n → n = ⌈x.real atoms.vals⌉) := by
  have h2 : ∀ k, 2 ≤ 64 * 2 ^ k := fun k => by have := le_start 64 k; omega
  obtain ⟨h3, h4⟩ := elt_round_c atoms hF hco le_rfl (by norm_num) (fun k => Elt.genNear_one atoms hx.mod (h2 k) (gx k)) (fuel := fuel) (n := n)
  rw [sub_self, zero_mul, sub_zero, add_zero] at h3
  rw [sub_self, zero_mul, sub_zero, add_zero] at h4
  exact ⟨fun h => (Int.floor_eq_iff.2 (h3 h)).symm, fun h => (Int.ceil_eq_iff.2 (h4 h)).symm⟩

/-- **C21** without hypothesis on the generators: right up to a relative error of `2^-61`.  (It is not exactly right, `elt_floor_fails`.) -/
theorem elt_floor_partial (hF : F.Lawful) (hco : CoeffLawful P coeff) {fuel : ℕ} {x : Elt P R} (hx : x.WF) {n : ℤ} :
    (x.floor atoms F coeff fuel = .ok n → n - 2 ^ (-(61 : ℤ)) * |x.real atoms.vals| ≤ x.real atoms.vals ∧
      x.real atoms.vals < n + 1 + 2 ^ (-(61 : ℤ)) * |x.real atoms.vals|) ∧
    (x.ceil atoms F coeff fuel = .ok n → n - 1 - 2 ^ (-(61 : ℤ)) * |x.real atoms.vals| < x.real atoms.vals ∧
      x.real atoms.vals ≤ n + 2 ^ (-(61 : ℤ)) * |x.real atoms.vals|) := by
  have h2 : ∀ k, 2 ≤ 64 * 2 ^ k := fun k => by have := le_start 64 k; omega
  obtain ⟨h3, h4⟩ := elt_round_c atoms hF hco (c := 5) (by norm_num) le_rfl (fun k => Elt.genNear_five atoms hx.mod (h2 k)) (fuel := fuel) (n := n)
  have hm := (five_le |x.real atoms.vals| (abs_nonneg _)).1
  generalize ((5 : ℝ) - 1) * (3 / 2 * 2 ^ (-(64 : ℤ)) * |x.real atoms.vals|) = s at *
  generalize (2 : ℝ) ^ (-(61 : ℤ)) * |x.real atoms.vals| = t at *
  refine ⟨fun h => ?_, fun h => ?_⟩
  · obtain ⟨e1, e2⟩ := h3 h
    constructor <;> linarith
  · obtain ⟨e1, e2⟩ := h4 h
    constructor <;> linarith

/-- **C21** (termination): `floor` and `ceil` return if the value is not an integer (or if all coefficients but that of the generator 1 vanish). -/
theorem elt_floor_returns (hF : F.Lawful) (hco : CoeffLawful P coeff) {x : Elt P R} (hx : x.WF)
    (hni : x.integer? = none → ∀ n : ℤ, x.real atoms.vals ≠ n) :
    (∃ n N, ∀ fuel, N ≤ fuel → x.floor atoms F coeff fuel = .ok n) ∧ (∃ n N, ∀ fuel, N ≤ fuel → x.ceil atoms F coeff fuel = .ok n) := by
  cases hi : x.integer? with
  | some m => exact ⟨⟨m, 0, fun _ _ => by rw [Elt.floor, hi]⟩, ⟨m, 0, fun _ _ => by rw [Elt.ceil, hi]⟩⟩
  | none =>
    have hni := hni hi
    set y := x.real atoms.vals with hy
    have h0 : y ≠ 0 := by simpa using hni 0
    have hl : (⌊y⌋ : ℝ) < y := lt_of_le_of_ne (Int.floor_le y) (hni _).symm
    have hu : y < ⌊y⌋ + 1 := Int.lt_floor_add_one y
    set ε := min (y - ⌊y⌋) (⌊y⌋ + 1 - y) with hε
    have hεpos : 0 < ε := lt_min (by linarith) (by linarith)
    have hnear : ∀ q : ℚ, |(q : ℝ) - y| < ε → (⌊y⌋ : ℝ) < q ∧ (q : ℝ) < ⌊y⌋ + 1 := by
      intro q hq
      rw [abs_lt] at hq
      have := min_le_left (y - ⌊y⌋) (⌊y⌋ + 1 - y)
      have := min_le_right (y - ⌊y⌋) (⌊y⌋ + 1 - y)
      constructor <;> linarith [hq.1, hq.2]
    constructor
    · obtain ⟨n, N, hN⟩ := Elt.bounds_terminates atoms (g := Arf.floor) hF hco hx h0 (start := 64) (by norm_num) hεpos (c := ⌊y⌋) (fun q hq => by
        obtain ⟨h1, h2⟩ := hnear q hq
        rw [arf_floor_eq, Int.floor_eq_iff]
        exact ⟨by exact_mod_cast h1.le, by exact_mod_cast h2⟩)
      exact ⟨n, N, fun fuel hf => by rw [Elt.floor, hi, roundLoop_eq]; exact hN fuel hf⟩
    · obtain ⟨n, N, hN⟩ := Elt.bounds_terminates atoms (g := Arf.ceil) hF hco hx h0 (start := 64) (by norm_num) hεpos (c := ⌊y⌋ + 1) (fun q hq => by
        obtain ⟨h1, h2⟩ := hnear q hq
        rw [arf_ceil_eq, Int.ceil_eq_iff]
        refine ⟨?_, ?_⟩
        · push_cast; rw [add_sub_cancel_right]; exact_mod_cast h1
        · exact_mod_cast h2.le)
      exact ⟨n, N, fun fuel hf => by rw [Elt.ceil, hi, roundLoop_eq]; exact hN fuel hf⟩

/-- **C21** (termination): for algebraically independent atoms `floor` and `ceil` return, for every element. -/
theorem elt_floor_terminates (hF : F.Lawful) (hco : CoeffLawful P coeff) (hv : AlgebraicIndependent ℚ atoms.vals) {x : Elt P R} (hx : x.WF)
    (zx : x.NoZeroGen) : (∃ n N, ∀ fuel, N ≤ fuel → x.floor atoms F coeff fuel = .ok n) ∧ (∃ n N, ∀ fuel, N ≤ fuel → x.ceil atoms F coeff fuel = .ok n) :=
  elt_floor_returns atoms hF hco hx fun hi n h => by rw [(integer_iff hv hx (.inl zx) n).2 h] at hi; cases hi

/-- The hypotheses of `elt_floor_exact` are met and `floor` returns. -/
example : ∃ (F : Arith) (atoms : Atoms), F.Lawful ∧ AlgebraicIndependent ℚ atoms.vals ∧ goodX.mod.ContainedFrom atoms 64 ∧
    ∃ fuel n, goodX.floor atoms F IntegerRing.arb fuel = .ok n := by
  obtain ⟨atoms, hv, h0⟩ := exists_liouville_atoms
  have hc := liouville_contained atoms h0 IntegerRing.mk 64 (by norm_num) (by norm_num)
  obtain ⟨wx, wy, zx, zy⟩ := good_wf
  obtain ⟨n, N, h⟩ := (elt_floor_terminates atoms FlintLike.lawful coeffLawful_int hv wx zx).1
  exact ⟨FlintLike.arith, atoms, FlintLike.lawful, hv, hc, N, n, h N le_rfl⟩

/-! ### `floor` can be wrong -/

/-- `3/4 - 2^-63 + (2^-66 - 2^-76)` -/
def floorDigits : Digits := ⟨finiteDigits (3 * 2 ^ 74 - 2 ^ 13 + (2 ^ 10 - 1)) 76, 0, by decide⟩

theorem floorDigits_value : floorDigits.value = 3 / 4 - 1 / 2 ^ 63 + (2 ^ 10 - 1) / 2 ^ 76 := by
  rw [value_finite floorDigits 76 (fun i hi => by simp [floorDigits, finiteDigits, hi])]
  have : Digits.prefixValue floorDigits.digit 76 = 3 / 4 - 1 / 2 ^ 63 + (2 ^ 10 - 1) / 2 ^ 76 := by decide +kernel
  rw [this]; push_cast; norm_num

def floorAtoms : Atoms := fun _ => .random floorDigits

/-- The module with generators `17/2 - 2^-62` and the random number. -/
def floorMod : Mod IntegerRing := ⟨.mk, [.rat (17 / 2 - 1 / 2 ^ 62), .atom 0]⟩
/-- `17/2 - 2^-62 - 2a`, slightly below 7. -/
def floorX : Elt IntegerRing ℤ := ⟨floorMod, [1, -2]⟩
/-- The negative. -/
def ceilX : Elt IntegerRing ℤ := ⟨floorMod, [-1, 2]⟩

theorem floor_ball_rat : (RN.rat (17 / 2 - 1 / 2 ^ 62)).arb floorAtoms 65 = ⟨17 / 2, some (1 / 2 ^ 63)⟩ := by
  have : (RN.rat (17 / 2 - 1 / 2 ^ 62)).arf floorAtoms (65 : ℕ) = 17 / 2 := by
    rw [RN.arf_nat, RN.arf_, if_neg (by norm_num)]; decide +kernel
  rw [RN.arb_eq, this]; decide +kernel

theorem floor_ball_atom : (RN.atom 0).arb floorAtoms 65 = ⟨3 / 4 - 1 / 2 ^ 63, some (1 / 2 ^ 67)⟩ := by
  have : (RN.atom 0).arf floorAtoms (65 : ℕ) = 3 / 4 - 1 / 2 ^ 63 := by
    rw [RN.arf_nat]
    show floorDigits.arf 65 = _
    rw [Digits.arf, first_eq_zero _ (by decide)]
    decide +kernel
  rw [RN.arb_eq, this]; decide +kernel

theorem floor_arb (fuel : ℕ) :
    floorX.arb floorAtoms FlintLike.arith IntegerRing.arb (fuel + 1) 64 = .ok ⟨7 + 1 / 2 ^ 62, some (9 / 2 ^ 66)⟩ ∧
    ceilX.arb floorAtoms FlintLike.arith IntegerRing.arb (fuel + 1) 64 = .ok ⟨-(7 + 1 / 2 ^ 62), some (9 / 2 ^ 66)⟩ := by
  have h : Elt.arbSum floorAtoms FlintLike.arith IntegerRing.arb 65 (Ball.exact 0) floorX.terms = ⟨7 + 1 / 2 ^ 62, some (9 / 2 ^ 66)⟩ := by
    simp only [Elt.terms, floorX, floorMod, List.zip_cons_cons, List.zip_nil_right, Elt.arbSum, floor_ball_rat, floor_ball_atom]
    decide +kernel
  have h' : Elt.arbSum floorAtoms FlintLike.arith IntegerRing.arb 65 (Ball.exact 0) ceilX.terms = ⟨-(7 + 1 / 2 ^ 62), some (9 / 2 ^ 66)⟩ := by
    simp only [Elt.terms, ceilX, floorMod, List.zip_cons_cons, List.zip_nil_right, Elt.arbSum, floor_ball_rat, floor_ball_atom]
    decide +kernel
  have e : 64 + Nat.clog 2 floorX.mod.basis.length = 65 := by decide
  have e' : 64 + Nat.clog 2 ceilX.mod.basis.length = 65 := by decide
  constructor
  · rw [Elt.arb, if_neg (by decide), e, Elt.arbLoop, h, if_pos (by decide +kernel)]
  · rw [Elt.arb, if_neg (by decide), e', Elt.arbLoop, h', if_pos (by decide +kernel)]

theorem roundLoop_one {g : ℚ → ℤ} {self : ℕ → Out Ball} {prec : ℕ} {a : Ball} {i : ℚ × ℚ} (h1 : self prec = .ok a)
    (h2 : a.interval = .ok i) (h3 : g i.1 = g i.2) (fuel : ℕ) : Elt.roundLoop g self (fuel + 1) prec = .ok (g i.1) := by
  rw [Elt.roundLoop, h1, Out.ok_bind, h2, Out.ok_bind]
  exact if_pos h3

/-- **C21 is false**: with an arithmetic that meets FLINT's contract there are elements whose `floor` is too large and whose `ceil` is too small. -/
theorem elt_floor_fails (fuel : ℕ) : floorX.WF ∧ ceilX.WF ∧
    (floorX.floor floorAtoms FlintLike.arith IntegerRing.arb (fuel + 1) = .ok 7 ∧ floorX.real floorAtoms.vals < 7) ∧
    (ceilX.ceil floorAtoms FlintLike.arith IntegerRing.arb (fuel + 1) = .ok (-7) ∧ -7 < ceilX.real floorAtoms.vals) := by
  have v1 : floorX.real floorAtoms.vals = 17 / 2 - 1 / 2 ^ 62 - 2 * (3 / 4 - 1 / 2 ^ 63 + (2 ^ 10 - 1) / 2 ^ 76) := by
    rw [← floorDigits_value]
    simp [Elt.real, Elt.value, Elt.terms, floorX, floorMod, num_int, RN.value]
    have : floorAtoms.vals 0 = floorDigits.value := rfl
    rw [this]; ring
  have v2 : ceilX.real floorAtoms.vals = -(17 / 2 - 1 / 2 ^ 62 - 2 * (3 / 4 - 1 / 2 ^ 63 + (2 ^ 10 - 1) / 2 ^ 76)) := by
    rw [← floorDigits_value]
    simp [Elt.real, Elt.value, Elt.terms, ceilX, floorMod, num_int, RN.value]
    have : floorAtoms.vals 0 = floorDigits.value := rfl
    rw [this]; ring
  have hm : floorMod.WF := by
    have h : Mod.make IntegerRing.mk [.rat (17 / 2 - 1 / 2 ^ 62), .atom 0] = .ok floorMod := by
      simp [Mod.make, Mod.sort, RN.lt, RN.deglex, Mod.check, Mod.compatible, RN.isRat, RN.rational?, floorMod]
    exact (Mod.make_ok (by simp [RN.WF]) h).2.2
  refine ⟨⟨hm, rfl, fun _ _ => trivial⟩, ⟨hm, rfl, fun _ _ => trivial⟩, ⟨?_, ?_⟩, ?_, ?_⟩
  · rw [Elt.floor, show floorX.integer? = none by decide +kernel]
    have := roundLoop_one (self := fun prec => floorX.arb floorAtoms FlintLike.arith IntegerRing.arb (fuel + 1) prec) (g := Arf.floor)
      (i := (7, 7 + 1 / 2 ^ 61)) (floor_arb fuel).1 (by decide +kernel) (by decide +kernel) fuel
    simp only [this]; decide +kernel
  · rw [v1]; norm_num
  · rw [Elt.ceil, show ceilX.integer? = none by decide +kernel]
    have := roundLoop_one (self := fun prec => ceilX.arb floorAtoms FlintLike.arith IntegerRing.arb (fuel + 1) prec) (g := Arf.ceil)
      (i := (-(7 + 1 / 2 ^ 61), -7)) (floor_arb fuel).2 (by decide +kernel) (by decide +kernel) fuel
    simp only [this]; decide +kernel
  · rw [v2]; norm_num

end ExactReal.Props
