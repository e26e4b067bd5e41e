import Verif.Props.ProgramQuery
import Verif.Props.Progress
import Verif.Props.ElementDouble
import Verif.Props.FloorDiv

/-!
# C75: programs that ask for the order of numbers

The questions about the order, the integral part and approximations of the variables of a program, with the numbers that the program has computed so far.
-/

namespace ExactReal.Props

variable {P : Type} [DecidableEq P] {R : Type} [CommRing R] [DecidableEq R] [CRing P R] [LawfulCRing P] [LawfulScalar P] {s : Vars P R}
variable (atoms : Atoms) {F : Arith} {coeff : ℕ → R → Ball}

omit [LawfulScalar P] in
theorem elt_sign_pos [build : Build] (hF : F.Lawful) (hco : CoeffLawful P coeff) {fuel : ℕ} {x : Elt P R} (hx : x.WF)
    (hq : x.eqZ 0 = true ↔ x.real atoms.vals = 0) {r : Bool}
    (h : Elt.gtZ atoms F coeff fuel x 0 = .ok r) : r = true ↔ 0 < x.real atoms.vals := by
  rw [Elt.gtZ, Elt.gtOf, Out.ok_bind] at h
  split_ifs at h with h0
  · cases h
    rw [hq] at h0
    simp [h0]
  · rw [hq] at h0
    obtain ⟨b, hb, h⟩ := Out.bind_eq_ok.1 h
    have := elt_sign atoms hF hco hx hb
    cases h
    cases b
    · simp only [Bool.false_eq_true, false_iff, not_lt] at this
      simp only [Bool.not_false, true_iff]
      exact lt_of_le_of_ne this (Ne.symm h0)
    · simp only [true_iff] at this
      simp only [Bool.not_true, Bool.false_eq_true, false_iff, not_lt]
      exact this.le

/-- **C75.**  In a program that does not call `RealNumber::rational(0)`, with algebraically independent random numbers: the signs of the elements
are always right; the comparisons of elements with each other, with rational numbers and with integers, `floor`, `ceil`, the conversion to `double`
and `floordiv` are right up to an error that is small compared to the numbers in question. -/
theorem program_order_partial [Build] [LawfulFail P] (hF : F.Lawful) (hco : CoeffLawful P coeff) {l : List (Cmd P R × Out Bool)} (h : Run l s)
    (h0 : ∀ d o, (Cmd.rational d 0, o) ∉ l) (hv : AlgebraicIndependent ℚ atoms.vals) : ∃ σ : Reals, ProgramComputes atoms.vals l σ ∧ ∀ fuel,
      (∀ i r, Elt.ltZ atoms F coeff fuel (s.elt i) 0 = .ok r → (r = true ↔ σ.elt i < 0)) ∧
      (∀ i r, Elt.gtZ atoms F coeff fuel (s.elt i) 0 = .ok r → (r = true ↔ 0 < σ.elt i)) ∧
      (∀ i j r, Elt.lt atoms F coeff fuel (s.elt i) (s.elt j) = .ok r → LtUpTo (2 ^ (-(61 : ℤ)) * (|σ.elt i| + |σ.elt j|)) r (σ.elt i) (σ.elt j)) ∧
      (∀ i q r, Elt.ltQ atoms F coeff fuel (s.elt i) q = .ok r → LtUpTo (2 ^ (-(60 : ℤ)) * |σ.elt i|) r (σ.elt i) q) ∧
      (∀ i n r, Elt.ltZ atoms F coeff fuel (s.elt i) n = .ok r → LtUpTo (2 ^ (-(61 : ℤ)) * |σ.elt i|) r (σ.elt i) n) ∧
      (∀ i j r, Elt.ltRN atoms F coeff fuel (s.elt i) (s.num j) = .ok r → LtUpTo (2 ^ (-(61 : ℤ)) * (|σ.elt i| + |σ.num j|)) r (σ.elt i) (σ.num j)) ∧
      (∀ i n, (s.elt i).floor atoms F coeff fuel = .ok n →
        n - 2 ^ (-(61 : ℤ)) * |σ.elt i| ≤ σ.elt i ∧ σ.elt i < n + 1 + 2 ^ (-(61 : ℤ)) * |σ.elt i|) ∧
      (∀ i n, (s.elt i).ceil atoms F coeff fuel = .ok n →
        n - 1 - 2 ^ (-(61 : ℤ)) * |σ.elt i| < σ.elt i ∧ σ.elt i ≤ n + 2 ^ (-(61 : ℤ)) * |σ.elt i|) ∧
      (∀ i d, (s.elt i).toDouble atoms F coeff fuel = .ok d → Double.NearestUpTo (3 * 2 ^ (-(53 : ℤ)) * |σ.elt i|) (σ.elt i) d) ∧
      (∀ i j n, σ.elt j ≠ 0 → Elt.floordiv atoms F coeff fuel (s.elt i) (s.elt j) = .ok n →
        n - 2 ^ (-(59 : ℤ)) * |σ.elt i / σ.elt j| ≤ σ.elt i / σ.elt j ∧ σ.elt i / σ.elt j < n + 1 + 2 ^ (-(59 : ℤ)) * |σ.elt i / σ.elt j|) := by
  obtain ⟨σ, h1, h2, h3⟩ := program_value_partial h atoms.vals
  obtain ⟨w1, w2⟩ := program_wf h
  obtain ⟨z1, z2⟩ := program_noZero h h0
  have hn : ∀ j, (s.num j).real atoms = σ.num j := fun j => by rw [← RN.value_vals, h2]
  refine ⟨σ, h1, fun fuel => ?_⟩
  simp only [← h3, ← hn]
  exact ⟨fun i r hr => elt_sign atoms hF hco (w2 i) hr,
    fun i r hr => elt_sign_pos atoms hF hco (w2 i) (by rw [eqZ_iff hv (w2 i) (.inl (z2 i)) 0, Int.cast_zero]) hr,
    fun i j r hr => (elt_lt_partial atoms hF hco (w2 i)).1 _ (w2 j) hr,
    fun i q r hr => (elt_lt_partial atoms hF hco (w2 i)).2.2.1 q hr,
    fun i n r hr => (elt_lt_partial atoms hF hco (w2 i)).2.2.2 n hr,
    fun i j r hr => (elt_lt_partial atoms hF hco (w2 i)).2.1 _ (w1 j) hr,
    fun i n hr => (elt_floor_partial atoms hF hco (w2 i)).1 hr,
    fun i n hr => (elt_floor_partial atoms hF hco (w2 i)).2 hr,
    fun i d hr => elt_double_partial atoms hF hco (w2 i) hr,
    fun i j n hj hr => floordiv_partial atoms hF hco (w2 i) (w2 j) hj hr⟩

/-- **C75.**  These calls return: `floordiv` for a divisor that is not zero; comparisons and `floordiv` of two elements unless the rings of their modules do not
fit together, in which case they throw. -/
theorem program_order_returns [Build] [LawfulFail P] [FloorInt P] (hF : F.Lawful) (hco : CoeffLawful P coeff) {l : List (Cmd P R × Out Bool)} (h : Run l s)
    (h0 : ∀ d o, (Cmd.rational d 0, o) ∉ l) (hv : AlgebraicIndependent ℚ atoms.vals) :
      (∀ i n, ∃ r N, ∀ fuel, N ≤ fuel → Elt.ltZ atoms F coeff fuel (s.elt i) n = .ok r) ∧
      (∀ i q, ∃ r N, ∀ fuel, N ≤ fuel → Elt.ltQ atoms F coeff fuel (s.elt i) q = .ok r) ∧
      (∀ i j, (∃ e, (s.elt i).eq (s.elt j) = .ok e) → ∃ r N, ∀ fuel, N ≤ fuel → Elt.lt atoms F coeff fuel (s.elt i) (s.elt j) = .ok r) ∧
      (∀ i, ∃ n N, ∀ fuel, N ≤ fuel → (s.elt i).floor atoms F coeff fuel = .ok n) ∧
      (∀ i, ∃ n N, ∀ fuel, N ≤ fuel → (s.elt i).ceil atoms F coeff fuel = .ok n) ∧
      (∀ i, ∃ d N, ∀ fuel, N ≤ fuel → (s.elt i).toDouble atoms F coeff fuel = .ok d) ∧
      (∀ i j, (s.elt j).toBool = true → (∃ m, Mod.span (s.elt i).mod (s.elt j).mod = .ok m) →
        ∃ n N, ∀ fuel, N ≤ fuel → Elt.floordiv atoms F coeff fuel (s.elt i) (s.elt j) = .ok n) := by
  obtain ⟨w1, w2⟩ := program_wf h
  obtain ⟨z1, z2⟩ := program_noZero h h0
  exact ⟨fun i n => (elt_lt_terminates atoms hF hco hv (w2 i) (z2 i)).2.2.2 n,
    fun i q => (elt_lt_terminates atoms hF hco hv (w2 i) (z2 i)).2.2.1 q,
    fun i j ⟨e, he⟩ => (elt_lt_terminates atoms hF hco hv (w2 i) (z2 i)).1 _ (w2 j) (z2 j) e he,
    fun i => (elt_floor_terminates atoms hF hco hv (w2 i) (z2 i)).1,
    fun i => (elt_floor_terminates atoms hF hco hv (w2 i) (z2 i)).2,
    fun i => elt_double_terminates atoms hF hco hv (w2 i) (z2 i),
    fun i j hj ⟨m, hm⟩ => floordiv_terminates atoms hF hco hv (w2 i) (w2 j) (z2 i) (z2 j) hj hm⟩

section
attribute [local instance] sampleBuild

/-- The theorems apply to the sample program, with an arithmetic that satisfies the contract of FLINT. -/
example : ∃ (F : Arith) (atoms : Atoms) (l : List (Cmd IntegerRing ℤ × Out Bool)) (s : Vars IntegerRing ℤ), F.Lawful ∧ Run l s ∧
    l.map Prod.fst = sampleProgram.reverse ∧ ∃ σ, ProgramComputes atoms.vals l σ ∧ ∃ fuel r, Elt.ltZ atoms F IntegerRing.arb fuel (s.elt 1) 0 = .ok r ∧
      (r = true ↔ σ.elt 1 < 0) := by
  obtain ⟨l, s, h, h1, h2, h0, -⟩ := sample_run
  obtain ⟨atoms, hv, -⟩ := exists_liouville_atoms
  obtain ⟨σ, hσ, hq⟩ := program_order_partial atoms FlintLike.lawful coeffLawful_int h h0 hv
  obtain ⟨r, N, hN⟩ := (program_order_returns atoms FlintLike.lawful coeffLawful_int h h0 hv).1 1 0
  exact ⟨_, atoms, l, s, FlintLike.lawful, h, h1, σ, hσ, N, r, hN N le_rfl, (hq N).1 1 r (hN N le_rfl)⟩

end

end ExactReal.Props
