import Verif.Model.PythonRound
import Verif.Props.Python
import Verif.Props.FloorDiv
import Verif.Props.ElementRound
import Verif.Props.ElementDouble
import Verif.Props.Construct

/-!
# C93: integers, floats and hashes of elements of the Python ring
-/

namespace ExactReal.Props

variable {P : Type} [DecidableEq P] {R : Type} [CommRing R] [DecidableEq R] [CRing P R] [LawfulCRing P] [LawfulScalar P]
variable [build : Build]

open PyLemma Py

namespace PyLemma

omit build in
theorem real_of_constant {x : Elt P R} {q : ℚ} (h : Py.poly x = MvPolynomial.C (algebraMap ℚ AlgReal q)) (v : ℕ → ℝ) : x.real v = q := by
  rw [← aeval_poly, h, MvPolynomial.aeval_C]
  simp

omit build in
theorem constant_iff {v : ℕ → ℝ} (hv : AlgebraicIndependent ℚ v) {x : Elt P R} {q : ℚ} :
    Py.poly x = MvPolynomial.C (algebraMap ℚ AlgReal q) ↔ x.real v = q := by
  refine ⟨fun h => real_of_constant h v, fun h => ?_⟩
  apply poly_ext hv
  rw [aeval_poly, h, MvPolynomial.aeval_C]
  simp

theorem nonzero_real {v : ℕ → ℝ} (hv : AlgebraicIndependent ℚ v) {x : Elt P R} (h : Py.poly x ≠ 0) : x.real v ≠ 0 := by
  intro h0
  apply h
  apply poly_ext hv
  rw [aeval_poly, h0, map_zero]

theorem span_in {ring : P} {x y : Elt P R} (hx : In ring x) (hy : In ring y) : ∃ t, Mod.span x.mod y.mod = .ok t :=
  Mod.span_isOk (R := R) hx.wf.mod hy.wf.mod (.inr (.inr (compat hx hy))) fun a b ha hb => (hx.unital a ha).trans (hy.unital b hb).symm

end PyLemma

/-- C93. `QQ(x)` succeeds exactly for the rational constants of the ring, and `ZZ(x)` exactly for the integers. -/
theorem py_to_number {ring : P} {x : Elt P R} (hx : Made ring x) :
    (∀ q : ℚ, Py.toRational x = .ok (some q) ↔ Py.poly x = MvPolynomial.C (algebraMap ℚ AlgReal q)) ∧
    (∀ n : ℤ, Py.toInteger x = .ok (some n) ↔ Py.poly x = MvPolynomial.C (n : AlgReal)) := by
  have ix := made_in hx
  obtain ⟨v, hv⟩ := exists_independent
  refine ⟨fun q => ?_, fun n => ?_⟩
  · rw [Py.toRational, Out.ok.injEq, rational_iff hv ix.wf (.inl (unital_noZeroGen ix.unital)) q, constant_iff hv]
  · rw [Py.toInteger, Out.ok.injEq, integer_iff hv ix.wf (.inl (unital_noZeroGen ix.unital)) n]
    have := constant_iff hv (x := x) (q := (n : ℚ))
    rw [map_intCast] at this
    rw [this]
    simp

/-- C93. Elements of the base ring that are integers or rationals survive the trip into the ring and back. -/
theorem py_number_roundtrip {ring : P} {c : R} (hc : c ∈ LawfulCRing.mem ring) {q : ℚ} (hq : LawfulCRing.emb P c = algebraMap ℚ AlgReal q) :
    ∃ x : Elt P R, Py.coerce ring c = .ok x ∧ Py.toRational x = .ok (some q) ∧ ∀ n : ℤ, q = n → Py.toInteger x = .ok (some n) := by
  obtain ⟨x, h, ix, p⟩ := coerce_spec (P := P) hc
  have hx : Made ring x := .coerce hc h
  rw [hq] at p
  refine ⟨x, h, ((py_to_number hx).1 q).2 p, fun n hn => ((py_to_number hx).2 n).2 ?_⟩
  rw [p, hn, map_intCast]

variable (atoms : Atoms) {F : Arith} {coeff : ℕ → R → Ball}

/-- C93. `x // y` is the integer `n` if `x = n * y` and `y` is not zero; no approximation is involved (any fuel, any arithmetic of balls, any atoms). In
particular `x // x == 1`. -/
theorem py_floordiv_multiple [FloorInt P] (hv : AlgebraicIndependent ℚ atoms.vals) {ring : P} {x y : Elt P R} (hx : Made ring x) (hy : Made ring y)
    (y0 : Py.poly y ≠ 0) {n : ℤ} (h : Py.poly x = (n : MvPolynomial ℕ AlgReal) * Py.poly y) (fuel : ℕ) : Py.floordiv atoms F coeff fuel x y = .ok n := by
  have ix := made_in hx
  have iy := made_in hy
  obtain ⟨s, hs⟩ := span_in ix iy
  refine floordiv_multiple atoms hv ix.wf iy.wf (unital_noZeroGen ix.unital) (unital_noZeroGen iy.unital) ?_ (nonzero_real hv y0) hs F coeff fuel
  rw [← aeval_poly, ← aeval_poly, h, map_mul, map_intCast]

/-- C93. `x // y` returns for all elements `x` and `y ≠ 0` of the ring; `floor` and `ceil` return for all elements. -/
theorem py_round_returns [FloorInt P] (hF : F.Lawful) (hco : CoeffLawful P coeff) (hv : AlgebraicIndependent ℚ atoms.vals) {ring : P} {x y : Elt P R}
    (hx : Made ring x) (hy : Made ring y) :
    (Py.poly y ≠ 0 → ∃ n N, ∀ fuel, N ≤ fuel → Py.floordiv atoms F coeff fuel x y = .ok n) ∧
    (∃ n N, ∀ fuel, N ≤ fuel → Py.floor atoms F coeff fuel x = .ok n) ∧ (∃ n N, ∀ fuel, N ≤ fuel → Py.ceil atoms F coeff fuel x = .ok n) ∧
    (∃ d N, ∀ fuel, N ≤ fuel → Py.float atoms F coeff fuel x = .ok d) := by
  have ix := made_in hx
  have iy := made_in hy
  obtain ⟨s, hs⟩ := span_in ix iy
  have h := elt_floor_terminates atoms hF hco hv ix.wf (unital_noZeroGen ix.unital)
  refine ⟨fun y0 => ?_, h.1, h.2, elt_double_terminates atoms hF hco hv ix.wf (unital_noZeroGen ix.unital)⟩
  refine floordiv_terminates atoms hF hco hv ix.wf iy.wf (unital_noZeroGen ix.unital) (unital_noZeroGen iy.unital) ?_ hs
  by_contra hb
  exact y0 ((bool_poly iy).1 (by simpa using hb))

/-- C93. `floor` and `ceil` of an integer are that integer. -/
theorem py_floor_integer {ring : P} {x : Elt P R} (hx : Made ring x) {n : ℤ} (h : Py.poly x = MvPolynomial.C (n : AlgReal)) (fuel : ℕ) :
    Py.floor atoms F coeff fuel x = .ok n ∧ Py.ceil atoms F coeff fuel x = .ok n := by
  have hi : x.integer? = some n := Out.ok.inj (((py_to_number hx).2 n).2 h)
  simp [Py.floor, Py.ceil, Elt.floor, Elt.ceil, hi]

/-- C93. What `floor`, `ceil` and `float` return, for every element: right up to a relative error of `2^-61` (`3·2^-53` for `float`), and exactly right if
the balls of the generators contain the generators (for `float`: for elements that are not rational, and for rationals that are not subnormal).
(Not exactly right in general: `elt_floor_fails`, `elt_double_fails`.) -/
theorem py_rounding_partial (hF : F.Lawful) (hco : CoeffLawful P coeff) {ring : P} {x : Elt P R} (hx : Made ring x) {fuel : ℕ} :
    (∀ n : ℤ, Py.floor atoms F coeff fuel x = .ok n → (n - 2 ^ (-(61 : ℤ)) * |x.real atoms.vals| ≤ x.real atoms.vals ∧
      x.real atoms.vals < n + 1 + 2 ^ (-(61 : ℤ)) * |x.real atoms.vals|) ∧ (x.mod.ContainedFrom atoms 64 → n = ⌊x.real atoms.vals⌋)) ∧
    (∀ n : ℤ, Py.ceil atoms F coeff fuel x = .ok n → (n - 1 - 2 ^ (-(61 : ℤ)) * |x.real atoms.vals| < x.real atoms.vals ∧
      x.real atoms.vals ≤ n + 2 ^ (-(61 : ℤ)) * |x.real atoms.vals|) ∧ (x.mod.ContainedFrom atoms 64 → n = ⌈x.real atoms.vals⌉)) ∧
    (∀ d : Double, Py.float atoms F coeff fuel x = .ok d →
      Double.NearestUpTo (3 * 2 ^ (-(53 : ℤ)) * |x.real atoms.vals|) (x.real atoms.vals) d ∧
      (x.mod.ContainedFrom atoms 55 → (Py.toRational x = .ok none ∨ x.real atoms.vals = 0 ∨ 2 ^ (-1022 : ℤ) ≤ |x.real atoms.vals|) →
        Double.NearestUpTo 0 (x.real atoms.vals) d)) := by
  have wx := (made_in hx).wf
  refine ⟨fun n h => ⟨(elt_floor_partial atoms hF hco wx).1 h, fun g => (elt_floor_exact atoms hF hco wx g).1 h⟩,
    fun n h => ⟨(elt_floor_partial atoms hF hco wx).2 h, fun g => (elt_floor_exact atoms hF hco wx g).2 h⟩,
    fun d h => ⟨elt_double_partial atoms hF hco wx h, fun g hn => elt_double_exact atoms hF hco wx g (hn.imp_left Out.ok.inj) h⟩⟩

/-- C93. What `//` says about the quotient, for every pair of elements: it is the floor up to a relative error of `2^-59` of the quotient, and it is the
floor if the balls of the generators contain the generators.  (Not exactly right in general, `floordiv_fails`.) -/
theorem py_floordiv_partial (hF : F.Lawful) (hco : CoeffLawful P coeff) (hv : AlgebraicIndependent ℚ atoms.vals) {ring : P} {x y : Elt P R}
    (hx : Made ring x) (hy : Made ring y) (y0 : Py.poly y ≠ 0) {fuel : ℕ} {n : ℤ} (h : Py.floordiv atoms F coeff fuel x y = .ok n) :
    (n - 2 ^ (-(59 : ℤ)) * |x.real atoms.vals / y.real atoms.vals| ≤ x.real atoms.vals / y.real atoms.vals ∧
      x.real atoms.vals / y.real atoms.vals < n + 1 + 2 ^ (-(59 : ℤ)) * |x.real atoms.vals / y.real atoms.vals|) ∧
    ((∀ s, Mod.span x.mod y.mod = .ok s → s.ContainedFrom atoms 64) → n = ⌊x.real atoms.vals / y.real atoms.vals⌋) :=
  ⟨floordiv_partial atoms hF hco (made_in hx).wf (made_in hy).wf (nonzero_real hv y0) h,
    fun hg => floordiv_exact atoms hF hco (made_in hx).wf (made_in hy).wf hg (nonzero_real hv y0) h⟩

/-- C93. `(x * y) // y` and `x.floor()`: the product is defined, and the two integers, when the calls return, differ by at most one if `x` is less than `2^50`
in absolute value; they are the same if `x` is an integer, or if the balls of the generators contain the generators. -/
theorem py_floordiv_mul_partial [FloorInt P] (hF : F.Lawful) (hco : CoeffLawful P coeff) (hv : AlgebraicIndependent ℚ atoms.vals) {ring : P} {x y : Elt P R}
    (hx : Made ring x) (hy : Made ring y) (y0 : Py.poly y ≠ 0) :
    ∃ z, Py.mul x y = .ok z ∧ ∀ {fuel fuel' : ℕ} {n m : ℤ}, Py.floordiv atoms F coeff fuel z y = .ok n → Py.floor atoms F coeff fuel' x = .ok m →
      (|x.real atoms.vals| ≤ 2 ^ 50 → |n - m| ≤ 1) ∧ ((∃ k : ℤ, Py.poly x = MvPolynomial.C (k : AlgReal)) → n = m) ∧
      (x.mod.ContainedFrom atoms 64 → (∀ s, Mod.span z.mod y.mod = .ok s → s.ContainedFrom atoms 64) → n = m) := by
  obtain ⟨z, hz, iz, pz⟩ := mul_spec (made_in hx) (made_in hy)
  have mz : Made ring z := .mul hx hy hz
  have hy0 := nonzero_real hv y0
  have hq : z.real atoms.vals / y.real atoms.vals = x.real atoms.vals := by
    rw [← aeval_poly _ z, pz, map_mul, aeval_poly, aeval_poly, mul_div_cancel_right₀ _ hy0]
  refine ⟨z, hz, fun {fuel fuel' n m} hn hm => ⟨fun hb => ?_, fun ⟨k, hk⟩ => ?_, fun g1 g2 => ?_⟩⟩
  · obtain ⟨⟨a1, a2⟩, -⟩ := py_floordiv_partial atoms hF hco hv mz hy y0 hn
    obtain ⟨b1, b2⟩ := (elt_floor_partial atoms hF hco (made_in hx).wf (n := m)).1 hm
    rw [hq] at a1 a2
    have e1 : (2 : ℝ) ^ (-(59 : ℤ)) * |x.real atoms.vals| ≤ 1 / 4 := by
      have : (2 : ℝ) ^ (-(59 : ℤ)) * |x.real atoms.vals| ≤ 2 ^ (-(59 : ℤ)) * 2 ^ 50 := mul_le_mul_of_nonneg_left hb (by positivity)
      norm_num at this ⊢
      linarith
    have e2 : (2 : ℝ) ^ (-(61 : ℤ)) * |x.real atoms.vals| ≤ 1 / 4 := by
      have : (2 : ℝ) ^ (-(61 : ℤ)) * |x.real atoms.vals| ≤ 2 ^ (-(61 : ℤ)) * 2 ^ 50 := mul_le_mul_of_nonneg_left hb (by positivity)
      norm_num at this ⊢
      linarith
    generalize (2 : ℝ) ^ (-(59 : ℤ)) * |x.real atoms.vals| = s at a1 a2 e1
    generalize (2 : ℝ) ^ (-(61 : ℤ)) * |x.real atoms.vals| = t at b1 b2 e2
    have c1 : (n : ℝ) < m + 2 := by linarith
    have c2 : (m : ℝ) < n + 2 := by linarith
    have c1' : n < m + 2 := by exact_mod_cast c1
    have c2' : m < n + 2 := by exact_mod_cast c2
    rw [abs_le]
    omega
  · have h1 := py_floordiv_multiple atoms (F := F) (coeff := coeff) hv mz hy y0 (n := k) (by rw [pz, hk]; simp) fuel
    have h2 := (py_floor_integer atoms (F := F) (coeff := coeff) hx hk fuel').1
    rw [hn] at h1
    rw [hm] at h2
    cases h1; cases h2; rfl
  · rw [(py_floordiv_partial atoms hF hco hv mz hy y0 hn).2 g2, hq, (elt_floor_exact atoms hF hco (made_in hx).wf g1).1 hm]

/-- C93. Zero: `0 // y` is zero, for every `y`, even if `y` is zero; `x // 0` is undefined for `x ≠ 0`. -/
theorem py_floordiv_zero {ring : P} {x y : Elt P R} (hx : Made ring x) (hy : Made ring y) (fuel : ℕ) :
    (Py.poly x = 0 → Py.floordiv atoms F coeff fuel x y = .ok 0) ∧
    (Py.poly x ≠ 0 → Py.poly y = 0 → Py.floordiv atoms F coeff (fuel + 1) x y = .ub) := by
  refine ⟨fun h => ?_, fun h1 h2 => ?_⟩
  · have := (bool_poly (made_in hx)).2 h
    simp [Py.floordiv, Elt.floordiv, this]
  · obtain ⟨s, hs⟩ := span_in (made_in hx) (made_in hy)
    refine floordiv_zero atoms (made_in hx).wf (made_in hy).wf ?_ ((bool_poly (made_in hy)).2 h2) hs F coeff fuel
    by_contra hb
    exact h1 ((bool_poly (made_in hx)).1 (by simpa using hb))

/-- C93. Elements of the ring that are equal have the same hash, if they are rational or if the balls of the generators contain the generators. -/
theorem py_hash_partial (hF : F.Lawful) (hco : CoeffLawful P coeff) (hv : AlgebraicIndependent ℚ atoms.vals) (hashDouble : Double → UInt64) {ring : P}
    {x y : Elt P R} (hx : Made ring x) (hy : Made ring y) (he : Py.poly x = Py.poly y)
    (hc : (∃ q : ℚ, Py.poly x = MvPolynomial.C (algebraMap ℚ AlgReal q)) ∨ x.mod.ContainedFrom atoms 55 ∧ y.mod.ContainedFrom atoms 55)
    {fuel fuel' : ℕ} {h k : UInt64} (h1 : Py.hash atoms F coeff hashDouble fuel x = .ok h) (h2 : Py.hash atoms F coeff hashDouble fuel' y = .ok k) : h = k := by
  obtain ⟨e, h, hs⟩ := eq_spec (made_in hx) (made_in hy)
  rw [hs.2 he] at h
  refine elt_hash_partial atoms hF hco hv hashDouble (made_in hx).wf (made_in hy).wf (unital_noZeroGen (made_in hx).unital)
    (unital_noZeroGen (made_in hy).unital) h (hc.imp_left fun ⟨q, hq⟩ => ⟨q, real_of_constant hq _⟩) h1 h2

/-- C93. The documented example `hash(x + 1 - 1) == hash(x)`: the expression is defined, equal to `x`, and if `x` is rational or the balls of the
generators contain the generators then the hashes agree. -/
theorem py_hash_example_partial (hF : F.Lawful) (hco : CoeffLawful P coeff) (hv : AlgebraicIndependent ℚ atoms.vals) (hashDouble : Double → UInt64) {ring : P}
    {x : Elt P R} (hx : Made ring x) : ∃ one y z, Py.coerce ring (1 : R) = .ok one ∧ Py.add x one = .ok y ∧ Py.sub y one = .ok z ∧
      ∀ {fuel fuel' : ℕ} {h k : UInt64}, ((∃ q : ℚ, Py.poly x = MvPolynomial.C (algebraMap ℚ AlgReal q)) ∨
        z.mod.ContainedFrom atoms 55 ∧ x.mod.ContainedFrom atoms 55) →
        Py.hash atoms F coeff hashDouble fuel z = .ok h → Py.hash atoms F coeff hashDouble fuel' x = .ok k → h = k := by
  have h1 : (1 : R) ∈ LawfulCRing.mem ring := Subring.one_mem _
  obtain ⟨one, ho, io, po⟩ := coerce_spec (P := P) h1
  have mo : Made ring one := .coerce h1 ho
  obtain ⟨y, hy, iy, py⟩ := add_spec (made_in hx) io
  have my : Made ring y := .add hx mo hy
  obtain ⟨z, hz, iz, pz⟩ := sub_spec iy io
  have mz : Made ring z := .sub my mo hz
  have hp : Py.poly z = Py.poly x := by rw [pz, py, add_sub_cancel_right]
  exact ⟨one, y, z, ho, hy, hz, fun hc => py_hash_partial atoms hF hco hv hashDouble mz hx hp (hc.imp_left fun ⟨q, hq⟩ => ⟨q, hp.trans hq⟩)⟩

/-- C93. `an_element()` behaves like the zero of the ring although it lives in a module over the default base ring. -/
theorem py_an_element {ring : P} {x : Elt P R} (hx : Made ring x) :
    (∃ z, Py.add Py.anElement x = .ok z ∧ Py.poly z = Py.poly x) ∧ (∃ z, Py.add x Py.anElement = .ok z ∧ Py.poly z = Py.poly x) ∧
    (∃ z, Py.sub x Py.anElement = .ok z ∧ Py.poly z = Py.poly x) ∧ (∃ z, Py.sub Py.anElement x = .ok z ∧ Py.poly z = -Py.poly x) ∧
    (∃ z, Py.mul Py.anElement x = .ok z ∧ Py.poly z = 0) ∧ (∃ z, Py.mul x Py.anElement = .ok z ∧ Py.poly z = 0) ∧
    (∃ e, (Py.anElement : Elt P R).eq x = .ok e ∧ (e = true ↔ Py.poly x = 0)) ∧ Py.toInteger (Py.anElement : Elt P R) = .ok (some 0) ∧
    (∀ fuel, Py.floor atoms F coeff fuel (Py.anElement : Elt P R) = .ok 0 ∧ Py.ceil atoms F coeff fuel (Py.anElement : Elt P R) = .ok 0 ∧
      Py.float atoms F coeff fuel (Py.anElement : Elt P R) = .ok (.fin 0) ∧ Py.floordiv atoms F coeff fuel (Py.anElement : Elt P R) x = .ok 0) := by
  have ix := made_in hx
  obtain ⟨v, hv⟩ := exists_independent
  obtain ⟨w0, b0, v0⟩ := default_value (P := P) (R := R)
  have p0 : Py.poly (Elt.default : Elt P R) = 0 := poly_ext hv (by rw [aeval_poly, v0, map_zero])
  have add1 : ∀ {a b : Elt P R}, a.WF → b.WF → Mod.Joinable a.mod b.mod → Mod.RatAgree a.mod b.mod → ∃ z, Py.add a b = .ok z ∧ Py.poly z = Py.poly a + Py.poly b := by
    intro a b wa wb j r
    obtain ⟨t, ht⟩ := Mod.span_isOk (R := R) wa.mod wb.mod j r
    have hok : ∃ z, a.add b = .ok z := by
      rcases Elt.add_cases wa wb with ⟨s, z', hs, h', -, hm, -⟩ | ⟨-, h', -⟩
      · exact ⟨z', by rw [Elt.add, h']; rfl⟩
      · rw [ht] at h'; cases h'
    obtain ⟨z, hz⟩ := hok
    exact ⟨z, hz, poly_ext hv (by rw [map_add, aeval_poly, aeval_poly, aeval_poly, (add_value wa wb hz).2])⟩
  have mul1 : ∀ {a b : Elt P R}, a.WF → b.WF → a.toBool = false ∨ b.toBool = false → ∃ z, Py.mul a b = .ok z ∧ Py.poly z = Py.poly a * Py.poly b := by
    intro a b wa wb hab
    have hok : ∃ z, a.mul b = .ok z := by
      rcases Elt.mul_cases wa wb with ⟨z, h, -⟩ | ⟨x', -, -, -, ha, hb, -⟩
      · exact ⟨z, by rw [Elt.mul, h]; rfl⟩
      · rw [ha, hb] at hab; simp at hab
    obtain ⟨w, hw⟩ := hok
    obtain ⟨ww, vw⟩ := elt_mul_value wa wb hw
    obtain ⟨z, h, -, f, -⟩ := Elt.simplify_spec ww
    refine ⟨z, by rw [Py.mul, hw]; exact h, ?_⟩
    have : Py.poly z = Py.poly w := by rw [poly_eq, poly_eq, Elt.poly, Elt.poly, f]
    rw [this]
    exact poly_ext hv (by rw [map_mul, aeval_poly, aeval_poly, aeval_poly, vw])
  have ja : Mod.Joinable (Elt.default : Elt P R).mod x.mod := .inl rfl
  have ra : Mod.RatAgree (Elt.default : Elt P R).mod x.mod := fun a b ha => by simp [Elt.default] at ha
  have rb : Mod.RatAgree x.mod (Elt.default : Elt P R).mod := fun a b _ hb => by simp [Elt.default] at hb
  obtain ⟨wn, mn, vn⟩ := neg_value ix.wf
  have pn : Py.poly x.neg = -Py.poly x := poly_ext hv (by rw [map_neg, aeval_poly, aeval_poly, vn])
  have n0 : (Elt.default : Elt P R).neg = Elt.default := rfl
  have i0 : (Elt.default : Elt P R).integer? = some 0 := (integer_iff hv w0 (.inl (by simp [Elt.NoZeroGen, Elt.default])) 0).2 (by rw [v0]; simp)
  have q0 : (Elt.default : Elt P R).rational? = some 0 := (rational_iff hv w0 (.inl (by simp [Elt.NoZeroGen, Elt.default])) 0).2 (by rw [v0]; simp)
  obtain ⟨z1, h1, k1⟩ := add1 w0 ix.wf ja ra
  obtain ⟨z2, h2, k2⟩ := add1 ix.wf w0 ja.symm rb
  obtain ⟨z4, h4, k4⟩ := add1 w0 wn (.inl rfl) (by rw [mn]; exact ra)
  obtain ⟨z5, h5, k5⟩ := mul1 w0 ix.wf (.inl b0)
  obtain ⟨z6, h6, k6⟩ := mul1 ix.wf w0 (.inr b0)
  rw [p0, zero_add] at k1
  rw [p0, add_zero] at k2
  rw [p0, zero_add, pn] at k4
  rw [p0, zero_mul] at k5
  rw [p0, mul_zero] at k6
  refine ⟨⟨z1, h1, k1⟩, ⟨z2, h2, k2⟩, ⟨z2, ?_, k2⟩, ⟨z4, h4, k4⟩, ⟨z5, h5, k5⟩, ⟨z6, h6, k6⟩, ?_, congrArg Out.ok i0, fun fuel => ⟨?_, ?_, ?_, ?_⟩⟩
  · rw [Py.sub, Elt.sub, Elt.subAssign, Py.anElement, n0]; exact h2
  · obtain ⟨e, he⟩ := Elt.eq_isOk w0 ix.wf ja ra
    refine ⟨e, he, ?_⟩
    rw [eq_iff hv w0 ix.wf (by simp [Elt.NoZeroGen, Elt.default]) (unital_noZeroGen ix.unital) he, real_iff hv, p0, eq_comm]
  · rw [Py.floor, Elt.floor, Py.anElement, i0]
  · rw [Py.ceil, Elt.ceil, Py.anElement, i0]
  · rw [Py.float, Elt.toDouble, Py.anElement, q0]
    simp only [Arf.round_zero, Double.ofArf, Double.near_zero]
    rw [if_neg (by norm_num), if_neg (by norm_num)]
  · rw [Py.floordiv, Elt.floordiv, Py.anElement, b0]; rfl

/-- The hypotheses of the theorems are met: a random number `x` and one, in the ring over ℤ, with atoms such that the balls contain the numbers; all calls
return. -/
example : ∃ (atoms : Atoms) (x y z : Elt IntegerRing ℤ) (fuel : ℕ) (n m : ℤ), AlgebraicIndependent ℚ atoms.vals ∧ Made .mk x ∧ Made .mk y ∧
    Py.poly x = MvPolynomial.X 0 ∧ Py.poly y = 1 ∧ Py.poly y ≠ 0 ∧ Py.mul x y = .ok z ∧ Py.floordiv atoms FlintLike.arith IntegerRing.arb fuel z y = .ok n ∧
    Py.floor atoms FlintLike.arith IntegerRing.arb fuel x = .ok m ∧ x.mod.ContainedFrom atoms 64 ∧
    (∀ s, Mod.span z.mod y.mod = .ok s → s.ContainedFrom atoms 64) ∧ n = m := by
  obtain ⟨atoms, hv, h0⟩ := exists_liouville_atoms
  have hc := liouville_contained atoms h0 IntegerRing.mk 64 (by norm_num) (by norm_num)
  have hx : Py.random IntegerRing.mk 0 = .ok (⟨⟨.mk, [.atom 0]⟩, [1]⟩ : Elt IntegerRing ℤ) := by obtain ⟨_ | _, _ | _⟩ := build <;> rfl
  have hy : Py.coerce IntegerRing.mk (1 : ℤ) = .ok (⟨⟨.mk, [.rat 1]⟩, [1]⟩ : Elt IntegerRing ℤ) := by obtain ⟨_ | _, _ | _⟩ := build <;> rfl
  have hz : Py.mul (⟨⟨.mk, [.atom 0]⟩, [1]⟩ : Elt IntegerRing ℤ) ⟨⟨.mk, [.rat 1]⟩, [1]⟩ = .ok ⟨⟨.mk, [.atom 0]⟩, [1]⟩ := by obtain ⟨_ | _, _ | _⟩ := build <;> rfl
  have hs : Mod.span (⟨.mk, [.atom 0]⟩ : Mod IntegerRing) ⟨.mk, [.rat 1]⟩ = .ok ⟨.mk, [.rat 1, .atom 0]⟩ := by obtain ⟨_ | _, _ | _⟩ := build <;> rfl
  have mx := Made.random hx
  have my := Made.coerce (c := (1 : ℤ)) (Subring.one_mem _) hy
  have mz := Made.mul mx my hz
  obtain ⟨x', h1, p1⟩ := (py_elements (P := IntegerRing) (R := ℤ) .mk).1 0
  rw [hx] at h1
  cases h1
  obtain ⟨y', h2, p2⟩ := (py_elements (P := IntegerRing) (R := ℤ) .mk).2 1 (Subring.one_mem _)
  rw [hy] at h2
  cases h2
  rw [map_one, map_one] at p2
  have y0 : Py.poly (⟨⟨.mk, [.rat 1]⟩, [1]⟩ : Elt IntegerRing ℤ) ≠ 0 := by rw [p2]; exact one_ne_zero
  obtain ⟨n, N, hN⟩ := (py_round_returns atoms FlintLike.lawful coeffLawful_int hv mz my).1 y0
  obtain ⟨m, M, hM⟩ := (py_round_returns atoms FlintLike.lawful coeffLawful_int hv mx my).2.1
  have hn := hN (max N M) (le_max_left _ _)
  have hm := hM (max N M) (le_max_right _ _)
  have g1 : (⟨.mk, [.atom 0]⟩ : Mod IntegerRing).ContainedFrom atoms 64 := by
    intro k g hg j
    have hlen : Nat.clog 2 ([.atom 0] : List RN).length = 0 := by decide
    simp only [hlen]
    simp only [List.mem_cons, List.not_mem_nil, or_false] at hg
    subst hg
    rw [random_contains_iff atoms h0, liouvilleDigits_first]
    left
    rw [← Bool.not_eq_true, liouvilleDigits_digit]
    rintro ⟨n, hn, h⟩
    have h2 : 2 ∣ n.factorial := Nat.dvd_factorial (by norm_num) hn
    have h4 : 2 ∣ 64 * 2 ^ k * 2 ^ j := Dvd.dvd.mul_right (Dvd.dvd.mul_right (by norm_num) _) _
    rw [h, add_zero] at h2
    generalize 64 * 2 ^ k * 2 ^ j = t at h2 h4
    omega
  have g2 : ∀ s, Mod.span (⟨.mk, [.atom 0]⟩ : Mod IntegerRing) ⟨.mk, [.rat 1]⟩ = .ok s → s.ContainedFrom atoms 64 := fun s h => by
    rw [hs] at h; cases h; exact hc
  refine ⟨atoms, _, _, _, max N M, n, m, hv, mx, my, p1, p2, y0, hz, hn, hm, g1, g2, ?_⟩
  obtain ⟨z', hz', h⟩ := py_floordiv_mul_partial atoms FlintLike.lawful coeffLawful_int hv mx my y0
  rw [hz] at hz'
  cases hz'
  exact (h hn hm).2.2 g1 g2

end ExactReal.Props
