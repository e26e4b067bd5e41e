import Verif.Model.PythonSquare
import Verif.Props.Python
import Verif.Props.Convert
import Verif.Props.ElementRound
import Mathlib.Algebra.MvPolynomial.NoZeroDivisors

/-!
# C89: `is_square` of the Python ring
-/

namespace ExactReal.Props
open ExactReal Py PyLemma

section
variable {P : Type} [DecidableEq P] {R : Type} [CommRing R] [DecidableEq R] [CRing P R] [LawfulCRing P] [LawfulScalar P] [build : Build]

/-- In the ring, the square roots of elements of the base ring are elements of the base ring. -/
theorem square_constant {ring : P} {x : Elt P R} {w : AlgReal} (hw : Py.poly x = MvPolynomial.C w) :
    (∃ z : Elt P R, Made ring z ∧ Py.poly z * Py.poly z = Py.poly x) ↔ ∃ u ∈ LawfulCRing.mem (P := P) (R := R) ring, LawfulCRing.emb P u * LawfulCRing.emb P u = w := by
  constructor
  · rintro ⟨z, mz, hz⟩
    rw [hw] at hz
    have hc : ∃ a, Py.poly z = MvPolynomial.C a := by
      by_cases h0 : Py.poly z = 0
      · exact ⟨0, by rw [h0, map_zero]⟩
      · have hd := MvPolynomial.totalDegree_mul_of_isDomain h0 h0
        rw [hz, MvPolynomial.totalDegree_C] at hd
        exact ⟨_, MvPolynomial.totalDegree_eq_zero_iff_eq_C.1 (by omega)⟩
    obtain ⟨a, ha⟩ := hc
    have hb := coeff_base (made_in mz) 0
    rw [ha, MvPolynomial.coeff_zero_C] at hb
    obtain ⟨u, hu, rfl⟩ := hb
    refine ⟨u, hu, ?_⟩
    rw [ha, ← map_mul] at hz
    exact MvPolynomial.C_injective _ _ hz
  · rintro ⟨u, hu, h⟩
    obtain ⟨z, hz, -, pz⟩ := coerce_spec (P := P) hu
    exact ⟨z, .coerce hu hz, by rw [pz, hw, ← map_mul, h]⟩

/-- C89. `x.is_square()` is right whenever it answers: `True` exactly if `x` is the square of an element of the ring.  Here `convert` is any conversion to the
base ring that is right when it returns, and `square` decides whether an element of the base ring is a square in the base ring. -/
theorem py_is_square {K : Type} {ring : P} {convert : Elt P R → Out (Option K)} {square : K → Bool} (value : K → R)
    (hs : ∀ k, square k = true ↔ ∃ u ∈ LawfulCRing.mem (P := P) (R := R) ring, u * u = value k) {x : Elt P R}
    (hc : ∀ k, convert x = .ok (some k) → Py.poly x = MvPolynomial.C (LawfulCRing.emb P (value k)))
    {r : Bool} (h : Py.isSquare convert square x = .ok (some r)) : r = true ↔ ∃ z, Made ring z ∧ Py.poly z * Py.poly z = Py.poly x := by
  rw [Py.isSquare] at h
  cases hk : convert x with
  | ok k =>
    rw [hk, Out.ok_bind] at h
    cases k with
    | none => cases h
    | some k =>
      cases h
      rw [hs, square_constant (hc k hk)]
      simp only [← map_mul, (LawfulCRing.emb_injective (P := P)).eq_iff]
  | _ => rw [hk] at h; cases h

theorem poly_of_real {x : Elt P R} {w : AlgReal} (h : ∀ v : ℕ → ℝ, x.real v = algebraMap AlgReal ℝ w) : Py.poly x = MvPolynomial.C w := by
  obtain ⟨v, hv⟩ := exists_independent
  refine poly_ext hv ?_
  rw [aeval_poly, h, MvPolynomial.aeval_C]

end

section
variable {P : Type} [DecidableEq P] {R : Type} [CommRing R] [DecidableEq R] [CRing P R] [LawfulCRing P] [LawfulScalar P] [build : Build]

/-- The elements that are numbers in the base ring. -/
theorem constant_base {ring : P} {x : Elt P R} (hx : Made ring x) {c : AlgReal} (h : Py.poly x = MvPolynomial.C c) :
    ∃ u : R, LawfulCRing.emb P u = c ∧ ∀ v : ℕ → ℝ, x.real v = Elt.num P u := by
  have hb := coeff_base (made_in hx) 0
  rw [h, MvPolynomial.coeff_zero_C] at hb
  obtain ⟨u, -, rfl⟩ := hb
  refine ⟨u, rfl, fun v => ?_⟩
  rw [← aeval_poly, h, MvPolynomial.aeval_C]
  rfl

end

section
variable [build : Build]

/-- C89. Over ℤ, `is_square` answers exactly for the integers, and it is right. -/
theorem py_is_square_integers {x : Elt IntegerRing ℤ} (hx : Made .mk x) {square : ℤ → Bool} (hs : ∀ n, square n = true ↔ IsSquare n) :
    ∃ r, Py.isSquare Py.toInteger square x = .ok r ∧ (r.isSome = true ↔ ∃ c, Py.poly x = MvPolynomial.C c) ∧
      ∀ b, r = some b → (b = true ↔ ∃ z : Elt IntegerRing ℤ, Made .mk z ∧ Py.poly z * Py.poly z = Py.poly x) := by
  have key : ∀ n : ℤ, x.integer? = some n → Py.poly x = MvPolynomial.C (LawfulCRing.emb IntegerRing n) := fun n hn =>
    poly_of_real fun v => by rw [integer_sound hn v]; exact (num_int n).symm
  obtain ⟨v, hv⟩ := exists_independent
  refine ⟨x.integer?.map square, ?_, ?_, fun b hb => ?_⟩
  · rw [Py.isSquare, Py.toInteger, Out.ok_bind]
    cases x.integer? <;> rfl
  · rw [Option.isSome_map]
    constructor
    · intro h
      obtain ⟨n, hn⟩ := Option.isSome_iff_exists.1 h
      exact ⟨_, key n hn⟩
    · rintro ⟨c, hc⟩
      obtain ⟨u, -, hu⟩ := constant_base hx hc
      rw [(integer_iff hv (made_in hx).wf (.inr integer_rational_coefficients.1) u).2 (by rw [hu, num_int]; push_cast; rfl)]
      rfl
  · refine py_is_square (ring := IntegerRing.mk) (convert := Py.toInteger) (square := square) id (fun k => ?_) (fun k hk => key k (by cases h : x.integer? <;> simp_all [Py.toInteger])) ?_
    · rw [hs, IsSquare]
      exact ⟨fun ⟨u, h⟩ => ⟨u, trivial, h.symm⟩, fun ⟨u, _, h⟩ => ⟨u, h.symm⟩⟩
    · rw [Py.isSquare, Py.toInteger, Out.ok_bind]
      cases hi : x.integer? with
      | none => rw [hi] at hb; cases hb
      | some n => rw [hi] at hb; cases hb; rfl

/-- C89. Over ℚ, `is_square` answers exactly for the rational numbers, and it is right. -/
theorem py_is_square_rationals {x : Elt RationalField ℚ} (hx : Made .mk x) {square : ℚ → Bool} (hs : ∀ n, square n = true ↔ IsSquare n) :
    ∃ r, Py.isSquare Py.toRational square x = .ok r ∧ (r.isSome = true ↔ ∃ c, Py.poly x = MvPolynomial.C c) ∧
      ∀ b, r = some b → (b = true ↔ ∃ z : Elt RationalField ℚ, Made .mk z ∧ Py.poly z * Py.poly z = Py.poly x) := by
  have key : ∀ n : ℚ, x.rational? = some n → Py.poly x = MvPolynomial.C (LawfulCRing.emb RationalField n) := fun n hn =>
    poly_of_real fun v => by rw [rational_sound hn v]; exact (num_rat n).symm
  obtain ⟨v, hv⟩ := exists_independent
  refine ⟨x.rational?.map square, ?_, ?_, fun b hb => ?_⟩
  · rw [Py.isSquare, Py.toRational, Out.ok_bind]
    cases x.rational? <;> rfl
  · rw [Option.isSome_map]
    constructor
    · intro h
      obtain ⟨n, hn⟩ := Option.isSome_iff_exists.1 h
      exact ⟨_, key n hn⟩
    · rintro ⟨c, hc⟩
      obtain ⟨u, -, hu⟩ := constant_base hx hc
      rw [(rational_iff hv (made_in hx).wf (.inr integer_rational_coefficients.2) u).2 (by rw [hu, num_rat])]
      rfl
  · refine py_is_square (ring := RationalField.mk) (convert := Py.toRational) (square := square) id (fun k => ?_) (fun k hk => key k (by cases h : x.rational? <;> simp_all [Py.toRational])) ?_
    · rw [hs, IsSquare]
      exact ⟨fun ⟨u, h⟩ => ⟨u, trivial, h.symm⟩, fun ⟨u, _, h⟩ => ⟨u, h.symm⟩⟩
    · rw [Py.isSquare, Py.toRational, Out.ok_bind]
      cases hi : x.rational? with
      | none => rw [hi] at hb; cases hb
      | some n => rw [hi] at hb; cases hb; rfl

/-- C89. Over a number field `K`, with the conversion of C73: `is_square` answers exactly for the elements of `K`, and it is right. -/
theorem py_is_square_field {ring : NumberField} {x : Elt NumberField AlgReal} (hx : Made ring x) {square : AlgReal → Bool}
    (hs : ∀ n, square n = true ↔ ∃ u ∈ LawfulCRing.mem (P := NumberField) (R := AlgReal) ring, u * u = n) :
    ∃ r, Py.isSquare (Py.algebraic id) square x = .ok r ∧ (r.isSome = true ↔ ∃ c, Py.poly x = MvPolynomial.C c) ∧
      ∀ b, r = some b → (b = true ↔ ∃ z : Elt NumberField AlgReal, Made ring z ∧ Py.poly z * Py.poly z = Py.poly x) := by
  obtain ⟨v, hv⟩ := exists_independent
  obtain ⟨a, h1, h2, h3⟩ := py_algebraic (P := NumberField) (ι := id) (j := algebraMap AlgReal ℝ) (fun c => rfl) hx
  have key : ∀ k, a = some k → Py.poly x = MvPolynomial.C (LawfulCRing.emb NumberField k) := fun k hk => poly_of_real fun v => (h2 k hk v).symm
  have hsq : Py.isSquare (Py.algebraic id) square x = .ok (a.map square) := by
    rw [Py.isSquare, h1, Out.ok_bind]
    cases a <;> rfl
  refine ⟨a.map square, hsq, ?_, fun b hb => ?_⟩
  · rw [Option.isSome_map]
    constructor
    · intro h
      obtain ⟨n, hn⟩ := Option.isSome_iff_exists.1 h
      exact ⟨_, key n hn⟩
    · rintro ⟨c, hc⟩
      rw [h3 v hv, ← aeval_poly, hc, MvPolynomial.aeval_C]
      exact mem_algebraicClosure_iff.1 c.2
  · refine py_is_square (ring := ring) (convert := Py.algebraic id) (square := square) id hs (fun k hk => key k ?_) (hsq.trans (by rw [hb]))
    rw [h1] at hk
    cases hk; rfl

/-- Over ℤ: 4 is a square, 2 is not, and there is no answer for a random number. -/
example {square : ℤ → Bool} (hs : ∀ n, square n = true ↔ IsSquare n) : ∃ x y z : Elt IntegerRing ℤ, Made .mk x ∧ Made .mk y ∧ Made .mk z ∧
    Py.isSquare Py.toInteger square x = .ok (some true) ∧ Py.isSquare Py.toInteger square y = .ok (some false) ∧
    Py.isSquare Py.toInteger square z = .ok none := by
  obtain ⟨x, hx, -, px⟩ := coerce_spec (P := IntegerRing) (R := ℤ) (ring := .mk) (c := 4) trivial
  obtain ⟨y, hy, -, py⟩ := coerce_spec (P := IntegerRing) (R := ℤ) (ring := .mk) (c := 2) trivial
  obtain ⟨z, hz, -, pz⟩ := random_spec (P := IntegerRing) (R := ℤ) .mk 0
  have mx : Made IntegerRing.mk x := .coerce trivial hx
  have my : Made IntegerRing.mk y := .coerce trivial hy
  have mz : Made IntegerRing.mk z := .random hz
  obtain ⟨v, hv⟩ := exists_independent
  have ix : x.integer? = some 4 := (integer_iff hv (made_in mx).wf (.inr integer_rational_coefficients.1) 4).2 (by rw [← aeval_poly, px, MvPolynomial.aeval_C]; exact num_int 4)
  have iy : y.integer? = some 2 := (integer_iff hv (made_in my).wf (.inr integer_rational_coefficients.1) 2).2 (by rw [← aeval_poly, py, MvPolynomial.aeval_C]; exact num_int 2)
  refine ⟨x, y, z, mx, my, mz, ?_, ?_, ?_⟩
  · rw [Py.isSquare, Py.toInteger, ix, Out.ok_bind]
    simp only [(hs 4).2 ⟨2, rfl⟩]
  · have h2 : ¬ IsSquare (2 : ℤ) := Int.prime_two.irreducible.not_isSquare
    rw [Py.isSquare, Py.toInteger, iy, Out.ok_bind]
    simp only [Bool.eq_false_iff.2 fun h => h2 ((hs 2).1 h)]
  · obtain ⟨r, hr, h1, -⟩ := py_is_square_integers mz hs
    cases r with
    | none => exact hr
    | some b =>
      exfalso
      obtain ⟨c, hc⟩ := h1.1 rfl
      rw [pz] at hc
      have := congrArg MvPolynomial.totalDegree hc
      rw [MvPolynomial.totalDegree_X, MvPolynomial.totalDegree_C] at this
      omega

end

end ExactReal.Props
