import Verif.Spec.Python
import Verif.Props.TrueDiv
import Verif.Props.Scalar
import Verif.Props.Convert
import Verif.Props.Module
import Verif.Props.ElementOrder
import Mathlib.Algebra.MvPolynomial.Nilpotent

/-!
# C70–C73: the ring `ExactReals(K)` of the Python package
-/

namespace ExactReal.Props

variable {P : Type} [DecidableEq P] {R : Type} [CommRing R] [DecidableEq R] [CRing P R] [LawfulCRing P] [LawfulScalar P]
variable [build : Build]

namespace PyLemma
open Py

omit [LawfulScalar P] build in
theorem poly_eq (x : Elt P R) : Py.poly x = x.poly := Elt.value_eq_evalF _ _ _

omit [LawfulScalar P] build in
theorem aeval_poly (v : ℕ → ℝ) (x : Elt P R) : MvPolynomial.aeval v (Py.poly x) = x.real v := by
  rw [poly_eq, Elt.poly, Elt.aeval_polyF, Elt.real_eq_evalF]

omit build in
/-- A polynomial is determined by its values at independent numbers. -/
theorem poly_ext {v : ℕ → ℝ} (hv : AlgebraicIndependent ℚ v) {p q : MvPolynomial ℕ AlgReal} (h : MvPolynomial.aeval v p = MvPolynomial.aeval v q) : p = q := by
  have := Elt.independent_alg hv
  rw [algebraicIndependent_iff_injective_aeval] at this
  exact this h

omit [LawfulScalar P] build in
theorem real_iff {v : ℕ → ℝ} (hv : AlgebraicIndependent ℚ v) (x y : Elt P R) : x.real v = y.real v ↔ Py.poly x = Py.poly y := by
  rw [← aeval_poly, ← aeval_poly]
  exact ⟨poly_ext hv, fun h => by rw [h]⟩

/-- What is known about the elements of the ring. -/
structure In (ring : P) (x : Elt P R) : Prop where
  wf : x.WF
  par : x.mod.par = ring
  unital : x.mod.Unital

omit [LawfulScalar P] build in
theorem compat {ring : P} {x y : Elt P R} (hx : In ring x) (hy : In ring y) : (CRing.compositum x.mod.par y.mod.par).isOk = true := by
  rw [hx.par, hy.par, LawfulCRing.compositum_self]; rfl

omit [LawfulScalar P] build in
theorem single_in {ring : P} {g : RN} (hg : g.WF) (h1 : ∀ q, g = .rat q → q = 1) {c : R} (hc : c ∈ LawfulCRing.mem ring) :
    In ring (⟨⟨ring, [g]⟩, [c]⟩ : Elt P R) ∧ Py.poly (⟨⟨ring, [g]⟩, [c]⟩ : Elt P R) = MvPolynomial.C (LawfulCRing.emb P c) * g.value MvPolynomial.X := by
  refine ⟨⟨Elt.term_WF hg hc, rfl, ?_⟩, ?_⟩
  · intro q hq
    exact h1 q (by simpa using Eq.symm (List.mem_singleton.1 hq))
  · simp [Py.poly, Elt.value, Elt.terms]

omit [LawfulScalar P] in
theorem random_spec (ring : P) (i : ℕ) : ∃ z : Elt P R, Py.random ring i = .ok z ∧ In ring z ∧ Py.poly z = MvPolynomial.X i := by
  refine ⟨⟨⟨ring, [.atom i]⟩, [1]⟩, ?_, ?_⟩
  · rw [Py.random, Elt.make_singleton]
    simp [Elt.ofCoefficients, assertThat]
  · have := single_in (P := P) (R := R) (ring := ring) (g := .atom i) (by trivial) (by intro q hq; cases hq) (Subring.one_mem _)
    exact ⟨this.1, by rw [this.2]; simp [RN.value]⟩

theorem lmul_spec {ring : P} {c : R} (hc : c ∈ LawfulCRing.mem ring) {x : Elt P R} (hx : In ring x) :
    ∃ z : Elt P R, Py.lmul c x = .ok z ∧ In ring z ∧ Py.poly z = MvPolynomial.C (LawfulCRing.emb P c) * Py.poly x := by
  obtain ⟨y, hy, wy, my, vy⟩ := imulR_value hx.wf (s := c) (by rw [hx.par]; exact hc)
  refine ⟨y, by rw [Py.lmul, hy]; rfl, ⟨wy, by rw [my]; exact hx.par, by rw [my]; exact hx.unital⟩, ?_⟩
  obtain ⟨v, hv⟩ := exists_independent
  refine poly_ext hv ?_
  rw [aeval_poly, map_mul, aeval_poly, vy, MvPolynomial.aeval_C, _root_.mul_comm]
  rfl

theorem coerce_spec {ring : P} {c : R} (hc : c ∈ LawfulCRing.mem ring) :
    ∃ z : Elt P R, Py.coerce ring c = .ok z ∧ In ring z ∧ Py.poly z = MvPolynomial.C (LawfulCRing.emb P c) := by
  obtain ⟨h1, h2⟩ := single_in (P := P) (R := R) (ring := ring) (g := .rat 1) (by trivial) (by intro q hq; cases hq; rfl) (Subring.one_mem _)
  obtain ⟨z, hz, iz, pz⟩ := lmul_spec hc h1
  refine ⟨z, ?_, iz, ?_⟩
  · rw [← hz, Py.coerce, Py.rational, Elt.make_singleton]
    simp [Elt.ofCoefficients, assertThat]
  · rw [pz, h2]; simp [RN.value]

omit [LawfulScalar P] in
theorem add_spec {ring : P} {x y : Elt P R} (hx : In ring x) (hy : In ring y) :
    ∃ z, Py.add x y = .ok z ∧ In ring z ∧ Py.poly z = Py.poly x + Py.poly y := by
  obtain ⟨z, hz⟩ := Elt.add_defined hx.wf hy.wf hx.par hy.par hx.unital hy.unital
  obtain ⟨wz, vz⟩ := add_value hx.wf hy.wf hz
  refine ⟨z, hz, ⟨wz, Elt.add_par hx.wf hy.wf hx.par hy.par hz, Elt.add_unital hx.wf hy.wf hx.unital hy.unital hz⟩, ?_⟩
  obtain ⟨v, hv⟩ := exists_independent
  exact poly_ext hv (by rw [map_add, aeval_poly, aeval_poly, aeval_poly, vz])

omit [LawfulScalar P] in
theorem neg_spec {ring : P} {x : Elt P R} (hx : In ring x) : ∃ z, Py.neg x = .ok z ∧ In ring z ∧ Py.poly z = -Py.poly x := by
  obtain ⟨w, m, vz⟩ := neg_value hx.wf
  refine ⟨x.neg, rfl, ⟨w, by rw [m]; exact hx.par, by rw [m]; exact hx.unital⟩, ?_⟩
  obtain ⟨v, hv⟩ := exists_independent
  exact poly_ext hv (by rw [map_neg, aeval_poly, aeval_poly, vz])

omit [LawfulScalar P] in
theorem sub_spec {ring : P} {x y : Elt P R} (hx : In ring x) (hy : In ring y) :
    ∃ z, Py.sub x y = .ok z ∧ In ring z ∧ Py.poly z = Py.poly x - Py.poly y := by
  obtain ⟨w, hw, iw, pw⟩ := neg_spec hy
  cases hw
  obtain ⟨z, hz, iz, pz⟩ := add_spec hx iw
  exact ⟨z, hz, iz, by rw [pz, pw, sub_eq_add_neg]⟩

omit [LawfulScalar P] in
theorem simplify_in {ring : P} {x : Elt P R} (hx : In ring x) : ∃ z, x.simplify = .ok z ∧ In ring z ∧ Py.poly z = Py.poly x := by
  obtain ⟨y, h, w, f, p, b⟩ := Elt.simplify_spec hx.wf
  refine ⟨y, h, ⟨w, p.trans hx.par, fun q hq => hx.unital q (Elt.fs_support_WF hx.wf ((b _).1 hq)).1⟩, ?_⟩
  rw [poly_eq, poly_eq, Elt.poly, Elt.poly, f]

omit [LawfulScalar P] in
theorem mul_spec {ring : P} {x y : Elt P R} (hx : In ring x) (hy : In ring y) :
    ∃ z, Py.mul x y = .ok z ∧ In ring z ∧ Py.poly z = Py.poly x * Py.poly y := by
  obtain ⟨w, hw⟩ := Elt.mul_defined hx.wf hy.wf hx.par hy.par hx.unital hy.unital
  obtain ⟨ww, vw⟩ := elt_mul_value hx.wf hy.wf hw
  obtain ⟨z, hz, iz, pz⟩ := simplify_in (ring := ring)
    ⟨ww, Elt.mul_par hx.wf hy.wf hx.par hy.par hw, Elt.mul_unital hx.wf hy.wf hx.unital hy.unital hw⟩
  refine ⟨z, by rw [Py.mul, hw]; exact hz, iz, ?_⟩
  obtain ⟨v, hv⟩ := exists_independent
  rw [pz]
  exact poly_ext hv (by rw [map_mul, aeval_poly, aeval_poly, aeval_poly, vw])

theorem div_ok {ring : P} {x y z : Elt P R} (hx : In ring x) (hy : In ring y) {fuel : ℕ} (h : Py.div fuel x y = .ok (some z)) :
    In ring z ∧ Py.poly z * Py.poly y = Py.poly x := by
  rw [Py.div, Out.bind_eq_ok] at h
  obtain ⟨r, hr, h⟩ := h
  cases r with
  | none => cases h
  | some q =>
    obtain ⟨w, vq, u, p⟩ := truediv_facts hx.wf hy.wf hr
    have hp : q.mod.par = ring := by
      rcases p with p | p | p
      · exact p.trans hx.par
      · exact p.trans hy.par
      · rw [hx.par, hy.par, LawfulCRing.compositum_self] at p; cases p; rfl
    obtain ⟨z', hz', iz, pz⟩ := simplify_in (ring := ring) ⟨w, hp, u hx.unital hy.unital⟩
    replace h : (q.simplify >>= fun q => Out.ok (some q)) = .ok (some z) := h
    rw [hz'] at h
    cases h
    refine ⟨iz, ?_⟩
    obtain ⟨v, hv⟩ := exists_independent
    rw [pz]
    exact poly_ext hv (by rw [map_mul, aeval_poly, aeval_poly, aeval_poly, vq])

theorem made_in {ring : P} {x : Elt P R} (h : Made ring x) : In ring x := by
  induction h with
  | random h => obtain ⟨z, hz, iz, -⟩ := random_spec (P := P) (R := R) ring _; rw [hz] at h; cases h; exact iz
  | coerce hc h => obtain ⟨z, hz, iz, -⟩ := coerce_spec (P := P) hc; rw [hz] at h; cases h; exact iz
  | lmul _ hc h ih => obtain ⟨z, hz, iz, -⟩ := lmul_spec hc ih; rw [hz] at h; cases h; exact iz
  | add _ _ h ih ih' => obtain ⟨z, hz, iz, -⟩ := add_spec ih ih'; rw [hz] at h; cases h; exact iz
  | sub _ _ h ih ih' => obtain ⟨z, hz, iz, -⟩ := sub_spec ih ih'; rw [hz] at h; cases h; exact iz
  | neg _ h ih => obtain ⟨z, hz, iz, -⟩ := neg_spec ih; rw [hz] at h; cases h; exact iz
  | mul _ _ h ih ih' => obtain ⟨z, hz, iz, -⟩ := mul_spec ih ih'; rw [hz] at h; cases h; exact iz
  | div _ _ h ih ih' => exact (div_ok ih ih' h).1
  | simplify _ h ih => obtain ⟨z, hz, iz, -⟩ := simplify_in ih; rw [hz] at h; cases h; exact iz

omit [LawfulScalar P] in
/-- `==` of the C++ library is defined in the ring and exact. -/
theorem eq_spec {ring : P} {x y : Elt P R} (hx : In ring x) (hy : In ring y) : ∃ e, x.eq y = .ok e ∧ (e = true ↔ Py.poly x = Py.poly y) := by
  obtain ⟨v, hv⟩ := exists_independent
  rcases Elt.eq_cases hx.wf hy.wf with ⟨e, h, -⟩ | ⟨-, h, -⟩
  · exact ⟨e, h, by rw [eq_iff hv hx.wf hy.wf (unital_noZeroGen hx.unital) (unital_noZeroGen hy.unital) h, real_iff hv]⟩
  · obtain ⟨t, ht⟩ := Mod.span_isOk (R := R) hx.wf.mod hy.wf.mod (.inr (.inr (compat hx hy))) fun a b ha hb => (hx.unital a ha).trans (hy.unital b hb).symm
    rw [ht] at h; cases h

theorem coeff_base {ring : P} {x : Elt P R} (hx : In ring x) (e : ℕ →₀ ℕ) : (Py.poly x).coeff e ∈ Py.base ring := by
  rw [poly_eq]
  rcases Elt.coeff_poly_mem hx.wf hx.unital e with h | ⟨g, -, -, h⟩
  · rw [h]; exact Subring.zero_mem _
  · rw [h]; exact ⟨_, by have := Elt.coeff_mem_of_fs hx.wf g; rwa [hx.par] at this, rfl⟩

end PyLemma

open PyLemma Py

/-! ### C70 -/

/-- C70. Random elements and the elements of the base ring exist in the ring: a random element is a new variable, an element of `K` is a constant. -/
theorem py_elements (ring : P) : (∀ i, ∃ z : Elt P R, Py.random ring i = .ok z ∧ Py.poly z = MvPolynomial.X i) ∧
    (∀ c ∈ LawfulCRing.mem ring, ∃ z : Elt P R, Py.coerce ring c = .ok z ∧ Py.poly z = MvPolynomial.C (LawfulCRing.emb P c)) := by
  refine ⟨fun i => ?_, fun c hc => ?_⟩
  · obtain ⟨z, h, -, p⟩ := random_spec (P := P) (R := R) ring i; exact ⟨z, h, p⟩
  · obtain ⟨z, h, -, p⟩ := coerce_spec (P := P) hc; exact ⟨z, h, p⟩

/-- C70. Ring operations on elements of `ExactReals(K)` never raise an exception, and they are the operations of the polynomial ring over `K`. -/
theorem py_operations {ring : P} {x y : Elt P R} (hx : Made ring x) (hy : Made ring y) :
    (∃ z, Py.add x y = .ok z ∧ Py.poly z = Py.poly x + Py.poly y) ∧
    (∃ z, Py.sub x y = .ok z ∧ Py.poly z = Py.poly x - Py.poly y) ∧
    (∃ z, Py.mul x y = .ok z ∧ Py.poly z = Py.poly x * Py.poly y) ∧
    (∃ z, Py.neg x = .ok z ∧ Py.poly z = -Py.poly x) ∧
    (∃ z, x.simplify = .ok z ∧ Py.poly z = Py.poly x) ∧
    (∀ c ∈ LawfulCRing.mem ring, ∃ z, Py.lmul c x = .ok z ∧ Py.poly z = MvPolynomial.C (LawfulCRing.emb P c) * Py.poly x) := by
  have ix := made_in hx
  have iy := made_in hy
  refine ⟨?_, ?_, ?_, ?_, ?_, fun c hc => ?_⟩
  · obtain ⟨z, h, -, p⟩ := add_spec ix iy; exact ⟨z, h, p⟩
  · obtain ⟨z, h, -, p⟩ := sub_spec ix iy; exact ⟨z, h, p⟩
  · obtain ⟨z, h, -, p⟩ := mul_spec ix iy; exact ⟨z, h, p⟩
  · obtain ⟨z, h, -, p⟩ := neg_spec ix; exact ⟨z, h, p⟩
  · obtain ⟨z, h, -, p⟩ := simplify_in ix; exact ⟨z, h, p⟩
  · obtain ⟨z, h, -, p⟩ := lmul_spec hc ix; exact ⟨z, h, p⟩

/-- C70. Every polynomial over `K` in the random numbers is an element of the ring, and there are no others. -/
theorem py_surjective (ring : P) (p : MvPolynomial ℕ AlgReal) : (∃ x : Elt P R, Made ring x ∧ Py.poly x = p) ↔ ∀ e, p.coeff e ∈ Py.base (R := R) ring := by
  constructor
  · rintro ⟨x, hx, rfl⟩ e
    exact coeff_base (made_in hx) e
  intro hp
  have add : ∀ p q : MvPolynomial ℕ AlgReal, (∃ x : Elt P R, Made ring x ∧ Py.poly x = p) → (∃ x : Elt P R, Made ring x ∧ Py.poly x = q) →
      ∃ x : Elt P R, Made ring x ∧ Py.poly x = p + q := by
    rintro _ _ ⟨x, hx, rfl⟩ ⟨y, hy, rfl⟩
    obtain ⟨z, hz, -, pz⟩ := add_spec (made_in hx) (made_in hy)
    exact ⟨z, .add hx hy hz, pz⟩
  have mul : ∀ p q : MvPolynomial ℕ AlgReal, (∃ x : Elt P R, Made ring x ∧ Py.poly x = p) → (∃ x : Elt P R, Made ring x ∧ Py.poly x = q) →
      ∃ x : Elt P R, Made ring x ∧ Py.poly x = p * q := by
    rintro _ _ ⟨x, hx, rfl⟩ ⟨y, hy, rfl⟩
    obtain ⟨z, hz, -, pz⟩ := mul_spec (made_in hx) (made_in hy)
    exact ⟨z, .mul hx hy hz, pz⟩
  have const : ∀ c ∈ Py.base (R := R) ring, ∃ x : Elt P R, Made ring x ∧ Py.poly x = MvPolynomial.C c := by
    rintro _ ⟨c, hc, rfl⟩
    obtain ⟨z, hz, -, pz⟩ := coerce_spec (P := P) (ring := ring) (c := c) hc
    exact ⟨z, .coerce hc hz, pz⟩
  have var : ∀ i, ∃ x : Elt P R, Made ring x ∧ Py.poly x = MvPolynomial.X i := fun i => by
    obtain ⟨z, hz, -, pz⟩ := random_spec (P := P) (R := R) ring i
    exact ⟨z, .random hz, pz⟩
  have pow : ∀ i n, ∃ x : Elt P R, Made ring x ∧ Py.poly x = MvPolynomial.X i ^ n := fun i n => by
    induction n with
    | zero => simpa using const 1 (Subring.one_mem _)
    | succ n ih => rw [pow_succ]; exact mul _ _ ih (var i)
  rw [p.as_sum]
  refine Finset.sum_induction _ (fun q => ∃ x : Elt P R, Made ring x ∧ Py.poly x = q) add (by simpa using const 0 (Subring.zero_mem _)) fun e _ => ?_
  rw [MvPolynomial.monomial_eq]
  refine mul _ _ (const _ (hp e)) ?_
  exact Finset.prod_induction _ (fun q => ∃ x : Elt P R, Made ring x ∧ Py.poly x = q) mul (by simpa using const 1 (Subring.one_mem _)) fun i _ => pow i _

/-! ### C71 -/

omit [LawfulScalar P] build in
theorem bool_poly {ring : P} {x : Elt P R} (hx : In ring x) : x.toBool = false ↔ Py.poly x = 0 := by
  obtain ⟨v, hv⟩ := exists_independent
  rw [bool_iff hv hx.wf (unital_noZeroGen hx.unital), ← aeval_poly, ← map_zero (MvPolynomial.aeval (R := AlgReal) v)]
  exact ⟨poly_ext hv, fun h => by rw [h]⟩

/-- An element of the ring with the same polynomial can be made. -/
theorem in_made {ring : P} {x : Elt P R} (hx : In ring x) : ∃ z, Made ring z ∧ Py.poly z = Py.poly x :=
  (py_surjective ring _).2 (coeff_base hx)

theorem div_spec {ring : P} {x y : Elt P R} (hx : In ring x) (hy : In ring y) (y0 : Py.poly y ≠ 0) :
    (∃ N r, ∀ fuel ≥ N, Py.div fuel x y = .ok r) ∧
    ∀ fuel, Py.div fuel x y = .ok none → ¬∃ z, In ring z ∧ Py.poly z * Py.poly y = Py.poly x := by
  have hb : y.toBool = true := by
    cases h : y.toBool with
    | true => rfl
    | false => exact absurd ((bool_poly hy).1 h) y0
  constructor
  · obtain ⟨N, r, h⟩ := truediv_terminates hx.wf hy.wf hx.unital hy.unital hb (compat hx hy)
    cases r with
    | none => exact ⟨N, none, fun fuel hf => by rw [Py.div, h fuel hf]; rfl⟩
    | some q =>
      obtain ⟨w, -, u, p⟩ := truediv_facts hx.wf hy.wf (h N le_rfl)
      have hp : q.mod.par = ring := by
        rcases p with p | p | p
        · exact p.trans hx.par
        · exact p.trans hy.par
        · rw [hx.par, hy.par, LawfulCRing.compositum_self] at p; cases p; rfl
      obtain ⟨z', hz', -, -⟩ := simplify_in (ring := ring) ⟨w, hp, u hx.unital hy.unital⟩
      refine ⟨N, some z', fun fuel hf => ?_⟩
      rw [Py.div, h fuel hf]
      show (q.simplify >>= fun q => Out.ok (some q)) = .ok (some z')
      rw [hz']; rfl
  · rintro fuel h ⟨z, iz, hz⟩
    rw [Py.div, Out.bind_eq_ok] at h
    obtain ⟨r, hr, h⟩ := h
    cases r with
    | none =>
      obtain ⟨v, hv⟩ := exists_independent
      refine truediv_complete hx.wf hy.wf hx.unital hy.unital hb (compat hx hy) hr hv z iz.wf iz.unital ?_
      rw [← aeval_poly, ← aeval_poly, ← aeval_poly, ← map_mul, hz]
    | some q =>
      obtain ⟨z', -, h⟩ := Out.bind_eq_ok.1 (show (q.simplify >>= fun q => Out.ok (some q)) = .ok none from h)
      cases h

/-- C71. `x / y` for `y` that is not zero returns: an element whose product with `y` is `x`, or `NotRepresentableError`, the latter exactly if the
ring contains no such element. -/
theorem py_div {ring : P} {x y : Elt P R} (hx : Made ring x) (hy : Made ring y) (y0 : Py.poly y ≠ 0) :
    (∃ N r, ∀ fuel ≥ N, Py.div fuel x y = .ok r) ∧
    ∀ fuel r, Py.div fuel x y = .ok r → (∀ z, r = some z → Made ring z ∧ Py.poly z * Py.poly y = Py.poly x) ∧
      (r = none ↔ ¬∃ z, Made ring z ∧ Py.poly z * Py.poly y = Py.poly x) := by
  obtain ⟨h1, h2⟩ := div_spec (made_in hx) (made_in hy) y0
  refine ⟨h1, fun fuel r h => ⟨?_, ?_, ?_⟩⟩
  · rintro z rfl
    exact ⟨.div hx hy h, (div_ok (made_in hx) (made_in hy) h).2⟩
  · rintro rfl ⟨z, mz, hz⟩
    exact h2 fuel h ⟨z, made_in mz, hz⟩
  · intro hn
    cases r with
    | none => rfl
    | some z => exact absurd ⟨z, .div hx hy h, (div_ok (made_in hx) (made_in hy) h).2⟩ hn

/-- C71. Division by zero raises an exception. -/
theorem py_div_zero (hb : build.checks = true) {ring : P} {x y : Elt P R} (hy : Made ring y) (y0 : Py.poly y = 0) (fuel : ℕ) :
    Py.div fuel x y = .throws .invalidArgument := by
  obtain ⟨v, hv⟩ := exists_independent
  have : y.eqZ 0 = true := by
    rw [eqZ_iff hv (made_in hy).wf (.inl (unital_noZeroGen (made_in hy).unital)), ← aeval_poly, y0]; simp
  rw [Py.div, truediv_zero hb this]; rfl

/-- C71. `x.is_unit()` says whether `x` has an inverse in the ring. -/
theorem py_unit {ring : P} {x : Elt P R} (hx : Made ring x) : Py.isUnit x = true ↔ ∃ z, Made ring z ∧ Py.poly z * Py.poly x = 1 := by
  obtain ⟨v, hv⟩ := exists_independent
  have ix := made_in hx
  rw [Py.isUnit, unit_iff_partial hv ix.wf ix.unital]
  constructor
  · rintro ⟨y, wy, my, hy⟩
    obtain ⟨z, mz, pz⟩ := in_made (ring := ring) (x := y) ⟨wy, by rw [my]; exact ix.par, by rw [my]; exact ix.unital⟩
    refine ⟨z, mz, poly_ext hv ?_⟩
    rw [pz, map_mul, aeval_poly, aeval_poly, map_one, _root_.mul_comm, hy]
  · rintro ⟨z, mz, hz⟩
    have iz := made_in mz
    obtain ⟨a, -, ha⟩ := MvPolynomial.isUnit_iff_eq_C_of_isReduced.1 (IsUnit.of_mul_eq_one _ hz)
    obtain ⟨b, -, hb⟩ := MvPolynomial.isUnit_iff_eq_C_of_isReduced.1 (IsUnit.of_mul_eq_one _ ((_root_.mul_comm _ _).trans hz))
    obtain ⟨d, hd, rfl⟩ : a ∈ Py.base (R := R) ring := by
      have := coeff_base iz 0
      rwa [ha, MvPolynomial.coeff_zero_C] at this
    have hm : .rat 1 ∈ x.mod.basis := by
      have hx0 : x.toBool = true := by
        cases h : x.toBool with
        | true => rfl
        | false => rw [(bool_poly ix).1 h, mul_zero] at hz; exact absurd hz zero_ne_one
      have hf : x.fs ≠ 0 := by rw [Ne, Elt.fs_eq_zero_iff ix.wf, hx0]; simp
      obtain ⟨g, hg⟩ : ∃ g, x.fs g ≠ 0 := by
        by_contra hcon; push Not at hcon; exact hf (Finsupp.ext hcon)
      obtain ⟨q, rfl⟩ := Mod.exists_rat (Elt.rat_of_real_alg hv ix.wf (a := b) (by rw [← aeval_poly, hb, MvPolynomial.aeval_C]) hg)
      have hq := (Elt.fs_support_WF ix.wf hg).1
      rwa [ix.unital q hq] at hq
    rw [← ix.par] at hd
    obtain ⟨wy, fy⟩ := Mod.single_spec ix.wf.mod hm hd
    refine ⟨_, wy, rfl, ?_⟩
    have e1 : Py.poly (x.mod.single (.rat 1) d : Elt P R) = Py.poly z := by
      refine poly_ext hv ?_
      rw [aeval_poly, ha, MvPolynomial.aeval_C, single_real v fy]
      simp [RN.value]; rfl
    rw [← aeval_poly, ← aeval_poly, e1, ← map_mul, _root_.mul_comm, hz, map_one]

/-- C71. `~x` returns for `x` that is not zero: the inverse of `x` if `x.is_unit()`, otherwise it raises `NotRepresentableError`. -/
theorem py_invert {ring : P} {x : Elt P R} (hx : Made ring x) (x0 : Py.poly x ≠ 0) :
    (∃ N r, ∀ fuel ≥ N, Py.invert ring fuel x = .ok r) ∧
    ∀ fuel r, Py.invert ring fuel x = .ok r → (∀ z, r = some z → Made ring z ∧ Py.poly z * Py.poly x = 1) ∧ (r.isSome = true ↔ Py.isUnit x = true) := by
  obtain ⟨y, hy, iy, py⟩ := simplify_in (made_in hx)
  obtain ⟨one, ho, io, po⟩ := coerce_spec (P := P) (ring := ring) (c := (1 : R)) (Subring.one_mem _)
  have po : Py.poly one = 1 := by rw [po, map_one, map_one]
  have e : ∀ fuel, Py.invert ring fuel x = Py.div fuel one y := fun fuel => by
    rw [Py.invert, hy]
    show (Py.coerce ring 1 >>= fun one => Py.div fuel one y) = _
    rw [ho]; rfl
  obtain ⟨h1, h2⟩ := py_div (Made.coerce (Subring.one_mem _) ho) (Made.simplify hx hy) (by rw [py]; exact x0)
  simp only [e]
  refine ⟨h1, fun fuel r h => ⟨fun z hz => ?_, ?_⟩⟩
  · have := (h2 fuel r h).1 z hz
    rwa [py, po] at this
  · have := (h2 fuel r h).2
    rw [py, po] at this
    rw [py_unit hx, ← not_iff_not, ← this]
    cases r <;> simp

/-! ### C72 -/

section order
variable {atoms : Atoms} {F : Arith} {coeff : ℕ → R → Ball}

omit [LawfulScalar P] in
/-- What the comparison of two elements is. -/
theorem richcmp_ok {ring : P} {fuel : ℕ} {x y : Elt P R} (hx : In ring x) (hy : In ring y) {o : Ordering} (h : Py.richcmp atoms F coeff fuel x y = .ok o) :
    (o = .eq ↔ Py.poly x = Py.poly y) ∧ ∃ r, Elt.lt atoms F coeff fuel x y = .ok r ∧ (o = .lt ↔ r = true) := by
  obtain ⟨e, he, hp⟩ := eq_spec hx hy
  rw [Py.richcmp, Out.bind_eq_ok] at h
  obtain ⟨r, hr, h⟩ := h
  rw [← hp]
  refine ⟨?_, r, hr, ?_⟩
  · cases r with
    | true =>
      cases h
      rcases elt_lt_ok atoms hr with ⟨-, h⟩ | ⟨h, -⟩
      · cases h
      · rw [he] at h; cases h; simp
    | false =>
      simp only [he, Bool.false_eq_true, if_false] at h
      cases e <;> cases h <;> simp
  · cases r with
    | true => cases h; simp
    | false =>
      simp only [he, Bool.false_eq_true, if_false] at h
      cases e <;> cases h <;> simp

omit [LawfulScalar P] in
theorem richcmp_returns (hF : F.Lawful) (hco : CoeffLawful P coeff) (hv : AlgebraicIndependent ℚ atoms.vals) {ring : P} {x y : Elt P R}
    (hx : In ring x) (hy : In ring y) : ∃ o N, ∀ fuel ≥ N, Py.richcmp atoms F coeff fuel x y = .ok o := by
  obtain ⟨e, he, -⟩ := eq_spec hx hy
  obtain ⟨r, N, h⟩ := (elt_lt_terminates atoms hF hco hv hx.wf (unital_noZeroGen hx.unital)).1 y hy.wf (unital_noZeroGen hy.unital) e he
  refine ⟨if r then .lt else if e then .eq else .gt, N, fun fuel hf => ?_⟩
  rw [Py.richcmp, h fuel hf]
  cases r
  · show (if false = true then Out.ok Ordering.lt else x.eq y >>= fun e => if e = true then .ok .eq else .ok .gt) = _
    rw [he]; cases e <;> rfl
  · rfl

omit [LawfulCRing P] [LawfulScalar P] in
variable (atoms F coeff) in
/-- The six comparison operators of Python in terms of `richcmp`. -/
theorem operators_ok {fuel : ℕ} {x y : Elt P R} {r : Bool} :
    (Py.lt atoms F coeff fuel x y = .ok r ↔ ∃ o, Py.richcmp atoms F coeff fuel x y = .ok o ∧ r = decide (o = .lt)) ∧
    (Py.le atoms F coeff fuel x y = .ok r ↔ ∃ o, Py.richcmp atoms F coeff fuel x y = .ok o ∧ r = decide (o ≠ .gt)) ∧
    (Py.eq atoms F coeff fuel x y = .ok r ↔ ∃ o, Py.richcmp atoms F coeff fuel x y = .ok o ∧ r = decide (o = .eq)) ∧
    (Py.ne atoms F coeff fuel x y = .ok r ↔ ∃ o, Py.richcmp atoms F coeff fuel x y = .ok o ∧ r = decide (o ≠ .eq)) ∧
    (Py.gt atoms F coeff fuel x y = .ok r ↔ ∃ o, Py.richcmp atoms F coeff fuel x y = .ok o ∧ r = decide (o = .gt)) ∧
    (Py.ge atoms F coeff fuel x y = .ok r ↔ ∃ o, Py.richcmp atoms F coeff fuel x y = .ok o ∧ r = decide (o ≠ .lt)) := by
  have key : ∀ f : Ordering → Bool, (Py.richcmp atoms F coeff fuel x y >>= fun o => Out.ok (f o)) = .ok r ↔
      ∃ o, Py.richcmp atoms F coeff fuel x y = .ok o ∧ r = f o := by
    intro f
    rw [Out.bind_eq_ok]
    refine exists_congr fun o => and_congr_right fun _ => ?_
    exact ⟨fun h => by cases h; rfl, fun h => by rw [h]⟩
  exact ⟨key _, key _, key _, key _, key _, key _⟩

/-- C70. `x == y` (and `x != y`) says whether `x` and `y` are the same polynomial. -/
theorem py_eq {ring : P} {fuel : ℕ} {x y : Elt P R} (hx : Made ring x) (hy : Made ring y) {r : Bool} :
    (Py.eq atoms F coeff fuel x y = .ok r → (r = true ↔ Py.poly x = Py.poly y)) ∧
    (Py.ne atoms F coeff fuel x y = .ok r → (r = true ↔ Py.poly x ≠ Py.poly y)) := by
  constructor
  · intro h
    obtain ⟨o, ho, rfl⟩ := (operators_ok atoms F coeff).2.2.1.1 h
    simpa using (richcmp_ok (made_in hx) (made_in hy) ho).1
  · intro h
    obtain ⟨o, ho, rfl⟩ := (operators_ok atoms F coeff).2.2.2.1.1 h
    simpa using not_congr (richcmp_ok (made_in hx) (made_in hy) ho).1

/-- C70. If no algebraic relation holds between the random numbers then `x == y` says whether `x` and `y` are the same real number. -/
theorem py_eq_real (hv : AlgebraicIndependent ℚ atoms.vals) {ring : P} {fuel : ℕ} {x y : Elt P R} (hx : Made ring x) (hy : Made ring y) {r : Bool}
    (h : Py.eq atoms F coeff fuel x y = .ok r) : r = true ↔ x.real atoms.vals = y.real atoms.vals := by
  rw [(py_eq hx hy).1 h, real_iff hv]

/-- C72. Comparisons return if no algebraic relation holds between the random numbers. -/
theorem py_compare_returns (hF : F.Lawful) (hco : CoeffLawful P coeff) (hv : AlgebraicIndependent ℚ atoms.vals) {ring : P} {x y : Elt P R}
    (hx : Made ring x) (hy : Made ring y) : ∃ N, ∀ fuel ≥ N,
      (∃ r, Py.lt atoms F coeff fuel x y = .ok r) ∧ (∃ r, Py.le atoms F coeff fuel x y = .ok r) ∧ (∃ r, Py.eq atoms F coeff fuel x y = .ok r) ∧
      (∃ r, Py.ne atoms F coeff fuel x y = .ok r) ∧ (∃ r, Py.gt atoms F coeff fuel x y = .ok r) ∧ ∃ r, Py.ge atoms F coeff fuel x y = .ok r := by
  obtain ⟨o, N, h⟩ := richcmp_returns hF hco hv (made_in hx) (made_in hy)
  refine ⟨N, fun fuel hf => ?_⟩
  obtain h := h fuel hf
  refine ⟨⟨_, (operators_ok atoms F coeff).1.2 ⟨o, h, rfl⟩⟩, ⟨_, (operators_ok atoms F coeff).2.1.2 ⟨o, h, rfl⟩⟩,
    ⟨_, (operators_ok atoms F coeff).2.2.1.2 ⟨o, h, rfl⟩⟩, ⟨_, (operators_ok atoms F coeff).2.2.2.1.2 ⟨o, h, rfl⟩⟩,
    ⟨_, (operators_ok atoms F coeff).2.2.2.2.1.2 ⟨o, h, rfl⟩⟩, ⟨_, (operators_ok atoms F coeff).2.2.2.2.2.2 ⟨o, h, rfl⟩⟩⟩

omit [LawfulCRing P] [LawfulScalar P] in
/-- C72. The operators agree with each other: exactly one of `<`, `==`, `>` holds, and `<=`, `!=`, `>=` are the negations of `>`, `==`, `<`. -/
theorem py_operators_agree {fuel : ℕ} {x y : Elt P R} {a b c d e f : Bool} (h1 : Py.lt atoms F coeff fuel x y = .ok a)
    (h2 : Py.eq atoms F coeff fuel x y = .ok b) (h3 : Py.gt atoms F coeff fuel x y = .ok c) (h4 : Py.le atoms F coeff fuel x y = .ok d)
    (h5 : Py.ne atoms F coeff fuel x y = .ok e) (h6 : Py.ge atoms F coeff fuel x y = .ok f) :
    ((a, b, c) = (true, false, false) ∨ (a, b, c) = (false, true, false) ∨ (a, b, c) = (false, false, true)) ∧ d = !c ∧ e = !b ∧ f = !a := by
  obtain ⟨o, h, rfl⟩ := (operators_ok atoms F coeff).1.1 h1
  have un : ∀ o', Py.richcmp atoms F coeff fuel x y = .ok o' → o' = o := fun o' h' => by rw [h] at h'; cases h'; rfl
  obtain ⟨o', h', rfl⟩ := (operators_ok atoms F coeff).2.2.1.1 h2; cases un o' h'
  obtain ⟨o', h', rfl⟩ := (operators_ok atoms F coeff).2.2.2.2.1.1 h3; cases un o' h'
  obtain ⟨o', h', rfl⟩ := (operators_ok atoms F coeff).2.1.1 h4; cases un o' h'
  obtain ⟨o', h', rfl⟩ := (operators_ok atoms F coeff).2.2.2.1.1 h5; cases un o' h'
  obtain ⟨o', h', rfl⟩ := (operators_ok atoms F coeff).2.2.2.2.2.1 h6; cases un o' h'
  cases o <;> decide

/-- C72. `x < y` and `x > y` say how the real numbers compare, if the approximations of the generators contain the generators. -/
theorem py_order_exact (hF : F.Lawful) (hco : CoeffLawful P coeff) (hv : AlgebraicIndependent ℚ atoms.vals) {ring : P} {fuel : ℕ} {x y : Elt P R}
    (hx : Made ring x) (hy : Made ring y) (gx : x.mod.ContainedFrom atoms 64) (gy : y.mod.ContainedFrom atoms 64) {r : Bool} :
    (Py.lt atoms F coeff fuel x y = .ok r → (r = true ↔ x.real atoms.vals < y.real atoms.vals)) ∧
    (Py.gt atoms F coeff fuel x y = .ok r → (r = true ↔ x.real atoms.vals > y.real atoms.vals)) := by
  have key : ∀ {o}, Py.richcmp atoms F coeff fuel x y = .ok o → (o = .lt ↔ x.real atoms.vals < y.real atoms.vals) ∧
      (o = .eq ↔ x.real atoms.vals = y.real atoms.vals) := by
    intro o h
    obtain ⟨h1, s, hs, h2⟩ := richcmp_ok (made_in hx) (made_in hy) h
    exact ⟨h2.trans ((elt_lt_exact atoms hF hco (made_in hx).wf gx).1 y (made_in hy).wf gy hs), by rw [h1, real_iff hv]⟩
  constructor
  · intro h
    obtain ⟨o, ho, rfl⟩ := (operators_ok atoms F coeff).1.1 h
    simpa using (key ho).1
  · intro h
    obtain ⟨o, ho, rfl⟩ := (operators_ok atoms F coeff).2.2.2.2.1.1 h
    obtain ⟨h1, h2⟩ := key ho
    rw [gt_iff_lt, ← not_le, le_iff_lt_or_eq, ← h1, ← h2]
    cases o <;> simp

/-- C72, for all elements: `x < y` and `x > y` say how the real numbers compare up to `2^-61` of their size.  Missing: exactness, which fails for
products of random numbers (F1). -/
theorem py_order_partial (hF : F.Lawful) (hco : CoeffLawful P coeff) (hv : AlgebraicIndependent ℚ atoms.vals) {ring : P} {fuel : ℕ} {x y : Elt P R}
    (hx : Made ring x) (hy : Made ring y) {r : Bool} (hd : 2 ^ (-(61 : ℤ)) * (|x.real atoms.vals| + |y.real atoms.vals|) < |x.real atoms.vals - y.real atoms.vals|) :
    (Py.lt atoms F coeff fuel x y = .ok r → (r = true ↔ x.real atoms.vals < y.real atoms.vals)) ∧
    (Py.gt atoms F coeff fuel x y = .ok r → (r = true ↔ x.real atoms.vals > y.real atoms.vals)) := by
  have key : ∀ {o}, Py.richcmp atoms F coeff fuel x y = .ok o → (o = .lt ↔ x.real atoms.vals < y.real atoms.vals) ∧
      (o = .eq ↔ x.real atoms.vals = y.real atoms.vals) := by
    intro o h
    obtain ⟨h1, s, hs, h2⟩ := richcmp_ok (made_in hx) (made_in hy) h
    exact ⟨h2.trans (((elt_lt_partial atoms hF hco (made_in hx).wf).1 y (made_in hy).wf hs).gap hd), by rw [h1, real_iff hv]⟩
  constructor
  · intro h
    obtain ⟨o, ho, rfl⟩ := (operators_ok atoms F coeff).1.1 h
    simpa using (key ho).1
  · intro h
    obtain ⟨o, ho, rfl⟩ := (operators_ok atoms F coeff).2.2.2.2.1.1 h
    obtain ⟨h1, h2⟩ := key ho
    rw [gt_iff_lt, ← not_le, le_iff_lt_or_eq, ← h1, ← h2]
    cases o <;> simp

/-- C72. `abs(x)` is the absolute value, whatever the element; it returns if no algebraic relation holds between the random numbers. -/
theorem py_abs (hF : F.Lawful) (hco : CoeffLawful P coeff) (hv : AlgebraicIndependent ℚ atoms.vals) {ring : P} {x : Elt P R} (hx : Made ring x) :
    (∃ z N, Made ring z ∧ z.real atoms.vals = |x.real atoms.vals| ∧ ∀ fuel ≥ N, Py.abs atoms F coeff ring fuel x = .ok z) ∧
    ∀ fuel z, Py.abs atoms F coeff ring fuel x = .ok z → z.real atoms.vals = |x.real atoms.vals| := by
  obtain ⟨zero, hz, iz, pz⟩ := coerce_spec (P := P) (ring := ring) (c := (0 : R)) (Subring.zero_mem _)
  have z0 : zero.real atoms.vals = 0 := by rw [← aeval_poly, pz]; simp
  have ix := made_in hx
  obtain ⟨w, hw, iw, pw⟩ := neg_spec ix
  have w0 : w.real atoms.vals = -x.real atoms.vals := by rw [← aeval_poly, pw, map_neg, aeval_poly]
  have key : ∀ {fuel o}, Py.richcmp atoms F coeff fuel x zero = .ok o → (o = .lt ↔ x.real atoms.vals < 0) := by
    intro fuel o h
    obtain ⟨h1, s, hs, h2⟩ := richcmp_ok ix iz h
    by_cases hx0 : x.real atoms.vals = 0
    · have : o = .eq := h1.2 ((real_iff hv _ _).1 (by rw [hx0, z0]))
      rw [this, hx0]; simp
    · have := ((elt_lt_partial atoms hF hco ix.wf).1 zero iz.wf hs).gap (by
        rw [z0, abs_zero, add_zero, sub_zero]
        have : 0 < |x.real atoms.vals| := abs_pos.2 hx0
        have h3 : (2 : ℝ) ^ (-(61 : ℤ)) ≤ 1 / 2 := by norm_num
        exact lt_of_le_of_lt (mul_le_mul_of_nonneg_right h3 this.le) (by linarith))
      rw [h2, this, z0]
  have val : ∀ {fuel o}, Py.richcmp atoms F coeff fuel x zero = .ok o →
      Py.abs atoms F coeff ring fuel x = .ok (if x.real atoms.vals < 0 then w else x) := by
    intro fuel o h
    rw [Py.abs, hz]
    show (Py.ge atoms F coeff fuel x zero >>= fun g => if g = true then Out.ok x else Py.neg x) = _
    rw [(operators_ok atoms F coeff).2.2.2.2.2.2 ⟨o, h, rfl⟩]
    show (if decide (o ≠ .lt) = true then Out.ok x else Py.neg x) = _
    by_cases hlt : x.real atoms.vals < 0
    · rw [if_pos hlt, (key h).2 hlt, if_neg (by simp), hw]
    · rw [if_neg hlt, if_pos (by simpa using mt (key h).1 hlt)]
  have res : (if x.real atoms.vals < 0 then w else x).real atoms.vals = |x.real atoms.vals| := by
    split_ifs with h
    · rw [w0, abs_of_neg h]
    · rw [abs_of_nonneg (not_lt.1 h)]
  refine ⟨?_, fun fuel z h => ?_⟩
  · obtain ⟨o, N, h⟩ := richcmp_returns hF hco hv ix iz
    refine ⟨_, N, ?_, res, fun fuel hf => val (h fuel hf)⟩
    split_ifs
    · exact .neg hx hw
    · exact hx
  · have : ∃ o, Py.richcmp atoms F coeff fuel x zero = .ok o := by
      rw [Py.abs, hz] at h
      obtain ⟨g, hg, -⟩ := Out.bind_eq_ok.1 (show (Py.ge atoms F coeff fuel x zero >>= fun g => if g = true then Out.ok x else Py.neg x) = .ok z from h)
      obtain ⟨o, ho, -⟩ := (operators_ok atoms F coeff).2.2.2.2.2.1 hg
      exact ⟨o, ho⟩
    obtain ⟨o, ho⟩ := this
    rw [val ho] at h
    cases h
    exact res

/-! ### C71, the part that needs comparisons -/

/-- C71. `x.divides(y)` says whether `y` is a multiple of `x` in the ring; it returns if no algebraic relation holds between the random numbers. -/
theorem py_divides {ring : P} {x y : Elt P R} (hx : Made ring x) (hy : Made ring y) :
    (F.Lawful → CoeffLawful P coeff → AlgebraicIndependent ℚ atoms.vals → ∃ N r, ∀ fuel ≥ N, Py.divides atoms F coeff ring fuel x y = .ok r) ∧
    ∀ fuel r, Py.divides atoms F coeff ring fuel x y = .ok r → (r = true ↔ ∃ z, Made ring z ∧ Py.poly z * Py.poly x = Py.poly y) := by
  obtain ⟨zero, hz, iz, pz⟩ := coerce_spec (P := P) (ring := ring) (c := (0 : R)) (Subring.zero_mem _)
  have pz : Py.poly zero = 0 := by rw [pz, map_zero, map_zero]
  have mz : Made ring zero := .coerce (Subring.zero_mem _) hz
  have e : ∀ fuel, Py.divides atoms F coeff ring fuel x y = Py.eq atoms F coeff fuel x zero >>= fun b =>
      if b = true then Py.eq atoms F coeff fuel y zero else Py.div fuel y x >>= fun q => Out.ok q.isSome := by
    intro fuel
    rw [Py.divides, hz]
    show (Py.eq atoms F coeff fuel x zero >>= _) = _
    congr 1
    funext b
    cases b
    · show (Py.div fuel y x >>= _) = (Py.div fuel y x >>= _)
      congr 1
      funext q
      cases q <;> rfl
    · rfl
  simp only [e]
  constructor
  · intro hF hco hv
    obtain ⟨N1, h1⟩ := py_compare_returns hF hco hv hx mz
    obtain ⟨N2, h2⟩ := py_compare_returns hF hco hv hy mz
    by_cases x0 : Py.poly x = 0
    · refine ⟨max N1 N2, decide (Py.poly y = 0), fun fuel hf => ?_⟩
      obtain ⟨-, -, ⟨r, hr⟩, -⟩ := h1 fuel (le_trans (le_max_left _ _) hf)
      obtain ⟨-, -, ⟨s, hs⟩, -⟩ := h2 fuel (le_trans (le_max_right _ _) hf)
      have h3 := (py_eq hx mz).1 hr
      have h4 := (py_eq hy mz).1 hs
      rw [pz] at h3 h4
      rw [hr, h3.2 x0]
      show Py.eq atoms F coeff fuel y zero = _
      rw [hs]
      congr 1
      rw [Bool.eq_iff_iff, h4, decide_eq_true_iff]
    · obtain ⟨⟨N3, q, h3⟩, -⟩ := py_div hy hx x0
      refine ⟨max N1 N3, q.isSome, fun fuel hf => ?_⟩
      obtain ⟨-, -, ⟨r, hr⟩, -⟩ := h1 fuel (le_trans (le_max_left _ _) hf)
      have h4 := (py_eq hx mz).1 hr
      rw [pz] at h4
      have : r = false := by simpa using mt h4.1 x0
      rw [hr, this]
      show (Py.div fuel y x >>= _) = _
      rw [h3 fuel (le_trans (le_max_right _ _) hf)]; rfl
  · intro fuel r h
    obtain ⟨b, hb, h⟩ := Out.bind_eq_ok.1 h
    have h1 := (py_eq hx mz).1 hb
    rw [pz] at h1
    cases b with
    | true =>
      have h2 := (py_eq hy mz).1 (show Py.eq atoms F coeff fuel y zero = .ok r from h)
      rw [pz] at h2
      rw [h2, h1.1 rfl]
      exact ⟨fun h => ⟨zero, mz, by rw [h, mul_zero]⟩, fun ⟨z, _, h⟩ => by rw [← h, mul_zero]⟩
    | false =>
      obtain ⟨q, hq, h⟩ := Out.bind_eq_ok.1 (show (Py.div fuel y x >>= fun q => Out.ok q.isSome) = .ok r from h)
      cases h
      have := ((py_div hy hx (fun h => by simpa using h1.2 h)).2 fuel q hq).2
      rw [← not_iff_not, ← this]
      cases q <;> simp

/-- C71. When `x.gcd(y)` returns an element then it is a greatest common divisor; otherwise (`NotImplementedError`) neither of `x`, `y` divides the other. -/
theorem py_gcd {ring : P} {x y : Elt P R} (hx : Made ring x) (hy : Made ring y) :
    (F.Lawful → CoeffLawful P coeff → AlgebraicIndependent ℚ atoms.vals → ∃ N r, ∀ fuel ≥ N, Py.gcd atoms F coeff ring fuel x y = .ok r) ∧
    ∀ fuel r, Py.gcd atoms F coeff ring fuel x y = .ok r →
      (∀ g, r = some g → Made ring g ∧ (∃ z, Made ring z ∧ Py.poly z * Py.poly g = Py.poly x) ∧ (∃ z, Made ring z ∧ Py.poly z * Py.poly g = Py.poly y) ∧
        ∀ d : Elt P R, (∃ z, Made ring z ∧ Py.poly z * Py.poly d = Py.poly x) → (∃ z, Made ring z ∧ Py.poly z * Py.poly d = Py.poly y) →
          ∃ z, Made ring z ∧ Py.poly z * Py.poly d = Py.poly g) ∧
      (r = none ↔ (¬∃ z, Made ring z ∧ Py.poly z * Py.poly x = Py.poly y) ∧ ¬∃ z, Made ring z ∧ Py.poly z * Py.poly y = Py.poly x) := by
  obtain ⟨one, ho, -, po⟩ := coerce_spec (P := P) (ring := ring) (c := (1 : R)) (Subring.one_mem _)
  have po : Py.poly one = 1 := by rw [po, map_one, map_one]
  have mo : Made ring one := .coerce (Subring.one_mem _) ho
  have refl : ∀ x : Elt P R, ∃ z, Made ring z ∧ Py.poly z * Py.poly x = Py.poly x := fun x => ⟨one, mo, by rw [po, _root_.one_mul]⟩
  constructor
  · intro hF hco hv
    obtain ⟨N1, r1, h1⟩ := (py_divides hx hy).1 hF hco hv
    obtain ⟨N2, r2, h2⟩ := (py_divides hy hx).1 hF hco hv
    refine ⟨max N1 N2, if r1 then some x else if r2 then some y else none, fun fuel hf => ?_⟩
    rw [Py.gcd, h1 fuel (le_trans (le_max_left _ _) hf)]
    cases r1 with
    | true => rfl
    | false =>
      show (Py.divides atoms F coeff ring fuel y x >>= _) = _
      rw [h2 fuel (le_trans (le_max_right _ _) hf)]
      cases r2 <;> rfl
  · intro fuel r h
    obtain ⟨b, hb, h⟩ := Out.bind_eq_ok.1 (show (Py.divides atoms F coeff ring fuel x y >>= _) = .ok r from h)
    have h1 := (py_divides hx hy).2 fuel b hb
    cases b with
    | true =>
      cases h
      refine ⟨?_, by simp [h1.1 rfl]⟩
      rintro g ⟨⟩
      exact ⟨hx, refl x, h1.1 rfl, fun d h _ => h⟩
    | false =>
      obtain ⟨c, hc, h⟩ := Out.bind_eq_ok.1 (show (Py.divides atoms F coeff ring fuel y x >>= _) = .ok r from h)
      have h2 := (py_divides hy hx).2 fuel c hc
      cases c with
      | true =>
        cases h
        refine ⟨?_, by simp [h2.1 rfl]⟩
        rintro g ⟨⟩
        exact ⟨hy, h2.1 rfl, refl y, fun d _ h => h⟩
      | false =>
        cases h
        refine ⟨fun g hg => (by cases hg), fun _ => ⟨fun h => ?_, fun h => ?_⟩, fun _ => rfl⟩
        · exact Bool.false_ne_true (h1.2 h)
        · exact Bool.false_ne_true (h2.2 h)

end order

section
variable (atoms : Atoms) (F : Arith) (coeff : ℕ → R → Ball)

/-- C70. `rational(q)` is `q`, but not in the way of `coerce`: two such elements with different rationals cannot be added or compared, as documented. -/
theorem py_rational (ring : P) {p q : ℚ} (h : p ≠ q) : ∃ a b : Elt P R, Py.rational ring p = .ok a ∧ Py.rational ring q = .ok b ∧
    Py.poly a = MvPolynomial.C (algebraMap ℚ AlgReal p) ∧ Py.poly b = MvPolynomial.C (algebraMap ℚ AlgReal q) ∧
    Py.add a b = .throws .logicError ∧ ∀ fuel, Py.eq atoms F coeff fuel a b = .throws .logicError := by
  have mk : ∀ q, Py.rational ring q = .ok (⟨⟨ring, [.rat q]⟩, [1]⟩ : Elt P R) := fun q => by
    rw [Py.rational, Elt.make_singleton]
    simp [Elt.ofCoefficients, assertThat]
  have pol : ∀ q, Py.poly (⟨⟨ring, [.rat q]⟩, [1]⟩ : Elt P R) = MvPolynomial.C (algebraMap ℚ AlgReal q) := fun q => by
    simp only [Py.poly, Elt.value, Elt.terms, List.zip_cons_cons, List.zip_nil_right, List.map_cons, List.map_nil, List.sum_cons, List.sum_nil, RN.value,
      map_one, _root_.one_mul, add_zero]
    exact (IsScalarTower.algebraMap_apply ℚ AlgReal (MvPolynomial ℕ AlgReal) q)
  have wf : ∀ q, (⟨⟨ring, [.rat q]⟩, [1]⟩ : Elt P R).WF := fun q => Elt.term_WF (by trivial) (Subring.one_mem _)
  have sp : Mod.span (⟨ring, [.rat p]⟩ : Mod P) ⟨ring, [.rat q]⟩ = .throws .logicError :=
    (span_throws_iff (R := R) (wf p).mod (wf q).mod).2.2 ⟨by simp, by simp, .inr ⟨p, q, h, by simp, by simp⟩⟩
  have ne : (⟨ring, [.rat p]⟩ : Mod P) ≠ ⟨ring, [.rat q]⟩ := by simpa using h
  refine ⟨_, _, mk p, mk q, pol p, pol q, ?_, fun fuel => ?_⟩
  · have := (add_fails_iff (wf p) (wf q)).2.2 ⟨ne, sp⟩
    rw [Py.add, Elt.add, this]; rfl
  · have := (eq_throws_iff (wf p) (wf q)).2.2 ⟨ne, sp⟩
    rw [Py.eq, Py.richcmp, Elt.lt, this]; rfl

end

/-! ### C73 -/

section algebraic

omit [LawfulScalar P] build in
/-- The conversion of a generator to a rational number. -/
theorem gen_rational {m : Mod P} (hm : m.WF) (hu : m.Unital) {i : ℕ} (hi : i < m.basis.length) :
    ∃ e : Elt P R, m.gen i = .ok e ∧ e.rational? = m.basis[i].rational? := by
  obtain ⟨e, he, e1⟩ := Mod.gen_spec (R := R) hm hi
  obtain ⟨we, fe⟩ := Mod.single_spec (R := R) hm (List.getElem_mem hi) (d := (1 : R)) (Subring.one_mem _)
  rw [← e1] at we fe
  have me : e.mod = m := by rw [e1]; rfl
  refine ⟨e, he, ?_⟩
  obtain ⟨v, hv⟩ := exists_independent
  have hr := fun q => rational_iff hv we (.inl (unital_noZeroGen (by rw [me]; exact hu))) q
  have val : e.real v = m.basis[i].value v := by rw [single_real v fe]; simp
  have ne : e.fs m.basis[i] ≠ 0 := by
    rw [fe, Finsupp.single_eq_same]
    intro h
    have := congrArg (Elt.num P) h
    rw [map_one, map_zero] at this
    exact one_ne_zero this
  cases hg : m.basis[i].rational? with
  | some q =>
    obtain ⟨q', hq'⟩ := Mod.exists_rat (g := m.basis[i]) (by simp [RN.isRat, hg])
    rw [hr, val, hq']
    rw [hq'] at hg
    cases hg
    simp [RN.value]
  | none =>
    cases he' : e.rational? with
    | none => rfl
    | some q =>
      have := Elt.rat_of_real_alg hv we (a := algebraMap ℚ AlgReal q) (by
        rw [(hr q).1 he', ← IsScalarTower.algebraMap_apply ℚ AlgReal ℝ]; simp) ne
      simp [RN.isRat, hg] at this

omit [LawfulScalar P] build in
theorem algebraicLoop_spec {A : Type} [CommRing A] [Algebra ℚ A] {ι : R → A} {j : A →+* ℝ} (hj : ∀ c, j (ι c) = Elt.num P c) {m : Mod P}
    (hm : m.WF) (hu : m.Unital) (cs : List R) (i : ℕ) (ret : A) (h : i + cs.length = m.basis.length) :
    ((∃ t ∈ (m.basis.drop i).zip cs, t.2 ≠ 0 ∧ t.1.isRat = false) ∧ Py.algebraicLoop ι m cs i ret = .ok none) ∨
    ((∀ t ∈ (m.basis.drop i).zip cs, t.2 ≠ 0 → t.1.isRat = true) ∧ ∃ a, Py.algebraicLoop ι m cs i ret = .ok (some a) ∧
      ∀ v, j a = j ret + Elt.evalF (Elt.num P) v (Elt.combo ((m.basis.drop i).zip cs))) := by
  induction cs generalizing i ret with
  | nil => exact .inr ⟨by simp, ret, rfl, fun v => by simp⟩
  | cons c cs ih =>
    rw [List.length_cons] at h
    have hi : i < m.basis.length := by omega
    rw [List.drop_eq_getElem_cons hi, List.zip_cons_cons]
    by_cases hc : c = 0
    · rw [Py.algebraicLoop, if_neg (by simpa using hc)]
      rcases ih (i + 1) ret (by omega) with ⟨⟨t, ht, h1⟩, h2⟩ | ⟨h1, a, h2, h3⟩
      · exact .inl ⟨⟨t, List.mem_cons_of_mem _ ht, h1⟩, h2⟩
      · refine .inr ⟨fun t ht hn => ?_, a, h2, fun v => ?_⟩
        · rcases List.mem_cons.1 ht with rfl | ht
          · exact absurd hc hn
          · exact h1 t ht hn
        · rw [h3 v, Elt.combo_cons, hc]; simp
    · obtain ⟨e, he, hr⟩ := gen_rational (R := R) hm hu hi
      cases hg : m.basis[i].rational? with
      | none =>
        rw [hg] at hr
        refine .inl ⟨⟨_, List.mem_cons_self, hc, by simp [RN.isRat, hg]⟩, ?_⟩
        rw [Py.algebraicLoop, if_pos hc, he]
        show (match e.rational? with | none => Out.ok none | some q => _) = _
        rw [hr]
      | some q =>
        rw [hg] at hr
        have e1 : Py.algebraicLoop ι m (c :: cs) i ret = Py.algebraicLoop ι m cs (i + 1) (ret + ι c * algebraMap ℚ A q) := by
          rw [Py.algebraicLoop, if_pos hc, he]
          show (match e.rational? with | none => Out.ok none | some q => _) = _
          rw [hr]
        rw [e1]
        obtain ⟨q', hq'⟩ := Mod.exists_rat (g := m.basis[i]) (by simp [RN.isRat, hg])
        rw [hq'] at hg
        cases hg
        rcases ih (i + 1) (ret + ι c * algebraMap ℚ A q) (by omega) with ⟨⟨t, ht, h1⟩, h2⟩ | ⟨h1, a, h2, h3⟩
        · exact .inl ⟨⟨t, List.mem_cons_of_mem _ ht, h1⟩, h2⟩
        · refine .inr ⟨fun t ht hn => ?_, a, h2, fun v => ?_⟩
          · rcases List.mem_cons.1 ht with rfl | ht
            · rw [hq']; rfl
            · exact h1 t ht hn
          · rw [h3 v, Elt.combo_cons, Elt.evalF_add, Elt.evalF_single, hq', map_add, map_mul, hj]
            have hq : j (algebraMap ℚ A q) = (q : ℝ) := by rw [← RingHom.comp_apply, eq_ratCast]
            simp only [RN.value, hq, eq_ratCast]
            ring

/-- C73. The conversion to algebraic numbers (`AA(x)`, `QQbar(x)`) returns the value of `x`, exactly if the value is an algebraic number; otherwise it
raises `TypeError`. -/
theorem py_algebraic {A : Type} [CommRing A] [Algebra ℚ A] {ι : R → A} {j : A →+* ℝ} (hj : ∀ c, j (ι c) = algebraMap AlgReal ℝ (LawfulCRing.emb P c))
    {ring : P} {x : Elt P R} (hx : Made ring x) : ∃ r, Py.algebraic ι x = .ok r ∧ (∀ a, r = some a → ∀ v, j a = x.real v) ∧
      ∀ v : ℕ → ℝ, AlgebraicIndependent ℚ v → (r.isSome = true ↔ IsAlgebraic ℚ (x.real v)) := by
  have ix := made_in hx
  have hl : 0 + x.coeffs.length = x.mod.basis.length := by rw [zero_add]; exact ix.wf.length
  have hreal : ∀ v, x.real v = Elt.evalF (Elt.num P) v (Elt.combo ((x.mod.basis.drop 0).zip x.coeffs)) := fun v => Elt.real_eq_evalF v x
  have nonalg : (∃ t ∈ (x.mod.basis.drop 0).zip x.coeffs, t.2 ≠ 0 ∧ t.1.isRat = false) → ∀ v : ℕ → ℝ, AlgebraicIndependent ℚ v →
      ¬IsAlgebraic ℚ (x.real v) := by
    rintro ⟨t, ht, h1, h2⟩ v hv h
    have ht : t ∈ x.terms := ht
    have := Elt.rat_of_real_alg hv ix.wf (a := ⟨x.real v, mem_algebraicClosure_iff.2 h⟩) rfl (g := t.1) (by rw [ix.wf.fs_apply (g := t.1) (c := t.2) ht]; exact h1)
    rw [h2] at this; cases this
  rcases algebraicLoop_spec (P := P) (ι := ι) (j := j) hj ix.wf.mod ix.unital x.coeffs 0 0 hl with ⟨h1, h2⟩ | ⟨h1, a, h2, h3⟩
  · exact ⟨none, h2, by simp, fun v hv => by simpa using nonalg h1 v hv⟩
  · refine ⟨some a, h2, ?_, fun v hv => ?_⟩
    · rintro _ ⟨⟩ v
      rw [h3 v, hreal, map_zero, zero_add]
    · simp only [Option.isSome_some, true_iff]
      rcases algebraicLoop_spec (P := P) (ι := fun c : R => LawfulCRing.emb P c) (j := algebraMap AlgReal ℝ) (fun _ => rfl) ix.wf.mod ix.unital x.coeffs 0 0 hl with ⟨⟨t, ht, k1, k2⟩, -⟩ | ⟨-, a', -, k3⟩
      · rw [h1 t ht k1] at k2; cases k2
      · rw [hreal, ← zero_add (Elt.evalF _ _ _), ← map_zero (algebraMap AlgReal ℝ), ← k3 v]
        exact mem_algebraicClosure_iff.1 a'.2

end algebraic

/-! ### examples -/

/-- Elements of the ring over ℤ: `x = a² - b²`, `y = a - b`, `2` and `a` for random numbers `a`, `b`. -/
theorem py_sample : ∃ x y t a : Elt IntegerRing ℤ, Made .mk x ∧ Made .mk y ∧ Made .mk t ∧ Made .mk a ∧
    Py.poly x = (MvPolynomial.X 0 ^ 2 - MvPolynomial.X 1 ^ 2) ∧ Py.poly y = MvPolynomial.X 0 - MvPolynomial.X 1 ∧ Py.poly t = 2 ∧
    Py.poly a = MvPolynomial.X 0 := by
  obtain ⟨a, ha, -, pa⟩ := random_spec (P := IntegerRing) (R := ℤ) .mk 0
  obtain ⟨b, hb, -, pb⟩ := random_spec (P := IntegerRing) (R := ℤ) .mk 1
  obtain ⟨t, ht, -, pt⟩ := coerce_spec (P := IntegerRing) (R := ℤ) (ring := .mk) (c := 2) trivial
  have ma : Made IntegerRing.mk a := .random ha
  have mb : Made IntegerRing.mk b := .random hb
  obtain ⟨y, hy, -, py⟩ := sub_spec (made_in ma) (made_in mb)
  obtain ⟨s, hs, -, ps⟩ := add_spec (made_in ma) (made_in mb)
  have my : Made IntegerRing.mk y := .sub ma mb hy
  have ms : Made IntegerRing.mk s := .add ma mb hs
  obtain ⟨x, hx, -, px⟩ := mul_spec (made_in ms) (made_in my)
  refine ⟨x, y, t, a, .mul ms my hx, my, .coerce trivial ht, ma, ?_, ?_, ?_, pa⟩
  · rw [px, ps, py, pa, pb]; ring
  · rw [py, pa, pb]
  · rw [pt, map_ofNat, map_ofNat]

/-- The division `(a² - b²) / (a - b)` succeeds, `a / 2` does not and `a` has no inverse. -/
example : ∃ x y t a : Elt IntegerRing ℤ, Made .mk x ∧ Made .mk y ∧ Made .mk t ∧ Made .mk a ∧ (∃ N z, ∀ fuel ≥ N, Py.div fuel x y = .ok (some z)) ∧
    (∃ N, ∀ fuel ≥ N, Py.div fuel a t = .ok none) ∧ Py.isUnit a = false := by
  obtain ⟨x, y, t, a, mx, my, mt, ma, px, py, pt, pa⟩ := py_sample (build := build)
  have y0 : Py.poly y ≠ 0 := by
    rw [py, sub_ne_zero]
    exact fun h => absurd (MvPolynomial.X_injective h) (by decide)
  have t0 : Py.poly t ≠ 0 := by rw [pt]; exact two_ne_zero
  refine ⟨x, y, t, a, mx, my, mt, ma, ?_, ?_, ?_⟩
  · obtain ⟨⟨N, r, h⟩, h1⟩ := py_div mx my y0
    cases r with
    | some z => exact ⟨N, z, h⟩
    | none =>
      refine absurd ?_ ((h1 N none (h N le_rfl)).2.1 rfl)
      obtain ⟨z, mz, pz⟩ := (py_surjective (R := ℤ) IntegerRing.mk (MvPolynomial.X 0 + MvPolynomial.X 1)).2 (fun e => by
        rw [MvPolynomial.coeff_add, MvPolynomial.coeff_X', MvPolynomial.coeff_X']
        split_ifs
        · exact Subring.add_mem _ (Subring.one_mem _) (Subring.one_mem _)
        · exact Subring.add_mem _ (Subring.one_mem _) (Subring.zero_mem _)
        · exact Subring.add_mem _ (Subring.zero_mem _) (Subring.one_mem _)
        · exact Subring.add_mem _ (Subring.zero_mem _) (Subring.zero_mem _))
      exact ⟨z, mz, by rw [pz, px, py]; ring⟩
  · obtain ⟨⟨N, r, h⟩, h1⟩ := py_div ma mt t0
    have : r = none := by
      refine (h1 N r (h N le_rfl)).2.2 ?_
      rintro ⟨z, mz, hz⟩
      obtain ⟨n, -, hn⟩ := coeff_base (made_in mz) (Finsupp.single 0 1)
      have := congrArg (MvPolynomial.coeff (Finsupp.single 0 1)) hz
      rw [pa, pt, _root_.mul_comm, ← map_ofNat MvPolynomial.C, MvPolynomial.coeff_C_mul, ← hn, MvPolynomial.coeff_X] at this
      have e : (LawfulCRing.emb IntegerRing (2 * n) : AlgReal) = LawfulCRing.emb IntegerRing 1 := by
        rw [map_mul, map_one, map_ofNat, this, if_pos rfl]
      have := LawfulCRing.emb_injective (P := IntegerRing) e
      omega
    subst this
    exact ⟨N, h⟩
  · rw [Bool.eq_false_iff]
    intro h
    obtain ⟨z, -, hz⟩ := (py_unit ma).1 h
    obtain ⟨r, -, hr⟩ := MvPolynomial.isUnit_iff_eq_C_of_isReduced.1 (IsUnit.of_mul_eq_one _ ((_root_.mul_comm _ _).trans hz))
    rw [pa] at hr
    exact absurd (congrArg (MvPolynomial.coeff (Finsupp.single 0 1)) hr) (by
      rw [MvPolynomial.coeff_X, MvPolynomial.coeff_C, if_pos rfl, if_neg]
      · exact one_ne_zero
      · intro h; simpa using DFunLike.congr_fun h 0)

end ExactReal.Props
