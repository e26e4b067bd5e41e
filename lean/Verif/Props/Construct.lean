import Verif.Props.Element
import Verif.Lemma.Single
import Verif.Lemma.TrueDiv

/-!
# C65: constructing elements and converting them between rings
-/

namespace ExactReal.Props
open ExactReal

variable {P : Type} [DecidableEq P] {R : Type} [CommRing R] [DecidableEq R] [CRing P R] [LawfulCRing P]

/-- C65. An element that is made from a module and one coefficient for each generator is the linear combination of the generators. -/
theorem ofCoefficients_value [Build] {m : Mod P} (hm : m.WF) {cs : List R} (hl : cs.length = m.basis.length)
    (hc : ∀ c ∈ cs, c ∈ LawfulCRing.mem m.par) :
    ∃ x : Elt P R, Elt.ofCoefficients m cs = .ok x ∧ x.WF ∧ x.mod = m ∧ x.coeffs = cs ∧
      ∀ v : ℕ → ℝ, x.real v = ((m.basis.zip cs).map fun t => Elt.num P t.2 * t.1.value v).sum := by
  refine ⟨⟨m, cs⟩, ?_, ⟨hm, hl, hc⟩, rfl, rfl, fun v => rfl⟩
  rw [Elt.ofCoefficients, Elt.assertThat_eq_ok (by simp [hl])]
  rfl

/-- C65. In a build with assertions any other number of coefficients is rejected. -/
theorem ofCoefficients_throws [b : Build] (hb : b.asserts = true) (m : Mod P) {cs : List R} (hl : cs.length ≠ m.basis.length) :
    (Elt.ofCoefficients m cs : Out (Elt P R)) = .throws .logicError := by
  simp [Elt.ofCoefficients, assertThat, hb, hl]

/-- C65. `operator[]` returns the coefficient of the generator with that index, and throws for an index that is out of range. -/
theorem coefficient_spec {x : Elt P R} (hx : x.WF) (i : ℤ) :
    (x.coefficient? i = none ↔ i < 0 ∨ (x.mod.basis.length : ℤ) ≤ i) ∧
      ∀ c, x.coefficient? i = some c → ∃ g, x.mod.basis[i.toNat]? = some g ∧ (g, c) ∈ x.terms := by
  unfold Elt.coefficient?
  split
  · next h => exact ⟨by simp [h], by simp⟩
  · next h =>
    refine ⟨by rw [List.getElem?_eq_none_iff, hx.length]; omega, fun c hc => ?_⟩
    obtain ⟨hi, rfl⟩ := List.getElem?_eq_some_iff.1 hc
    have hi' : i.toNat < x.mod.basis.length := hx.length ▸ hi
    refine ⟨_, List.getElem?_eq_getElem hi', ?_⟩
    rw [Elt.terms, List.mem_iff_getElem]
    exact ⟨i.toNat, by simp [hi, hi'], by simp⟩

/-- C65. `gen(j)` is the generator with index `j` in `basis()`. -/
theorem gen_value {m : Mod P} (hm : m.WF) {j : ℕ} {g : RN} (hg : m.basis[j]? = some g) :
    ∃ x : Elt P R, m.gen j = .ok x ∧ x.WF ∧ x.mod = m ∧ ∀ v : ℕ → ℝ, x.real v = g.value v := by
  obtain ⟨hj, rfl⟩ := List.getElem?_eq_some_iff.1 hg
  obtain ⟨e, he, rfl⟩ := Mod.gen_spec (R := R) hm hj
  obtain ⟨h1, h2⟩ := Mod.single_spec (R := R) hm (List.getElem_mem hj) (Subring.one_mem _)
  exact ⟨_, he, h1, rfl, fun v => by rw [single_real v h2, map_one, _root_.one_mul]⟩

/-- C65. `zero()` is zero. -/
theorem zero_value {m : Mod P} (hm : m.WF) : (m.zero : Elt P R).WF ∧ (m.zero : Elt P R).mod = m ∧ (m.zero : Elt P R).toBool = false ∧
    ∀ v : ℕ → ℝ, (m.zero : Elt P R).real v = 0 :=
  ⟨Elt.zero_WF hm, rfl, by simp [Elt.toBool, Mod.zero], fun v => by rw [Elt.real_eq_evalF, Elt.zero_fs]; simp [Elt.evalF]⟩

omit [LawfulCRing P] in
theorem nil_WF (p : P) : (⟨p, []⟩ : Mod P).WF := ⟨by simp, List.Pairwise.nil⟩

/-- C65. A default constructed element is zero. -/
theorem default_value : (Elt.default : Elt P R).WF ∧ (Elt.default : Elt P R).toBool = false ∧ ∀ v : ℕ → ℝ, (Elt.default : Elt P R).real v = 0 :=
  ⟨⟨nil_WF _, rfl, by simp [Elt.default]⟩, rfl, fun v => by simp [Elt.default, Elt.real, Elt.value, Elt.terms]⟩

omit [DecidableEq P] [DecidableEq R] [CommRing R] [CRing P R] [LawfulCRing P] in
theorem single_WF (p : P) {g : RN} (hg : g.WF) : (⟨p, [g]⟩ : Mod P).WF := ⟨by simpa using hg, List.pairwise_singleton _ _⟩

/-- C65. An element that is made from a coefficient is that number. -/
theorem ofScalar_value [Build] {p : P} {c : R} (hc : c ∈ LawfulCRing.mem (CRing.ofValue p c)) :
    ∃ x : Elt P R, Elt.ofScalar p c = .ok x ∧ x.WF ∧ x.mod = ⟨CRing.ofValue p c, [.rat 1]⟩ ∧ ∀ v : ℕ → ℝ, x.real v = Elt.num P c := by
  obtain ⟨x, h1, h2, h3, -, h5⟩ := ofCoefficients_value (single_WF (CRing.ofValue p c) (g := .rat 1) trivial) (cs := [c]) rfl (by simpa using hc)
  refine ⟨x, ?_, h2, h3, fun v => ?_⟩
  · rw [Elt.ofScalar, Elt.make_singleton, Out.ok_bind, h1]
  · rw [h5]; simp [RN.value]

section
variable {P' : Type} [DecidableEq P'] {R' : Type} [CommRing R'] [DecidableEq R'] [CRing P' R'] [LawfulCRing P']

/-- C65 for any map of coefficients that preserves the numbers they stand for. -/
theorem convert_value_of [Build] (f : R' → R) (hf : ∀ c, Elt.num P (f c) = Elt.num P' c) (hm : ∀ c, f c ∈ LawfulCRing.mem (CRing.default : P))
    {x : Elt P' R'} (hx : x.WF) :
    ∃ y : Elt P R, Elt.convert f x = .ok y ∧ y.WF ∧ y.mod = ⟨CRing.default, x.mod.basis⟩ ∧ y.coeffs = x.coeffs.map f ∧
      ∀ v : ℕ → ℝ, y.real v = x.real v := by
  have hw : (⟨CRing.default, x.mod.basis⟩ : Mod P).WF := ⟨hx.mod.gens, hx.mod.sorted⟩
  obtain ⟨y, h1, h2, h3, h4, h5⟩ := ofCoefficients_value hw (cs := x.coeffs.map f) (by simp [hx.length]) (by
    intro c hc; obtain ⟨d, -, rfl⟩ := List.mem_map.1 hc; exact hm d)
  refine ⟨y, ?_, h2, h3, h4, fun v => ?_⟩
  · have := Mod.make_self hx.mod
    have h6 : Mod.make (CRing.default : P) x.mod.basis = .ok ⟨CRing.default, x.mod.basis⟩ :=
      Mod.make_self hw _
    rw [Elt.convert, h6, Out.ok_bind, h1]
  · rw [h5]
    simp only [Elt.real, Elt.value, Elt.terms, List.zip_map_right, List.map_map]
    congr 1
    refine List.map_congr_left fun t _ => ?_
    simp [hf]

end

/-- The conversion of coefficients ℤ → ℚ. -/
def intToRat : ℤ → ℚ := fun n => n
/-- The conversion of coefficients ℤ → number field. -/
noncomputable def intToField : ℤ → AlgReal := fun n => n
/-- The conversion of coefficients ℚ → number field. -/
noncomputable def ratToField : ℚ → AlgReal := algebraMap ℚ AlgReal

/-- C65. `Element<RationalField>(Element<IntegerRing>)` never throws; it has the same generators, coefficients, and value. -/
theorem convert_int_rat [Build] {x : Elt IntegerRing ℤ} (hx : x.WF) :
    ∃ y : Elt RationalField ℚ, Elt.convert intToRat x = .ok y ∧ y.WF ∧ y.mod = ⟨.mk, x.mod.basis⟩ ∧ y.coeffs = x.coeffs.map intToRat ∧
      ∀ v : ℕ → ℝ, y.real v = x.real v :=
  convert_value_of intToRat (fun c => by simp [Elt.num, LawfulCRing.emb, intToRat]) (fun c => by show intToRat c ∈ (⊤ : Subring ℚ); trivial) hx

/-- C65. `Element<NumberField>(Element<IntegerRing>)` never throws; it has the same generators, coefficients, and value. -/
theorem convert_int_field [Build] {x : Elt IntegerRing ℤ} (hx : x.WF) :
    ∃ y : Elt NumberField AlgReal, Elt.convert intToField x = .ok y ∧ y.WF ∧ y.mod = ⟨CRing.default, x.mod.basis⟩ ∧
      y.coeffs = x.coeffs.map intToField ∧ ∀ v : ℕ → ℝ, y.real v = x.real v :=
  convert_value_of intToField (fun c => by simp [Elt.num, LawfulCRing.emb, intToField])
    (fun c => by show ((c : ℤ) : AlgReal) ∈ (⊥ : IntermediateField ℚ AlgReal); exact intCast_mem _ c) hx

/-- C65. `Element<NumberField>(Element<RationalField>)` never throws; it has the same generators, coefficients, and value. -/
theorem convert_rat_field [Build] {x : Elt RationalField ℚ} (hx : x.WF) :
    ∃ y : Elt NumberField AlgReal, Elt.convert ratToField x = .ok y ∧ y.WF ∧ y.mod = ⟨CRing.default, x.mod.basis⟩ ∧
      y.coeffs = x.coeffs.map ratToField ∧ ∀ v : ℕ → ℝ, y.real v = x.real v :=
  convert_value_of ratToField (fun c => by simp [Elt.num, LawfulCRing.emb, ratToField])
    (fun c => by show algebraMap ℚ AlgReal c ∈ (⊥ : IntermediateField ℚ AlgReal); exact IntermediateField.algebraMap_mem _ c) hx

/-- C65. Converting ℤ → ℚ → number field gives the same element as converting ℤ → number field. -/
theorem convert_compose [Build] {x : Elt IntegerRing ℤ} (hx : x.WF) {y : Elt RationalField ℚ} {z : Elt NumberField AlgReal}
    (hy : Elt.convert intToRat x = .ok y) (hz : Elt.convert ratToField y = .ok z) : Elt.convert intToField x = .ok z := by
  obtain ⟨y', h1, hyw, h2, h3, -⟩ := convert_int_rat hx
  rw [hy] at h1
  cases h1
  obtain ⟨z', h4, -, h5, h6, -⟩ := convert_rat_field hyw
  rw [hz] at h4
  cases h4
  obtain ⟨w, h7, -, h8, h9, -⟩ := convert_int_field hx
  rw [h7]
  congr 1
  cases w; cases z
  simp only at h5 h6 h8 h9
  subst h5 h6 h8 h9
  rw [h2, h3]
  simp [intToRat, ratToField, intToField]

/-- C65 is about reachable elements: converting `3 - 2·x` for a random number `x` to the rationals. -/
example [Build] : Elt.convert intToRat (⟨⟨.mk, [.rat 1, .atom 0]⟩, [3, -2]⟩ : Elt IntegerRing ℤ) =
    .ok (⟨⟨.mk, [.rat 1, .atom 0]⟩, [3, -2]⟩ : Elt RationalField ℚ) := by
  have h : Mod.make (CRing.default : RationalField) [.rat 1, .atom 0] = .ok ⟨.mk, [.rat 1, .atom 0]⟩ := by decide
  simp only [Elt.convert, h, Out.ok_bind, Elt.ofCoefficients]
  simp [assertThat, intToRat]

end ExactReal.Props
