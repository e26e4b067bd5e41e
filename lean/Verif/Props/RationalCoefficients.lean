import Verif.Model.RationalCoefficients
import Verif.Spec.Element
import Mathlib.FieldTheory.PrimitiveElement
import Mathlib.Algebra.BigOperators.Field
import Mathlib.Data.List.GetD

/-!
# Rational coefficients determine the coefficients (C49)
-/

namespace ExactReal.Props
open ExactReal

variable {gen : AlgReal} {nv : NumVector gen}

theorem entries_length (h : nv.Lawful) {c : AlgReal} (hc : c ∈ IntermediateField.adjoin ℚ {gen}) : (Elt.rationalEntries nv c).length = nv.degree := by
  have := h.length_le c hc
  simp only [Elt.rationalEntries, List.length_append, List.length_map, List.length_replicate]
  omega

theorem entries_value (h : nv.Lawful) {c : AlgReal} (hc : c ∈ IntermediateField.adjoin ℚ {gen}) :
    ∑ j ∈ Finset.range nv.degree, ((Elt.rationalEntries nv c).getD j 0 : AlgReal) * gen ^ j = c := by
  have hl := h.length_le c hc
  conv_rhs => rw [h.value c hc]
  rw [Finset.sum_div]
  rw [← Finset.sum_subset (Finset.range_mono hl)]
  · apply Finset.sum_congr rfl
    intro j hj
    rw [Finset.mem_range] at hj
    have e : (Elt.rationalEntries nv c).getD j 0 = ((nv.numVector c).getD j 0 : ℚ) / (nv.den c : ℚ) := by
      rw [Elt.rationalEntries, List.getD_append _ _ _ _ (by simpa using hj), List.getD_eq_getElem _ _ (by simpa using hj),
        List.getD_eq_getElem _ _ hj, List.getElem_map]
    rw [e]
    push_cast
    ring
  · intro j hj hj'
    rw [Finset.mem_range] at hj hj'
    have e : (Elt.rationalEntries nv c).getD j 0 = 0 := by
      rw [Elt.rationalEntries, List.getD_append_right _ _ _ _ (by simpa using hj')]
      rw [List.getD_eq_getElem?_getD, List.getElem?_replicate]
      split_ifs <;> rfl
    rw [e]; simp

theorem take_drop_flatMap {α β : Type} (f : α → List β) (n : ℕ) (l : List α) (h : ∀ a ∈ l, (f a).length = n) (i : ℕ) (hi : i < l.length) :
    ((l.flatMap f).drop (i * n)).take n = f l[i] := by
  induction l generalizing i with
  | nil => simp at hi
  | cons a l ih =>
    rw [List.flatMap_cons]
    have ha := h a (by simp)
    cases i with
    | zero => simp [← ha]
    | succ i =>
      have : (i + 1) * n = (f a).length + i * n := by rw [ha]; ring
      rw [this, List.drop_append, List.drop_eq_nil_of_le (by omega), List.nil_append]
      have e : (f a).length + i * n - (f a).length = i * n := by omega
      rw [e]
      simpa using ih (fun b hb => h b (by simp [hb])) i (by simpa using hi)

/-- C49. Over a number field, the list has `rank · degree` entries, and the `i`-th block of length `degree` are the coordinates of the `i`-th
coefficient in the powers of the generator. -/
theorem rationalCoefficients_nf (h : nv.Lawful) {x : Elt NumberField AlgReal} (hx : ∀ c ∈ x.coeffs, c ∈ IntermediateField.adjoin ℚ {gen}) :
    (x.rationalCoefficientsNF nv).length = x.coeffs.length * nv.degree ∧
    ∀ i (hi : i < x.coeffs.length), ∑ j ∈ Finset.range nv.degree,
      (((x.rationalCoefficientsNF nv).getD (i * nv.degree + j) 0 : ℚ) : AlgReal) * gen ^ j = x.coeffs[i] := by
  constructor
  · rw [Elt.rationalCoefficientsNF, List.length_flatMap]
    have : (x.coeffs.map fun c => (Elt.rationalEntries nv c).length) = x.coeffs.map fun _ => nv.degree :=
      List.map_congr_left fun c hc => entries_length h (hx c hc)
    rw [this]; simp
  · intro i hi
    have hc := hx _ (List.getElem_mem hi)
    have hb := take_drop_flatMap (Elt.rationalEntries nv) nv.degree x.coeffs (fun c hc => entries_length h (hx c hc)) i hi
    conv_rhs => rw [← entries_value h hc]
    apply Finset.sum_congr rfl
    intro j hj
    rw [Finset.mem_range] at hj
    congr 2
    rw [← hb, Elt.rationalCoefficientsNF, List.getD_eq_getElem?_getD, List.getD_eq_getElem?_getD, List.getElem?_take_of_lt hj, List.getElem?_drop]

/-- C49. Elements of the same rank with the same rational coefficients have the same coefficients. -/
theorem rationalCoefficients_injective (h : nv.Lawful) {x y : Elt NumberField AlgReal} (hx : ∀ c ∈ x.coeffs, c ∈ IntermediateField.adjoin ℚ {gen})
    (hy : ∀ c ∈ y.coeffs, c ∈ IntermediateField.adjoin ℚ {gen}) (hl : x.coeffs.length = y.coeffs.length)
    (he : x.rationalCoefficientsNF nv = y.rationalCoefficientsNF nv) : x.coeffs = y.coeffs := by
  apply List.ext_getElem hl
  intro i h1 h2
  rw [← (rationalCoefficients_nf h hx).2 i h1, ← (rationalCoefficients_nf h hy).2 i h2, he]

theorem isIntegral_algReal (x : AlgReal) : IsIntegral ℚ x := by
  have := ((algebraicClosure.isAlgebraic ℚ ℝ).isAlgebraic x).isIntegral
  have e : (DivisionRing.toRatAlgebra : Algebra ℚ AlgReal) = (algebraicClosure ℚ ℝ).algebra' := Subsingleton.elim _ _
  rw [e]
  exact this

theorem powers_independent (h : nv.Lawful) : LinearIndependent ℚ fun j : Fin nv.degree => gen ^ (j : ℕ) := by
  have hi : IsIntegral ℚ gen := isIntegral_algReal gen
  have := h.degree_eq
  rw [IntermediateField.adjoin.finrank hi] at this
  rw [this]
  exact linearIndependent_pow gen

/-- C49. The coordinates are the only ones: the `i`-th block of the list is determined by the `i`-th coefficient. -/
theorem rationalCoefficients_unique (h : nv.Lawful) {x : Elt NumberField AlgReal} (hx : ∀ c ∈ x.coeffs, c ∈ IntermediateField.adjoin ℚ {gen})
    {i : ℕ} (hi : i < x.coeffs.length) {q : ℕ → ℚ} (hq : ∑ j ∈ Finset.range nv.degree, (q j : AlgReal) * gen ^ j = x.coeffs[i]) {j : ℕ}
    (hj : j < nv.degree) : (x.rationalCoefficientsNF nv).getD (i * nv.degree + j) 0 = q j := by
  have he := ((rationalCoefficients_nf h hx).2 i hi).trans hq.symm
  rw [Finset.sum_range, Finset.sum_range] at he
  have key := Fintype.linearIndependent_iff.1 (powers_independent h)
    (fun j => (x.rationalCoefficientsNF nv).getD (i * nv.degree + j) 0 - q j) (by
      rw [← sub_eq_zero] at he
      rw [← Finset.sum_sub_distrib] at he
      rw [← he]
      apply Finset.sum_congr rfl
      intro j _
      rw [Algebra.smul_def, map_sub, sub_mul]
      rfl)
  exact sub_eq_zero.1 (key ⟨j, hj⟩)

/-- C49 over the integers and the rationals: the rational coefficients are the coefficients. -/
theorem rationalCoefficients_rational (x : Elt IntegerRing ℤ) (y : Elt RationalField ℚ) :
    x.rationalCoefficientsZ.length = x.coeffs.length ∧ (∀ i (h : i < x.coeffs.length), x.rationalCoefficientsZ[i]? = some (x.coeffs[i] : ℚ)) ∧
    y.rationalCoefficientsQ = y.coeffs := by
  refine ⟨by simp [Elt.rationalCoefficientsZ], fun i h => by simp [Elt.rationalCoefficientsZ, h], rfl⟩

/-- Every number field has a lawful `NumVector`. -/
theorem numVector_exists (gen : AlgReal) : ∃ nv : NumVector gen, nv.Lawful := by
  classical
  have hi : IsIntegral ℚ gen := isIntegral_algReal gen
  set n := Module.finrank ℚ (IntermediateField.adjoin ℚ {gen}) with hn
  have hex : ∀ x : AlgReal, ∃ p : List ℤ × ℕ, p.1.length ≤ n ∧ 0 < p.2 ∧ (x ∈ IntermediateField.adjoin ℚ {gen} →
      x = (∑ j ∈ Finset.range p.1.length, (p.1.getD j 0 : AlgReal) * gen ^ j) / (p.2 : AlgReal)) := by
    intro x
    by_cases hx : x ∈ IntermediateField.adjoin ℚ {gen}
    · -- coordinates in the power basis
      obtain ⟨q, hq⟩ : ∃ q : Fin n → ℚ, x = ∑ j, (q j : AlgReal) * gen ^ (j : ℕ) := by
        let pb := IntermediateField.adjoin.powerBasis hi
        have hdim : pb.dim = n := (pb.finrank).symm
        refine ⟨fun j => pb.basis.repr ⟨x, hx⟩ (Fin.cast hdim.symm j), ?_⟩
        have := congrArg (algebraMap _ AlgReal) (pb.basis.sum_repr ⟨x, hx⟩)
        rw [map_sum] at this
        refine (show x = algebraMap (IntermediateField.adjoin ℚ {gen}) AlgReal ⟨x, hx⟩ from rfl).trans ?_
        rw [← this]
        rw [← (finCongr hdim).symm.sum_comp]
        apply Finset.sum_congr rfl
        intro j _
        rw [Algebra.smul_def, map_mul, pb.basis_eq_pow, map_pow, IntermediateField.adjoin.powerBasis_gen]
        rfl
      let D : ℕ := ∏ j, (q j).den
      have hD : 0 < D := Finset.prod_pos fun j _ => (q j).den_pos
      have hint : ∀ j, ∃ a : ℤ, q j * D = a := by
        intro j
        obtain ⟨k, hk⟩ := Finset.dvd_prod_of_mem (fun j => (q j).den) (Finset.mem_univ j)
        refine ⟨(q j).num * k, ?_⟩
        have : (D : ℚ) = (q j).den * k := by exact_mod_cast hk
        rw [this, ← mul_assoc, Rat.mul_den_eq_num]
        push_cast; rfl
      choose a ha using hint
      refine ⟨(List.ofFn a, D), by simp, hD, fun _ => ?_⟩
      have hD' : (D : AlgReal) ≠ 0 := by exact_mod_cast hD.ne'
      rw [eq_div_iff hD', hq, Finset.sum_mul]
      simp only [List.length_ofFn]
      rw [Finset.sum_range]
      apply Finset.sum_congr rfl
      intro j _
      have e : (List.ofFn a).getD j 0 = a j := by
        rw [List.getD_eq_getElem _ _ (by simp)]; simp
      rw [e]
      have := congrArg (algebraMap ℚ AlgReal) (ha j)
      rw [map_mul, map_natCast, map_intCast] at this
      rw [← this]
      have e2 : algebraMap ℚ AlgReal (q j) = (q j : AlgReal) := rfl
      rw [e2]; ring
    · exact ⟨([], 1), by simp, by norm_num, fun h => absurd h hx⟩
  choose p h1 h2 h3 using hex
  exact ⟨⟨n, fun x => (p x).1, fun x => (p x).2⟩, rfl, fun x _ => h1 x, h2, h3⟩

/-- The hypotheses are satisfied by an element with two coefficients, one of them not rational if the field is not `ℚ`. -/
example (gen : AlgReal) : ∃ (nv : NumVector gen) (x : Elt NumberField AlgReal), nv.Lawful ∧ x.coeffs = [2 * gen ^ 2 - 1, 3] ∧
    ∀ c ∈ x.coeffs, c ∈ IntermediateField.adjoin ℚ {gen} := by
  obtain ⟨nv, h⟩ := numVector_exists gen
  refine ⟨nv, ⟨⟨⟨IntermediateField.adjoin ℚ {gen}, 0⟩, [.atom 0, .atom 1]⟩, [2 * gen ^ 2 - 1, 3]⟩, h, rfl, ?_⟩
  have hg := IntermediateField.mem_adjoin_simple_self ℚ gen
  intro c hc
  simp only [List.mem_cons, List.not_mem_nil, or_false] at hc
  rcases hc with rfl | rfl
  · exact sub_mem (mul_mem (ofNat_mem _ 2) (pow_mem hg 2)) (one_mem _)
  · exact ofNat_mem _ 3

end ExactReal.Props
