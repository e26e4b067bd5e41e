import Verif.Props.Scalar
import Verif.Lemma.Single

/-!
# C30–C33, C53: conversions, truth values, units, one, comparison with generators
-/

namespace ExactReal.Props
open ExactReal

/-! ### C31, real numbers -/

/-- C31. The truth value of a real number is false exactly if the number is zero. -/
theorem rn_bool_iff {v : ℕ → ℝ} (hv : AlgebraicIndependent ℚ v) (g : RN) : g.toBool = false ↔ g.value v = 0 := by
  constructor
  · intro h
    cases g with
    | rat q => simp [RN.toBool, RN.rational?] at h; simp [RN.value, h]
    | atom i => simp [RN.toBool, RN.rational?] at h
    | prod m => simp [RN.toBool, RN.rational?] at h
  · intro h
    rw [rn_value_eq_zero hv h]; simp [RN.toBool, RN.rational?]

section
variable {P : Type} [DecidableEq P] {R : Type} [CommRing R] [DecidableEq R] [CRing P R] [LawfulCRing P]

/-! ### C30 -/

/-- C30. If the conversion to a rational succeeds, the result is the value, for whatever reals the atoms stand for. -/
theorem rational_sound {x : Elt P R} {q : ℚ} (h : x.rational? = some q) (v : ℕ → ℝ) : x.real v = q := Elt.rational?_some h v

/-- C30. For algebraically independent atoms, the conversion to a rational succeeds exactly if the value is rational, and gives the value.
(Hypothesis: no generator is the rational zero, or all coefficients are rational, as is the case over ℤ and ℚ.) -/
theorem rational_iff {v : ℕ → ℝ} (hv : AlgebraicIndependent ℚ v) {x : Elt P R} (hx : x.WF)
    (hz : x.NoZeroGen ∨ ∀ c : R, (CRing.rational P c).isSome = true) (q : ℚ) : x.rational? = some q ↔ x.real v = q :=
  ⟨fun h => Elt.rational?_some h v, Elt.rational?_of_real hv hx hz⟩

/-- C30. `x == q` for a rational `q` says whether the value is `q`. -/
theorem eqQ_iff {v : ℕ → ℝ} (hv : AlgebraicIndependent ℚ v) {x : Elt P R} (hx : x.WF)
    (hz : x.NoZeroGen ∨ ∀ c : R, (CRing.rational P c).isSome = true) (q : ℚ) : x.eqQ q = true ↔ x.real v = q := by
  rw [Elt.eqQ, decide_eq_true_iff]; exact rational_iff hv hx hz q

/-- C30. `x == n` for an integer `n` says whether the value is `n`. -/
theorem eqZ_iff {v : ℕ → ℝ} (hv : AlgebraicIndependent ℚ v) {x : Elt P R} (hx : x.WF)
    (hz : x.NoZeroGen ∨ ∀ c : R, (CRing.rational P c).isSome = true) (n : ℤ) : x.eqZ n = true ↔ x.real v = n := by
  rw [Elt.eqZ, eqQ_iff hv hx hz]; simp

/-- C30. The conversion to an integer succeeds exactly if the value is an integer, and gives the value. -/
theorem integer_iff {v : ℕ → ℝ} (hv : AlgebraicIndependent ℚ v) {x : Elt P R} (hx : x.WF)
    (hz : x.NoZeroGen ∨ ∀ c : R, (CRing.rational P c).isSome = true) (n : ℤ) : x.integer? = some n ↔ x.real v = n := by
  have h := rational_iff hv hx hz (n : ℚ)
  rw [show ((n : ℚ) : ℝ) = n by simp] at h
  rw [← h, Elt.integer?]
  cases hr : x.rational? with
  | none => simp
  | some q =>
    simp only [Option.some.injEq]
    split
    · rename_i hd
      rw [Option.some_inj]
      constructor
      · rintro rfl; exact (Rat.den_eq_one_iff q).1 hd |>.symm
      · rintro rfl; simp
    · rename_i hd
      constructor
      · intro h; cases h
      · rintro rfl; simp at hd

/-- The hypothesis of the theorems above holds over ℤ and ℚ for all elements. -/
theorem integer_rational_coefficients : (∀ c : ℤ, (CRing.rational IntegerRing c).isSome = true) ∧
    ∀ c : ℚ, (CRing.rational RationalField c).isSome = true := ⟨fun _ => rfl, fun _ => rfl⟩

/-- Non-vacuity: `3 + 2a - b` is not rational, `2·(1/2)` is the integer 1. -/
example : ∃ v : ℕ → ℝ, AlgebraicIndependent ℚ v ∧ ∀ q : ℚ, sample.real v ≠ q := by
  obtain ⟨v, hv⟩ := exists_independent
  refine ⟨v, hv, fun q => ?_⟩
  rw [Ne, ← rational_iff hv sample_WF (.inr integer_rational_coefficients.1)]
  simp [Elt.rational?, Elt.rationalLoop, sample, sampleModule, Elt.terms, RN.rational?, CRing.rational]
example : (⟨⟨.mk, [.rat (1 / 2)]⟩, [2]⟩ : Elt IntegerRing ℤ).integer? = some 1 := by
  simp [Elt.integer?, Elt.rational?, Elt.rationalLoop, Elt.terms, RN.rational?, CRing.rational]

/-! ### C31, elements -/

/-- C31. The truth value of an element is false exactly if the element is zero. -/
theorem bool_iff {v : ℕ → ℝ} (hv : AlgebraicIndependent ℚ v) {x : Elt P R} (hx : x.WF) (hz : x.NoZeroGen) :
    x.toBool = false ↔ x.real v = 0 := by
  rw [← Elt.fs_eq_zero_iff hx, Elt.real_eq_zero_iff hv hx hz]

/-- C31. If the truth value is false then the value is zero, whatever the generators and the reals the atoms stand for. -/
theorem bool_sound {x : Elt P R} (h : x.toBool = false) (v : ℕ → ℝ) : x.real v = 0 := by
  rw [Elt.real_eq_evalF, Elt.fs_eq_zero_of_toBool h, Elt.evalF_zero]

/-- C31, why generators that are zero are excluded: `1·0` counts as true although it is zero (and `== 0`). -/
theorem bool_zero_generator (v : ℕ → ℝ) : (⟨⟨.mk, [.rat 0]⟩, [1]⟩ : Elt IntegerRing ℤ).toBool = true ∧
    (⟨⟨.mk, [.rat 0]⟩, [1]⟩ : Elt IntegerRing ℤ).real v = 0 ∧ (⟨⟨.mk, [.rat 0]⟩, [1]⟩ : Elt IntegerRing ℤ).eqZ 0 = true := by
  simp [Elt.toBool, Elt.real, Elt.value, Elt.terms, RN.value, Elt.eqZ, Elt.eqQ, Elt.rational?, Elt.rationalLoop, RN.rational?, CRing.rational]

/-- C16, C53, the exception: over a module with the generator `rational(0)` (finding F11) elements with the same value do not compare equal, and neither are they equal to the generator 0. -/
theorem eq_zero_generator [Build] (v : ℕ → ℝ) : (⟨⟨.mk, [.rat 0]⟩, [1]⟩ : Elt IntegerRing ℤ).eq ⟨⟨.mk, [.rat 0]⟩, [2]⟩ = .ok false ∧
    (⟨⟨.mk, [.rat 0]⟩, [1]⟩ : Elt IntegerRing ℤ).real v = (⟨⟨.mk, [.rat 0]⟩, [2]⟩ : Elt IntegerRing ℤ).real v ∧
    (⟨⟨.mk, [.rat 0]⟩, [2]⟩ : Elt IntegerRing ℤ).eqRN (.rat 0) = .ok false ∧
    (⟨⟨.mk, [.rat 0]⟩, [2]⟩ : Elt IntegerRing ℤ).real v = (RN.rat 0).value v := by
  refine ⟨by simp [Elt.eq, Elt.toBool, Elt.simplify], ?_, by simp [Elt.eqRN, Elt.toBool, Elt.terms, Elt.eqRNLoop, checkArgument, Bind.bind, Out.bind], ?_⟩ <;> simp [Elt.real, Elt.value, Elt.terms, RN.value]

example : sample.toBool = true ∧ sample.NoZeroGen := ⟨by simp [sample, Elt.toBool], unital_noZeroGen sample_unital⟩

/-! ### C32 -/

/-- C32, for modules whose rational generator (if any) is one.  Missing: for other rational generators `unit` is wrong, see `unit_wrong`. -/
theorem unit_iff_partial {v : ℕ → ℝ} (hv : AlgebraicIndependent ℚ v) {x : Elt P R} (hx : x.WF) (hu : x.mod.Unital) :
    x.unit = true ↔ ∃ y : Elt P R, y.WF ∧ y.mod = x.mod ∧ x.real v * y.real v = 1 := by
  have hz := unital_noZeroGen hu
  -- an element on which only the generator one occurs
  have hone : ∀ {z : Elt P R}, z.WF → z.mod = x.mod → (∀ g, z.fs g ≠ 0 → g.isRat = true) → z.fs ≠ 0 →
      .rat 1 ∈ x.mod.basis ∧ z.fs = Finsupp.single (.rat 1) (z.fs (.rat 1)) := by
    intro z wz mz hr h0
    have : ∃ g, z.fs g ≠ 0 := by
      by_contra hcon; push Not at hcon; exact h0 (Finsupp.ext hcon)
    obtain ⟨g, hg⟩ := this
    obtain ⟨q, rfl⟩ := Mod.exists_rat (hr g hg)
    have hm := (Elt.fs_support_WF wz hg).1
    rw [mz] at hm
    have hq := hu q hm
    subst hq
    exact ⟨hm, Elt.polyF_of_rat wz hg hr⟩
  constructor
  · intro h
    rw [Elt.unit, Bool.and_eq_true, List.all_eq_true] at h
    obtain ⟨hb, hall⟩ := h
    have hr : ∀ g, x.fs g ≠ 0 → g.isRat = true ∧ CRing.unit P (x.fs g) = true := by
      intro g hg
      have hgm := (Elt.fs_support_WF hx hg).1
      rw [← Elt.terms_fst hx.length] at hgm
      obtain ⟨t, ht, rfl⟩ := List.mem_map.1 hgm
      have he := hx.fs_apply (g := t.1) (c := t.2) ht
      have := hall t ht
      rw [he] at hg ⊢
      simpa [hg] using this
    have h0 : x.fs ≠ 0 := by
      rw [Ne, Elt.fs_eq_zero_iff hx, hb]; simp
    obtain ⟨hm, hf⟩ := hone hx rfl (fun g hg => (hr g hg).1) h0
    have hc0 : x.fs (.rat 1) ≠ 0 := by
      intro h; rw [h, Finsupp.single_zero] at hf; exact h0 hf
    have hcm : x.fs (.rat 1) ∈ LawfulCRing.mem x.mod.par := by
      have hgm := hm
      rw [← Elt.terms_fst hx.length] at hgm
      obtain ⟨t, ht, h1⟩ := List.mem_map.1 hgm
      have he := hx.fs_apply (g := t.1) (c := t.2) ht
      rw [← h1, he]; exact hx.mem _ (Elt.terms_mem_snd ht)
    obtain ⟨d, hd, hcd⟩ := (LawfulCRing.unit_iff hcm).1 (hr _ hc0).2
    obtain ⟨wy, fy⟩ := Mod.single_spec hx.mod hm hd
    refine ⟨x.mod.single (.rat 1) d, wy, rfl, ?_⟩
    rw [single_real v hf, single_real v fy]
    simp only [RN.value, map_one, mul_one]
    rw [← map_mul, hcd, map_one]
  · rintro ⟨y, wy, my, hxy⟩
    obtain ⟨a, ha⟩ := alg_of_mul_eq_one hv hxy
    obtain ⟨b, hb⟩ := alg_of_mul_eq_one hv (x := y) (y := x) (by rw [_root_.mul_comm]; exact hxy)
    have hx0 : x.fs ≠ 0 := by
      intro h; rw [Elt.real_eq_evalF v x, h, Elt.evalF_zero, zero_mul] at hxy; exact zero_ne_one hxy
    have hy0 : y.fs ≠ 0 := by
      intro h; rw [Elt.real_eq_evalF v y, h, Elt.evalF_zero, mul_zero] at hxy; exact zero_ne_one hxy
    have rx := fun g hg => Elt.rat_of_real_alg hv hx ha (g := g) hg
    have ry := fun g hg => Elt.rat_of_real_alg hv wy hb (g := g) hg
    obtain ⟨hm, hf⟩ := hone hx rfl rx hx0
    obtain ⟨-, hg⟩ := hone wy my ry hy0
    rw [single_real v hf, single_real v hg] at hxy
    simp only [RN.value, map_one, mul_one] at hxy
    rw [← map_mul, ← map_one (Elt.num P)] at hxy
    have hcd := num_injective (P := P) hxy
    have hmem : ∀ {z : Elt P R}, z.WF → z.mod = x.mod → z.fs (.rat 1) ∈ LawfulCRing.mem x.mod.par := by
      intro z wz mz
      have hgm := hm
      rw [← mz, ← Elt.terms_fst wz.length] at hgm
      obtain ⟨t, ht, h1⟩ := List.mem_map.1 hgm
      have he := wz.fs_apply (g := t.1) (c := t.2) ht
      rw [← h1, he, ← mz]; exact wz.mem _ (Elt.terms_mem_snd ht)
    have hunit := (LawfulCRing.unit_iff (hmem hx rfl)).2 ⟨_, hmem wy my, hcd⟩
    rw [Elt.unit, Bool.and_eq_true, List.all_eq_true]
    constructor
    · by_contra hb'
      exact hx0 ((Elt.fs_eq_zero_iff hx).2 (by simpa using hb'))
    · intro t ht
      by_cases h0 : t.2 = 0
      · simp [h0]
      · have he := hx.fs_apply (g := t.1) (c := t.2) ht
        have hr := rx t.1 (by rw [he]; exact h0)
        obtain ⟨q, hq⟩ := Mod.exists_rat hr
        have := hu q (hq ▸ Elt.terms_mem_fst ht)
        subst this
        rw [hq] at he
        rw [hr, ← he, hunit]
        simp

end

/-- C32 fails if the rational generator is not one: over ℤ, in the module generated by 2, `2` counts as a unit although no element of the module
has the value `1/2`; in the module generated by `1/2`, the element `2·(1/2) = 1` does not count as a unit. -/
theorem unit_wrong :
    ((⟨⟨.mk, [.rat 2]⟩, [1]⟩ : Elt IntegerRing ℤ).unit = true ∧
      ∀ y : Elt IntegerRing ℤ, y.WF → y.mod = ⟨.mk, [.rat 2]⟩ → ∀ v : ℕ → ℝ,
        (⟨⟨.mk, [.rat 2]⟩, [1]⟩ : Elt IntegerRing ℤ).real v * y.real v ≠ 1) ∧
    ((⟨⟨.mk, [.rat (1 / 2)]⟩, [2]⟩ : Elt IntegerRing ℤ).unit = false ∧
      ∀ v : ℕ → ℝ, (⟨⟨.mk, [.rat (1 / 2)]⟩, [2]⟩ : Elt IntegerRing ℤ).real v = 1) := by
  refine ⟨⟨by simp [Elt.unit, Elt.toBool, Elt.terms, RN.isRat, RN.rational?, CRing.unit], ?_⟩,
    by simp [Elt.unit, Elt.toBool, Elt.terms, RN.isRat, RN.rational?, CRing.unit], ?_⟩
  · rintro ⟨m, cs⟩ w rfl v h
    have hl := w.length
    simp only [List.length_cons, List.length_nil, zero_add] at hl
    obtain ⟨c, rfl⟩ := List.length_eq_one_iff.1 hl
    simp [Elt.real, Elt.value, Elt.terms, RN.value] at h
    have hc : Elt.num IntegerRing c = ((c : ℤ) : ℝ) := by rw [← eq_intCast (Elt.num IntegerRing) c]
    try rw [hc] at h
    have h : ((2 * (c * 2) : ℤ) : ℝ) = ((1 : ℤ) : ℝ) := by
      rw [Int.cast_mul, Int.cast_mul]; simpa using h
    have h := Int.cast_injective h
    omega
  · intro v; simp [Elt.real, Elt.value, Elt.terms, RN.value]

/-- Non-vacuity: a unit and a non-unit over ℤ in a module with more generators. -/
example : (⟨sampleModule, [-1, 0, 0, 0]⟩ : Elt IntegerRing ℤ).unit = true ∧ (⟨sampleModule, [2, 0, 0, 0]⟩ : Elt IntegerRing ℤ).unit = false ∧
    sample.unit = false := by
  simp [sample, Elt.unit, Elt.toBool, Elt.terms, RN.isRat, RN.rational?, CRing.unit, sampleModule]

/-! ### C33 -/

section
variable {P : Type} [DecidableEq P] {R : Type} [CommRing R] [DecidableEq R] [CRing P R] [LawfulCRing P] [LawfulScalar P]

omit [LawfulCRing P] [LawfulScalar P] in
theorem one_find {m : Mod P} :
    (∃ g, ∃ h : g < m.basis.length, ∃ q, m.basis[g] = .rat q ∧ m.basis.findIdx? RN.isRat = some g) ∨
    (m.basis.findIdx? RN.isRat = none ∧ ∀ q : ℚ, .rat q ∉ m.basis) := by
  cases h : m.basis.findIdx? RN.isRat with
  | none =>
    right
    refine ⟨rfl, fun q hq => ?_⟩
    rw [List.findIdx?_eq_none_iff] at h
    simpa [RN.isRat, RN.rational?] using h _ hq
  | some g =>
    left
    rw [List.findIdx?_eq_some_iff_getElem] at h
    obtain ⟨hg, h1, -⟩ := h
    obtain ⟨q, hq⟩ := Mod.exists_rat h1
    exact ⟨g, hg, q, hq, rfl⟩

/-- C33, soundness: if `one` returns, the result is an element of the module with the value 1. -/
theorem one_sound {m : Mod P} (hm : m.WF) {e : Elt P R} (h : m.one = .ok e) : e.WF ∧ e.mod = m ∧ ∀ v : ℕ → ℝ, e.real v = 1 := by
  unfold Mod.one at h
  rcases one_find (m := m) with ⟨g, hg, q, hq, hi⟩ | ⟨hi, -⟩
  · simp only [hi, List.getElem?_eq_getElem hg, hq, Option.bind_some, RN.rational?] at h
    obtain ⟨x, hx, hxs⟩ := Mod.gen_spec (R := R) hm hg
    obtain ⟨wx, fx⟩ := Mod.single_spec (R := R) hm (List.getElem_mem hg) (d := 1) (Subring.one_mem _)
    rw [← hxs] at wx fx
    have hxm : x.mod = m := by rw [hxs]; rfl
    have hxr : ∀ v : ℕ → ℝ, x.real v = q := fun v => by rw [single_real v fx, hq]; simp [RN.value]
    rw [hx] at h
    simp only [Out.ok_bind] at h
    split at h
    · split at h
      · rename_i hn
        obtain ⟨y, hy, wy, my, vy⟩ := imulZ_value wx (q.den : ℤ)
        rw [hy, Elt.result_done] at h
        cases h
        refine ⟨wy, by rw [my, hxm], fun v => ?_⟩
        rw [vy, hxr]
        have := Rat.mul_den_eq_num q
        rw [hn] at this
        exact_mod_cast this
      · cases h
    · split at h
      · cases h
      · rename_i hn
        rcases (imulQ_value wx ((q.den : ℚ) / (q.num : ℚ))).1 with ⟨y, hy⟩ | ⟨y, hy⟩
        · obtain ⟨wy, my, vy⟩ := (imulQ_value wx _).2.2 y hy
          rw [hy, Elt.result_done] at h
          cases h
          refine ⟨wy, by rw [my, hxm], fun v => ?_⟩
          rw [vy, hxr]
          have hq0 : q ≠ 0 := by rintro rfl; simp at hn
          have h1 : q * ((q.den : ℚ) / (q.num : ℚ)) = 1 := by
            have h2 : (q.den : ℚ) ≠ 0 := by exact_mod_cast q.den_nz
            have h3 : (q.num : ℚ) ≠ 0 := by exact_mod_cast Rat.num_ne_zero.2 hq0
            rw [mul_div_assoc', div_eq_one_iff_eq h3, Rat.mul_den_eq_num]
          exact_mod_cast h1
        · rw [hy, Elt.result_fail] at h; cases h
  · simp only [hi] at h; cases h

/-- C33, completeness, for modules whose rational generator (if any) is positive: `one` returns if the module contains an element of value 1, and
throws a `logic_error` otherwise.  Missing: non-positive rational generators, see `one_wrong`. -/
theorem one_complete_partial {v : ℕ → ℝ} (hv : AlgebraicIndependent ℚ v) {m : Mod P} (hm : m.WF) (hpos : ∀ q : ℚ, .rat q ∈ m.basis → 0 < q)
    (hfield : CRing.isIntegers P = false → CRing.isField P = true)
    (hint : CRing.isIntegers P = true → ∀ c : R, ∃ n : ℤ, Elt.num P c = n) :
    ((∃ x : Elt P R, x.WF ∧ x.mod = m ∧ x.real v = 1) ∧ ∃ e : Elt P R, m.one = .ok e) ∨
    ((¬ ∃ x : Elt P R, x.WF ∧ x.mod = m ∧ x.real v = 1) ∧ (m.one : Out (Elt P R)) = .throws .logicError) := by
  have done : ∀ {e : Elt P R}, m.one = .ok e → ((∃ x : Elt P R, x.WF ∧ x.mod = m ∧ x.real v = 1) ∧ ∃ e : Elt P R, m.one = .ok e) :=
    fun {e} h => ⟨⟨e, (one_sound hm h).1, (one_sound hm h).2.1, (one_sound hm h).2.2 v⟩, e, h⟩
  rcases one_find (m := m) with ⟨g, hg, q, hq, hi⟩ | ⟨hi, hno⟩
  · have hqm : .rat q ∈ m.basis := hq ▸ List.getElem_mem hg
    have hq0 := hpos q hqm
    obtain ⟨x, hx, hxs⟩ := Mod.gen_spec (R := R) hm hg
    obtain ⟨wx, fx⟩ := Mod.single_spec (R := R) hm (List.getElem_mem hg) (d := 1) (Subring.one_mem _)
    rw [← hxs] at wx fx
    have hone : (m.one : Out (Elt P R)) = if CRing.isIntegers P then (if q.num = 1 then (Elt.imulZ x q.den).result else .throws .logicError)
        else if q.num ≤ 0 then .ub else (Elt.imulQ x (q.den / q.num)).result := by
      unfold Mod.one
      simp only [hi, List.getElem?_eq_getElem hg, hq, Option.bind_some, RN.rational?, hx, Out.ok_bind]
    by_cases hI : CRing.isIntegers P = true
    · rw [if_pos hI] at hone
      by_cases hn : q.num = 1
      · obtain ⟨y, hy, -⟩ := imulZ_value wx (q.den : ℤ)
        rw [if_pos hn, hy, Elt.result_done] at hone
        exact .inl (done hone)
      · rw [if_neg hn] at hone
        right
        refine ⟨?_, hone⟩
        rintro ⟨y, wy, my, hy⟩
        have ry := fun k hk => Elt.rat_of_real_alg hv wy (a := 1) (by rw [hy, map_one]) (g := k) hk
        have hyf : y.fs = Finsupp.single (.rat q) (y.fs (.rat q)) := by
          ext k
          rw [Finsupp.single_apply]
          split
          · rename_i h; rw [h]
          · rename_i h
            by_contra hk
            apply h
            have := (Elt.fs_support_WF wy hk).1
            rw [my] at this
            exact hm.rat_unique hqm this rfl (ry k hk)
        rw [single_real v hyf] at hy
        obtain ⟨n, hn'⟩ := hint hI (y.fs (.rat q))
        rw [hn'] at hy
        simp only [RN.value] at hy
        have h1 : (n : ℚ) * q = 1 := by
          have : ((n : ℝ)) * ((q : ℚ) : ℝ) = 1 := by simpa using hy
          exact_mod_cast this
        apply hn
        have h2 : n * q.num = q.den := by
          have h3 : (q.den : ℚ) ≠ 0 := by exact_mod_cast q.den_nz
          have : (n : ℚ) * q.num = q.den := by rw [← Rat.mul_den_eq_num q, ← _root_.mul_assoc, h1, one_mul']
          exact_mod_cast this
        have hdvd : q.num ∣ q.den := ⟨n, by rw [← h2, _root_.mul_comm]⟩
        have hcop : IsCoprime q.num (q.den : ℤ) := Int.isCoprime_iff_gcd_eq_one.2 (by simpa [Int.gcd] using q.reduced)
        have hu := hcop.isUnit_of_dvd' (dvd_refl _) hdvd
        rcases Int.isUnit_iff.1 hu with h | h
        · exact h
        · have := Rat.num_pos.2 hq0; omega
    · have hI' : CRing.isIntegers P = false := by simpa using hI
      have hn : ¬ q.num ≤ 0 := not_le.2 (Rat.num_pos.2 hq0)
      rw [if_neg hI, if_neg hn] at hone
      obtain ⟨y, hy⟩ := (field_scale_defined (hfield hI') wx ((q.den : ℚ) / q.num)).1
      rw [hy, Elt.result_done] at hone
      exact .inl (done hone)
  · right
    refine ⟨?_, by unfold Mod.one; simp only [hi]⟩
    rintro ⟨y, wy, my, hy⟩
    have ry := fun k hk => Elt.rat_of_real_alg hv wy (a := 1) (by rw [hy, map_one]) (g := k) hk
    have : y.fs = 0 := by
      ext k
      by_contra hk
      obtain ⟨q, rfl⟩ := Mod.exists_rat (ry k hk)
      exact hno q (my ▸ (Elt.fs_support_WF wy hk).1)
    rw [Elt.real_eq_evalF, this, Elt.evalF_zero] at hy
    exact zero_ne_one hy
where
  one_mul' {a : ℚ} : 1 * a = a := _root_.one_mul a

end

/-- The hypotheses about the ring in `one_complete_partial` hold for all rings of the library. -/
theorem one_complete_rings :
    (CRing.isIntegers RationalField = false ∧ CRing.isField RationalField = true) ∧
    (CRing.isIntegers NumberField = false ∧ CRing.isField NumberField = true) ∧
    (CRing.isIntegers IntegerRing = true ∧ ∀ c : ℤ, ∃ n : ℤ, Elt.num IntegerRing c = n) :=
  ⟨⟨rfl, rfl⟩, ⟨rfl, rfl⟩, rfl, fun c => ⟨c, by rw [← eq_intCast (Elt.num IntegerRing) c]⟩⟩

/-- C33 fails for negative rational generators: over ℤ, in the module generated by `-1`, which contains `1 = (-1)·(-1)`, `one` throws; over ℚ
it computes with a non-canonical rational (undefined behaviour). -/
theorem one_wrong :
    ((Mod.one ⟨.mk, [.rat (-1)]⟩ : Out (Elt IntegerRing ℤ)) = .throws .logicError ∧
      ∀ v : ℕ → ℝ, (⟨⟨.mk, [.rat (-1)]⟩, [-1]⟩ : Elt IntegerRing ℤ).real v = 1) ∧
    ((Mod.one ⟨.mk, [.rat (-1)]⟩ : Out (Elt RationalField ℚ)) = .ub ∧
      ∀ v : ℕ → ℝ, (⟨⟨.mk, [.rat (-1)]⟩, [-1]⟩ : Elt RationalField ℚ).real v = 1) := by
  refine ⟨⟨?_, ?_⟩, ?_, ?_⟩
  · simp [Mod.one, RN.isRat, RN.rational?, CRing.isIntegers, List.findIdx?_cons]
  · intro v; simp [Elt.real, Elt.value, Elt.terms, RN.value]
  · simp [Mod.one, RN.isRat, RN.rational?, CRing.isIntegers, List.findIdx?_cons]
  · intro v; simp [Elt.real, Elt.value, Elt.terms, RN.value]

example : ∃ e : Elt IntegerRing ℤ, sampleModule.one = .ok e ∧ e.coeffs = [1, 0, 0, 0] := by
  refine ⟨⟨sampleModule, [1, 0, 0, 0]⟩, ?_, rfl⟩
  simp [Mod.one, sampleModule, RN.isRat, RN.rational?, CRing.isIntegers, List.findIdx?_cons, Mod.gen, Elt.imulZ, Elt.scale, Elt.scaleLoop,
    CRing.imulZ, IntegerRing.imulZ, Step.done, Step.result]

/-! ### C53 -/

section
variable {P : Type} [DecidableEq P] {R : Type} [CommRing R] [DecidableEq R] [CRing P R] [LawfulCRing P] [b : Build]

omit [DecidableEq P] [CRing P R] [LawfulCRing P] b in
theorem eqRNLoop_iff (r : RN) (l : List (RN × R)) (h10 : (1 : R) ≠ 0) : Elt.eqRNLoop r l = true ↔ ∀ t ∈ l, t.2 = if t.1 = r then 1 else 0 := by
  induction l with
  | nil => simp [Elt.eqRNLoop]
  | cons t l ih =>
    obtain ⟨g, c⟩ := t
    rw [Elt.eqRNLoop, List.forall_mem_cons, ← ih]
    by_cases hg : g = r
    · by_cases h0 : c = 0
      · simp [h0, hg, h10.symm]
      · by_cases h1 : c = 1 <;> simp [h0, h1, hg, h10]
    · by_cases h0 : c = 0
      · simp [h0, hg]
      · by_cases h1 : c = 1 <;> simp [h0, hg, h10]

/-- C53. If `r` is a generator of the module of `x`, or `x` is zero, then `x == r` returns whether the value of `x` is the value of `r`. -/
theorem eqRN_iff {v : ℕ → ℝ} (hv : AlgebraicIndependent ℚ v) {x : Elt P R} (hx : x.WF) (hz : x.NoZeroGen) {r : RN}
    (hr : r ∈ x.mod.basis ∨ x.toBool = false) : ∃ t, x.eqRN r = .ok t ∧ (t = true ↔ x.real v = r.value v) := by
  have h10 : (1 : R) ≠ 0 := by
    intro h
    have := congrArg (Elt.num P) h
    rw [map_one, map_zero] at this
    exact one_ne_zero this
  unfold Elt.eqRN
  by_cases hb : x.toBool = false
  · rw [if_pos (by simp [hb])]
    refine ⟨_, rfl, ?_⟩
    rw [(bool_iff hv hx hz).1 hb, Bool.not_eq_true', rn_bool_iff hv]
    exact eq_comm
  · have hr := hr.resolve_right hb
    rw [if_neg (by simpa using hb)]
    have hc : checkArgument (x.mod.basis.any fun g => g = r) = .ok () := by
      rw [checkArgument, if_neg]
      simp only [Bool.and_eq_true, Bool.not_eq_true', not_and, Bool.not_eq_false]
      intro _
      exact List.any_eq_true.2 ⟨r, hr, by simp⟩
    rw [hc]
    refine ⟨_, rfl, ?_⟩
    obtain ⟨ws, fs⟩ := Mod.single_spec (R := R) hx.mod hr (d := 1) (Subring.one_mem _)
    have h1 : r.value v = (x.mod.single r (1 : R)).real v := by
      rw [single_real v fs, map_one, _root_.one_mul]
    rw [h1, Elt.real_eq_iff_same hv hx ws rfl hz, fs, eqRNLoop_iff r _ h10]
    constructor
    · intro h
      ext g
      rw [Finsupp.single_apply]
      by_cases hg : g ∈ x.mod.basis
      · rw [← Elt.terms_fst hx.length] at hg
        obtain ⟨t, ht, rfl⟩ := List.mem_map.1 hg
        rw [hx.fs_apply (g := t.1) (c := t.2) ht, h t ht]
        simp [eq_comm]
      · rw [Elt.fs_apply_of_not_mem hx hg, if_neg]
        rintro rfl; exact hg hr
    · intro h t ht
      have := hx.fs_apply (g := t.1) (c := t.2) ht
      rw [h, Finsupp.single_apply] at this
      rw [← this]; simp [eq_comm]

/-- C53. With argument checks enabled, `x == r` returns or throws `invalid_argument`; it throws exactly if `x` is non-zero and `r` is not a
generator of its module. -/
theorem eqRN_throws_iff (hc : b.checks = true) (x : Elt P R) (r : RN) :
    ((∃ t, x.eqRN r = .ok t) ∨ x.eqRN r = .throws .invalidArgument) ∧
    (x.eqRN r = .throws .invalidArgument ↔ x.toBool = true ∧ r ∉ x.mod.basis) := by
  unfold Elt.eqRN
  by_cases hb : x.toBool = false
  · rw [if_pos (by simp [hb])]
    simp [hb]
  · rw [if_neg (by simpa using hb)]
    by_cases hr : r ∈ x.mod.basis
    · have : checkArgument (x.mod.basis.any fun g => g = r) = .ok () := by
        rw [checkArgument, if_neg]
        simpa [hc] using hr
      rw [this]; simp [hr]
    · have : checkArgument (x.mod.basis.any fun g => g = r) = .throws .invalidArgument := by
        rw [checkArgument, if_pos]
        simp only [hc, Bool.true_and, Bool.not_eq_true', List.any_eq_false, decide_eq_true_eq]
        rintro g hg rfl; exact hr hg
      rw [this]; simpa [hr] using hb

end

example [Build] : (⟨sampleModule, [0, 1, 0, 0]⟩ : Elt IntegerRing ℤ).eqRN (.atom 5) = .ok true := by
  simp [Elt.eqRN, Elt.toBool, sampleModule, checkArgument, Elt.eqRNLoop, Elt.terms]

end ExactReal.Props
