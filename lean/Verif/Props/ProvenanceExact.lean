import Verif.Props.Provenance
import Verif.Lemma.IndependentAtoms

/-!
# C97: the random numbers that occur are those on which the value depends
-/

namespace ExactReal
open Finsupp

theorem RN.value_update (g : RN) (v : ℕ → ℝ) (i : ℕ) (h : g.isRat = false ∨ g.mult i = 0) :
    g.value (Function.update v i 0) = if g.mult i = 0 then g.value v else 0 := by
  rw [RN.value_eq, RN.value_eq v g]
  split_ifs with h0
  · congr 1
    refine Finset.prod_congr rfl fun j hj => ?_
    have : j ≠ i := by rintro rfl; rw [Finsupp.mem_support_iff] at hj; exact hj h0
    simp [this]
  · rw [Finsupp.prod, Finset.prod_eq_zero (i := i) (Finsupp.mem_support_iff.2 h0) (by simp [h0]), mul_zero]

namespace Props
variable {P : Type} [DecidableEq P] {R : Type} [CommRing R] [DecidableEq R] [CRing P R] [LawfulCRing P]

theorem RN_value_agree (g : RN) {v v' : ℕ → ℝ} (h : ∀ j ∈ g.involved, v j = v' j) : g.value v = g.value v' := by
  rw [RN.value_eq, RN.value_eq v' g]
  congr 1
  exact Finset.prod_congr rfl fun j hj => by simp only; rw [h j (Finsupp.mem_support_iff.1 hj)]

/-- C97. The value of an element depends on exactly the random numbers that occur in generators with a coefficient that is not zero. -/
theorem elt_depends_iff {x : Elt P R} (hx : x.WF) (zx : x.NoZeroGen) (i : ℕ) :
    (∃ v v' : ℕ → ℝ, (∀ j, j ≠ i → v j = v' j) ∧ x.real v ≠ x.real v') ↔ ∃ t ∈ x.terms, t.2 ≠ 0 ∧ i ∈ t.1.involved := by
  constructor
  · rintro ⟨v, v', h, hne⟩
    by_contra hc
    push Not at hc
    apply hne
    unfold Elt.real Elt.value
    congr 1
    refine List.map_congr_left fun t ht => ?_
    by_cases h0 : t.2 = 0
    · rw [h0, map_zero, zero_mul, zero_mul]
    · rw [RN_value_agree t.1 fun j hj => h j ?_]
      rintro rfl
      exact hc t ht h0 hj
  · rintro ⟨t, ht, h0, hi⟩
    by_contra hc
    push Not at hc
    let f : RN × R → R := fun t => if t.1.mult i = 0 then t.2 else 0
    let y : Elt P R := ⟨x.mod, x.terms.map f⟩
    have ylen : y.coeffs.length = y.mod.basis.length := by
      show (x.terms.map f).length = x.mod.basis.length
      rw [List.length_map, ← Elt.terms_fst hx.length, List.length_map]
    have wy : y.WF := by
      refine ⟨hx.mod, ylen, ?_⟩
      intro c hcm
      obtain ⟨t, ht, rfl⟩ := List.mem_map.1 hcm
      show (if t.1.mult i = 0 then t.2 else 0) ∈ _
      split_ifs
      · exact hx.mem _ (Elt.terms_mem_snd ht)
      · exact Subring.zero_mem _
    have ht' : y.terms = x.terms.map fun t => (t.1, f t) := by
      show x.mod.basis.zip (x.terms.map f) = _
      conv_lhs => rw [← Elt.terms_fst hx.length]
      rw [List.zip_map']
    obtain ⟨v, hv⟩ := exists_independent
    have e : x.real v = y.real v := by
      rw [hc v (Function.update v i 0) fun j hj => by simp [hj]]
      unfold Elt.real Elt.value
      rw [ht', List.map_map]
      congr 1
      refine List.map_congr_left fun t ht => ?_
      simp only [Function.comp, f]
      have hr : t.1.isRat = false ∨ t.1.mult i = 0 := by
        cases t.1 with
        | rat q => exact .inr rfl
        | _ => exact .inl rfl
      rw [RN.value_update _ _ _ hr]
      split_ifs
      · rfl
      · rw [map_zero, mul_zero, zero_mul]
    let _ : Build := ⟨true, true⟩
    have h1 := (Elt.real_eq_iff hv hx wy zx zx (.inl rfl)).1 e
    have h2 : x.coeffs = y.coeffs := (Elt.coeffs_eq_iff hx wy rfl).2 h1
    have h3 : x.terms.map Prod.snd = x.terms.map f := by rw [Elt.terms_snd hx.length]; exact h2
    have h4 := List.map_inj_left.1 h3 t ht
    have : t.1.mult i ≠ 0 := hi
    simp only [f, this, if_false] at h4
    exact h0 h4

/-- C97. In an element that is simplified occur exactly the random numbers on which its value depends. -/
theorem simplify_involved [Build] {x y : Elt P R} (hx : x.WF) (zx : x.NoZeroGen) (h : x.simplify = .ok y) (i : ℕ) :
    i ∈ y.involved ↔ ∃ v v' : ℕ → ℝ, (∀ j, j ≠ i → v j = v' j) ∧ x.real v ≠ x.real v' := by
  obtain ⟨z, h1, -, -, -, h2, h3⟩ := simplify_spec hx
  rw [h] at h1; cases h1
  rw [elt_depends_iff hx zx]
  constructor
  · rintro ⟨g, hg, hi⟩
    obtain ⟨c, hc, ht⟩ := (h2 g).1 hg
    exact ⟨(g, c), ht, hc, hi⟩
  · rintro ⟨⟨g, c⟩, ht, hc, hi⟩
    exact ⟨g, (h2 g).2 ⟨c, hc, ht⟩, hi⟩

/-- `3 + 2 a - b` over the basis `1, a, b, a b` depends on `a` and `b`, the atoms 5 and 7. -/
example : ∃ v v' : ℕ → ℝ, (∀ j, j ≠ 5 → v j = v' j) ∧ sample.real v ≠ sample.real v' :=
  (elt_depends_iff sample_WF (by simp [Elt.NoZeroGen, sample, sampleModule]) 5).2 ⟨(.atom 5, 2), by simp [sample, sampleModule, Elt.terms], by decide, by simp [RN.involved]⟩

end Props
end ExactReal
