import Verif.Props.Convert
import Verif.Props.Module
import Mathlib.NumberTheory.Real.Irrational

/-!
# C50: elements over different number fields

A `NumberField` object is a field of real algebraic numbers together with a presentation; `subfield = ⊥` is the field ℚ.
-/

namespace ExactReal.Props
open ExactReal

variable [Build]

omit [Build] in
/-- C50. Two number fields have a compositum for the library exactly if they are the same object or one of them is ℚ; otherwise a
`logic_error` is thrown.  The compositum contains both. -/
theorem nf_compositum (p q : NumberField) :
    ((∃ r, CRing.compositum p q = .ok r) ∨ CRing.compositum p q = .throws .logicError) ∧
    ((∃ r, CRing.compositum p q = .ok r) ↔ p = q ∨ p.subfield = ⊥ ∨ q.subfield = ⊥) ∧
    ∀ r, CRing.compositum p q = .ok r → (r = p ∨ r = q) ∧ p.subfield ≤ r.subfield ∧ q.subfield ≤ r.subfield := by
  refine ⟨LawfulCRing.compositum_outcomes p q, ?_, fun r h => ?_⟩
  · rw [← NumberField.compositum_isOk]
    constructor
    · rintro ⟨r, h⟩; exact Mod.isOk_of h
    · intro h
      rcases LawfulCRing.compositum_outcomes p q with h' | h'
      · exact h'
      · exfalso
        have : NumberField.compositum p q = .throws .logicError := h'
        rw [this] at h; cases h
  · rcases NumberField.compositum_cases h with ⟨rfl, rfl⟩ | ⟨hb, rfl⟩ | ⟨hb, rfl⟩
    · exact ⟨.inl rfl, le_rfl, le_rfl⟩
    · exact ⟨.inr rfl, by rw [hb]; exact bot_le, le_rfl⟩
    · exact ⟨.inl rfl, le_rfl, by rw [hb]; exact bot_le⟩

/-- C50. Sum, difference, product and comparison of elements over number fields: whatever the fields are, they return a right value or throw a
`logic_error`. -/
theorem nf_mixed_sound {x y : Elt NumberField AlgReal} (hx : x.WF) (hy : y.WF) :
    ((∃ z, x.add y = .ok z ∧ z.WF ∧ ∀ v : ℕ → ℝ, z.real v = x.real v + y.real v) ∨ x.add y = .throws .logicError) ∧
    ((∃ z, x.sub y = .ok z ∧ z.WF ∧ ∀ v : ℕ → ℝ, z.real v = x.real v - y.real v) ∨ x.sub y = .throws .logicError) ∧
    ((∃ z, x.mul y = .ok z ∧ z.WF ∧ ∀ v : ℕ → ℝ, z.real v = x.real v * y.real v) ∨ x.mul y = .throws .logicError) ∧
    ((∃ r, x.eq y = .ok r ∧ (r = true → ∀ v : ℕ → ℝ, x.real v = y.real v)) ∨ x.eq y = .throws .logicError) := by
  refine ⟨?_, ?_, ?_, ?_⟩
  · rcases (add_fails_iff hx hy).1 with ⟨z, h⟩ | h
    · have h : x.add y = .ok z := by rw [Elt.add, h]; rfl
      exact .inl ⟨z, h, add_value hx hy h⟩
    · right; rw [Elt.add, h]; rfl
  · rcases (sub_defined_iff hx hy).1 with ⟨z, h⟩ | h
    · have h : x.sub y = .ok z := by rw [Elt.sub, h]; rfl
      exact .inl ⟨z, h, sub_value hx hy h⟩
    · right; rw [Elt.sub, h]; rfl
  · rcases (elt_mul_fails_iff hx hy).1 with ⟨z, h⟩ | ⟨x', h, -⟩
    · have h : x.mul y = .ok z := by rw [Elt.mul, h]; rfl
      exact .inl ⟨z, h, elt_mul_value hx hy h⟩
    · right; rw [Elt.mul, h]; rfl
  · rcases (eq_throws_iff hx hy).1 with ⟨r, h⟩ | h
    · refine .inl ⟨r, h, ?_⟩
      rintro rfl
      exact eq_sound hx hy h
    · exact .inr h

/-- C50. All of them succeed if the fields are the same or one of them is ℚ (in modules whose rational generator, if any, is one). -/
theorem nf_mixed_defined {x y : Elt NumberField AlgReal} (hx : x.WF) (hy : y.WF) (ux : x.mod.Unital) (uy : y.mod.Unital)
    (h : x.mod.par = y.mod.par ∨ x.mod.par.subfield = ⊥ ∨ y.mod.par.subfield = ⊥) :
    (∃ z, x.add y = .ok z) ∧ (∃ z, x.sub y = .ok z) ∧ (∃ z, x.mul y = .ok z) ∧ ∃ r, x.eq y = .ok r := by
  have hc : (CRing.compositum x.mod.par y.mod.par).isOk = true := (NumberField.compositum_isOk _ _).2 h
  refine ⟨elt_add_defined hx hy ux uy hc, ?_, elt_mul_defined hx hy ux uy hc,
    Elt.eq_isOk hx hy (.inr (.inr hc)) fun p q hp hq => by rw [ux p hp, uy q hq]⟩
  obtain ⟨w, hm, -⟩ := Elt.neg_spec hy
  exact elt_add_defined hx w ux (by rw [hm]; exact uy) (by rw [hm]; exact hc)

/-- C50. They throw if the two fields are different and neither is ℚ (for elements of non-trivial modules, and for products of non-zero
elements). -/
theorem nf_mixed_throws {x y : Elt NumberField AlgReal} (hx : x.WF) (hy : y.WF) (bx : x.mod.basis ≠ []) (by_ : y.mod.basis ≠ [])
    (h : x.mod.par ≠ y.mod.par) (h1 : x.mod.par.subfield ≠ ⊥) (h2 : y.mod.par.subfield ≠ ⊥) :
    x.add y = .throws .logicError ∧ x.eq y = .throws .logicError ∧
    (x.toBool = true → y.toBool = true → x.mul y = .throws .logicError) := by
  have hc : CRing.compositum x.mod.par y.mod.par = .throws .logicError := by
    rcases (nf_compositum x.mod.par y.mod.par).1 with h' | h'
    · rw [(nf_compositum _ _).2.1] at h'; tauto
    · exact h'
  have hs : Mod.span x.mod y.mod = .throws .logicError := by
    rw [(span_throws_iff (R := AlgReal) hx.mod hy.mod).2]
    exact ⟨bx, by_, .inl hc⟩
  have hm : x.mod ≠ y.mod := fun e => h (by rw [e])
  refine ⟨?_, (eq_throws_iff hx hy).2.2 ⟨hm, hs⟩, fun x0 y0 => ?_⟩
  · rw [Elt.add, (add_fails_iff hx hy).2.2 ⟨hm, hs⟩]; rfl
  · obtain ⟨x', h'⟩ := (elt_mul_fails_iff hx hy).2.2 ⟨x0, y0, .inl hc⟩
    rw [Elt.mul, h']; rfl

omit [Build] in
/-- C50. The compositum of two presentations of ℚ depends on the order (so `x + y` and `y + x` may carry different ring objects; they still compare
equal, `add_comm_eq`). -/
theorem nf_compositum_order : CRing.compositum (⟨⊥, 0⟩ : NumberField) ⟨⊥, 1⟩ = .ok ⟨⊥, 1⟩ ∧
    CRing.compositum (⟨⊥, 1⟩ : NumberField) ⟨⊥, 0⟩ = .ok ⟨⊥, 0⟩ := by
  constructor <;> simp [CRing.compositum, NumberField.compositum]

/-- √2 as a real algebraic number. -/
theorem exists_sqrt2 : ∃ s : AlgReal, s * s = 2 ∧ s ∉ (⊥ : IntermediateField ℚ AlgReal) := by
  have halg : IsAlgebraic ℚ (Real.sqrt 2) := by
    refine IsAlgebraic.of_pow (n := 2) (by norm_num) ?_
    rw [Real.sq_sqrt (by norm_num)]
    simpa using (isAlgebraic_algebraMap (A := ℝ) (2 : ℚ))
  have hmem : Real.sqrt 2 ∈ algebraicClosure ℚ ℝ := mem_algebraicClosure_iff.2 halg
  refine ⟨⟨Real.sqrt 2, hmem⟩, ?_, ?_⟩
  · apply Subtype.ext
    show Real.sqrt 2 * Real.sqrt 2 = _
    rw [Real.mul_self_sqrt (by norm_num)]; rfl
  · rw [IntermediateField.mem_bot]
    rintro ⟨q, hq⟩
    have h := congrArg (algebraMap AlgReal ℝ) hq
    rw [alg_ratCast] at h
    exact irrational_sqrt_two ⟨q, h⟩

/-- C50, a gap: multiplying an element over ℚ by √2 in place returns, but the module (with its ring ℚ) is not changed, so the result violates the
invariant that coefficients are in the ring of the module. -/
theorem nf_imulR_leaves_ring : ∃ s : AlgReal, s ∉ LawfulCRing.mem (⟨⊥, 0⟩ : NumberField) ∧
    (⟨⟨⟨⊥, 0⟩, [.rat 1]⟩, [1]⟩ : Elt NumberField AlgReal).imulR s = .done ⟨⟨⟨⊥, 0⟩, [.rat 1]⟩, [s]⟩ ∧
    ¬ (⟨⟨⟨⊥, 0⟩, [.rat 1]⟩, [s]⟩ : Elt NumberField AlgReal).WF := by
  obtain ⟨s, -, hs⟩ := exists_sqrt2
  refine ⟨s, hs, ?_, fun w => hs (w.mem s (by simp))⟩
  simp [Elt.imulR, Elt.scale, Elt.scaleLoop, CRing.imulR, NumberField.imul, Step.done]

/-- C30, the exception: over a module with the generator `rational(0)` (finding F11) and a number field, there is an element that is 0 but does not convert to a rational, and does not compare
equal to 0. -/
theorem rational_zero_generator : ∃ x : Elt NumberField AlgReal, x.WF ∧ (∀ v, x.real v = 0) ∧ x.rational? = none ∧ x.eqZ 0 = false := by
  obtain ⟨s, -, hs⟩ := exists_sqrt2
  have h0 : s ≠ 0 := by rintro rfl; exact hs (IntermediateField.zero_mem _)
  have hr : NumberField.rational s = none := by
    rw [NumberField.rational, dif_neg]
    rintro ⟨q, rfl⟩
    exact hs (IntermediateField.algebraMap_mem _ q)
  have hrat : (⟨⟨⟨⊤, 0⟩, [.rat 0]⟩, [s]⟩ : Elt NumberField AlgReal).rational? = none := by
    simp [Elt.rational?, Elt.rationalLoop, Elt.terms, h0, RN.rational?, CRing.rational, hr]
  refine ⟨⟨⟨⟨⊤, 0⟩, [.rat 0]⟩, [s]⟩, ⟨⟨by simp [RN.WF], by simp⟩, rfl, fun c _ => (IntermediateField.mem_top : c ∈ (⊤ : IntermediateField ℚ AlgReal))⟩, fun v => ?_, hrat, ?_⟩
  · simp [Elt.real, Elt.value, Elt.terms, RN.value]
  · simp [Elt.eqZ, Elt.eqQ, hrat]

/-- Non-vacuity: a sum of an element over ℚ and one over ℚ(√2). -/
example : ∃ K : NumberField, K.subfield ≠ ⊥ ∧ ∃ x y z : Elt NumberField AlgReal, x.WF ∧ y.WF ∧ x.mod.par.subfield = ⊥ ∧ y.mod.par = K ∧
    x.toBool = true ∧ y.toBool = true ∧ x.add y = .ok z ∧ z.mod.par = K := by
  obtain ⟨s, -, hs⟩ := exists_sqrt2
  have hK : (⊤ : IntermediateField ℚ AlgReal) ≠ ⊥ := fun h => hs (h ▸ IntermediateField.mem_top)
  have hmod : ∀ p : NumberField, (⟨p, [.rat 1]⟩ : Mod NumberField).WF := fun p => ⟨by simp [RN.WF], by simp⟩
  have wx : (⟨⟨⟨⊥, 0⟩, [.rat 1]⟩, [1]⟩ : Elt NumberField AlgReal).WF := ⟨hmod _, rfl, by simp [Subring.one_mem]⟩
  have wy : (⟨⟨⟨⊤, 0⟩, [.rat 1]⟩, [s]⟩ : Elt NumberField AlgReal).WF := ⟨hmod _, rfl, fun c _ => (IntermediateField.mem_top : c ∈ (⊤ : IntermediateField ℚ AlgReal))⟩
  obtain ⟨⟨z, hz⟩, -⟩ := nf_mixed_defined wx wy (by simp [Mod.Unital]) (by simp [Mod.Unital]) (.inr (.inl rfl))
  refine ⟨⟨⊤, 0⟩, hK, _, _, z, wx, wy, rfl, rfl, by simp [Elt.toBool], ?_, hz, ?_⟩
  · have : s ≠ 0 := by rintro rfl; exact hs (IntermediateField.zero_mem _)
    simp [Elt.toBool, this]
  · rcases Elt.add_cases wx wy with ⟨t, z', ht, h', -, hm, -⟩ | ⟨-, -, h'⟩
    · rw [Elt.add, h', Elt.result_done] at hz
      cases hz
      rcases ht with ⟨he, -⟩ | ht
      · have := congrArg (fun m => m.par.subfield) he
        exact absurd this.symm hK
      · obtain ⟨-, -, ⟨h, -⟩ | ⟨h, -⟩ | ⟨-, -, h⟩⟩ := Mod.span_ok (R := AlgReal) wx.mod wy.mod ht
        · cases h
        · cases h
        · rw [hm]
          have h : NumberField.compositum ⟨⊥, 0⟩ ⟨⊤, 0⟩ = .ok t.par := h
          rcases NumberField.compositum_cases h with ⟨he, -⟩ | ⟨-, h⟩ | ⟨he, -⟩
          · exact absurd (congrArg NumberField.subfield he).symm hK
          · exact h
          · exact absurd he hK
    · rw [Elt.add, h', Elt.result_fail] at hz; cases hz

end ExactReal.Props
