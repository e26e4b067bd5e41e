import Verif.Lemma.Mul
import Verif.Lemma.Eq
import Verif.Lemma.Independent

/-! When comparisons do not throw. -/

namespace ExactReal
variable {P : Type} [DecidableEq P] {R : Type} [CommRing R] [DecidableEq R] [CRing P R] [LawfulCRing P]

namespace Mod

/-- The rings of two modules have a compositum, or one of the modules is trivial. -/
def Joinable (m n : Mod P) : Prop := m.basis = [] ∨ n.basis = [] ∨ (CRing.compositum m.par n.par).isOk = true

omit [LawfulCRing P] in
theorem isOk_of {α : Type} {o : Out α} {a : α} (h : o = .ok a) : o.isOk = true := by rw [h]; rfl

theorem compositum_isOk_symm {p q : P} (h : (CRing.compositum p q).isOk = true) : (CRing.compositum q p).isOk = true := by
  rcases LawfulCRing.compositum_outcomes p q with ⟨r, hr⟩ | hr
  · obtain ⟨r', hr'⟩ := LawfulCRing.compositum_symm hr
    exact isOk_of hr'
  · rw [hr] at h; cases h

theorem Joinable.symm {m n : Mod P} (h : Joinable m n) : Joinable n m := by
  rcases h with h | h | h
  · exact .inr (.inl h)
  · exact .inl h
  · exact .inr (.inr (compositum_isOk_symm h))

theorem Joinable.refl (m : Mod P) : Joinable m m := .inr (.inr (isOk_of (LawfulCRing.compositum_self _)))

theorem joinable_of_span {m n t : Mod P} (hm : m.WF) (hn : n.WF) (h : Mod.span m n = .ok t) : Joinable m n := by
  obtain ⟨-, -, ⟨h, -⟩ | ⟨h, -⟩ | ⟨-, -, h⟩⟩ := Mod.span_ok (R := R) hm hn h
  · exact .inl h
  · exact .inr (.inl h)
  · exact .inr (.inr (isOk_of h))

theorem joinable_span {m n t : Mod P} (s : Mod P) (hm : m.WF) (hn : n.WF) (h : Mod.span m n = .ok t) :
    Joinable s t ↔ Joinable s m ∧ Joinable s n := by
  by_cases hs : s.basis = []
  · simp [Joinable, hs]
  obtain ⟨-, hb, ⟨h1, rfl⟩ | ⟨h1, rfl⟩ | ⟨h1, h2, h⟩⟩ := Mod.span_ok (R := R) hm hn h
  · simp [Joinable, h1]
  · simp [Joinable, h1]
  · have ht : t.basis ≠ [] := by
      obtain ⟨g, hg⟩ := List.exists_mem_of_ne_nil _ h1
      exact List.ne_nil_of_mem ((hb g).2 (.inl hg))
    simp only [Joinable, hs, ht, h1, h2, false_or]
    exact LawfulCRing.compositum_join h _

/-- Rational generators agree. -/
def RatAgree (m n : Mod P) : Prop := ∀ p q : ℚ, .rat p ∈ m.basis → .rat q ∈ n.basis → p = q

omit [DecidableEq P] in
theorem exists_rat {g : RN} (h : g.isRat = true) : ∃ q, g = .rat q := by
  cases g with
  | rat q => exact ⟨q, rfl⟩
  | atom i => simp [RN.isRat, RN.rational?] at h
  | prod m => simp [RN.isRat, RN.rational?] at h

theorem span_isOk {m n : Mod P} (hm : m.WF) (hn : n.WF) (hj : Joinable m n) (hr : RatAgree m n) : ∃ t, Mod.span m n = .ok t := by
  rcases Mod.span_throws (R := R) hm hn with h | ⟨-, h1, h2, h | ⟨g, hg, k, hk, rg, rk, hgk⟩⟩
  · exact h
  · rcases hj with hj | hj | hj
    · exact absurd hj h1
    · exact absurd hj h2
    · rw [h] at hj; cases hj
  · obtain ⟨p, rfl⟩ := exists_rat rg
    obtain ⟨q, rfl⟩ := exists_rat rk
    exact absurd (by rw [hr p q hg hk]) hgk

theorem ratAgree_of_span {m n t : Mod P} (hm : m.WF) (hn : n.WF) (h : Mod.span m n = .ok t) : RatAgree m n := by
  intro p q hp hq
  by_contra hne
  have := Mod.span_throws_of_rat (R := R) hm hn hp hq rfl rfl fun e => hne (by cases e; rfl)
  rw [h] at this; cases this

theorem WF.ratAgree {m : Mod P} (hm : m.WF) : RatAgree m m := fun p q hp hq => by
  have := hm.rat_unique hp hq rfl rfl
  cases this; rfl

end Mod

namespace Elt
variable [Build]

theorem eq_isOk {x y : Elt P R} (hx : x.WF) (hy : y.WF) (hj : Mod.Joinable x.mod y.mod) (hr : Mod.RatAgree x.mod y.mod) :
    ∃ b, x.eq y = .ok b := by
  rcases eq_cases hx hy with ⟨b, h, -⟩ | ⟨-, h, -⟩
  · exact ⟨b, h⟩
  · obtain ⟨t, ht⟩ := Mod.span_isOk (R := R) hx.mod hy.mod hj hr
    rw [h] at ht; cases ht

/-- `==` decides equality of the real values for all values of the atoms. -/
theorem eq_iff_forall {x y : Elt P R} {b : Bool} (hx : x.WF) (hy : y.WF) (zx : x.NoZeroGen) (zy : y.NoZeroGen) (h : x.eq y = .ok b) :
    b = true ↔ ∀ v : ℕ → ℝ, x.real v = y.real v := by
  rcases eq_cases hx hy with ⟨b', h', hb, hs⟩ | ⟨-, -, h'⟩
  · rw [h] at h'; cases h'
    rw [hb]
    constructor
    · intro hf v; rw [real_eq_evalF, real_eq_evalF, hf]
    · intro hv
      obtain ⟨v, hi⟩ := exists_independent
      exact (real_eq_iff hi hx hy zx zy hs).1 (hv v)
  · rw [h] at h'; cases h'

theorem eq_outcomes {x y : Elt P R} (hx : x.WF) (hy : y.WF) : (∃ b, x.eq y = .ok b) ∨ x.eq y = .throws .logicError := by
  rcases eq_cases hx hy with ⟨b, h, -⟩ | ⟨-, -, h⟩
  · exact .inl ⟨b, h⟩
  · exact .inr h

/-- Elements with the same real values compare equal or cannot be compared. -/
theorem eq_of_forall {x y : Elt P R} (hx : x.WF) (hy : y.WF) (zx : x.NoZeroGen) (zy : y.NoZeroGen)
    (h : ∀ v : ℕ → ℝ, x.real v = y.real v) : x.eq y = .ok true ∨ x.eq y = .throws .logicError := by
  rcases eq_outcomes hx hy with ⟨b, hb⟩ | h'
  · left
    rw [hb, (eq_iff_forall hx hy zx zy hb).2 h]
  · exact .inr h'

theorem eq_true_of_fs {x y : Elt P R} (hx : x.WF) (hy : y.WF) (hj : Mod.Joinable x.mod y.mod) (hr : Mod.RatAgree x.mod y.mod)
    (h : x.fs = y.fs) : x.eq y = .ok true := by
  obtain ⟨b, hb⟩ := eq_isOk hx hy hj hr
  rcases eq_cases hx hy with ⟨b', h', hb', -⟩ | ⟨-, -, h'⟩
  · rw [hb] at h'; cases h'; rw [hb, hb'.2 h]
  · rw [hb] at h'; cases h'

/-- The module of a sum. -/
theorem add_mod {x y z : Elt P R} (hx : x.WF) (hy : y.WF) (h : x.add y = .ok z) :
    (∀ g, g ∈ z.mod.basis ↔ g ∈ x.mod.basis ∨ g ∈ y.mod.basis) ∧ Mod.Joinable x.mod y.mod ∧ Mod.RatAgree x.mod y.mod ∧
    ∀ s, Mod.Joinable s z.mod ↔ Mod.Joinable s x.mod ∧ Mod.Joinable s y.mod := by
  unfold add at h
  rcases add_cases hx hy with ⟨s, z', hs, h', -, hm, -⟩ | ⟨-, -, h'⟩
  · rw [h', result_done] at h
    cases h
    rw [hm]
    rcases hs with ⟨he, rfl⟩ | hs
    · rw [← he]
      exact ⟨by simp, .refl _, hx.mod.ratAgree, by simp⟩
    · exact ⟨(Mod.span_ok (R := R) hx.mod hy.mod hs).2.1, Mod.joinable_of_span hx.mod hy.mod hs, Mod.ratAgree_of_span (R := R) hx.mod hy.mod hs,
        fun s => Mod.joinable_span s hx.mod hy.mod hs⟩
  · rw [h', result_fail] at h; cases h

end Elt
end ExactReal
