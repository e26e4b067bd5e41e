import Verif.Lemma.Module
import Verif.Spec.Ring

namespace ExactReal.Mod
variable {P : Type} [DecidableEq P] {R : Type} [CommRing R] [DecidableEq R] [CRing P R] [LawfulCRing P]

theorem spanSame_ok {m n s : Mod P} (hm : m.WF) (hn : n.WF) (hp : m.par = n.par) (h : spanSame m n = .ok s) :
    s.WF ∧ (∀ g, g ∈ s.basis ↔ g ∈ m.basis ∨ g ∈ n.basis) ∧ s.par = m.par := by
  unfold spanSame at h
  split at h
  · rename_i hs
    cases h
    rw [submodule_iff] at hs
    exact ⟨hm, fun g => ⟨Or.inl, fun h => h.elim id (hs g)⟩, rfl⟩
  · split at h
    · rename_i hs
      cases h
      rw [submodule_iff] at hs
      exact ⟨hn, fun g => ⟨Or.inr, fun h => h.elim (hs g) id⟩, hp.symm⟩
    · have hw : ∀ g ∈ extend m.basis n.basis, g.WF := fun g hg =>
        ((mem_extend _ _ g).1 hg).elim (hm.gens g) (hn.gens g)
      obtain ⟨h1, h2, h3⟩ := make_ok hw h
      exact ⟨h3, fun g => by rw [h2.mem_iff, mem_extend], h1⟩

theorem spanSame_throws {m n : Mod P} (hm : m.WF) (hn : n.WF) :
    (∃ s, spanSame m n = .ok s) ∨ (spanSame m n = .throws .logicError ∧
      ∃ g ∈ m.basis, ∃ h ∈ n.basis, g.isRat = true ∧ h.isRat = true ∧ g ≠ h) := by
  unfold spanSame
  split
  · exact .inl ⟨_, rfl⟩
  · split
    · exact .inl ⟨_, rfl⟩
    · rcases make_outcomes m.par (extend m.basis n.basis) with h | h
      · exact .inl h
      · right
        refine ⟨h, ?_⟩
        have hc : ¬ check (extend m.basis n.basis) = true := by
          rw [← make_ok_iff m.par, h]; simp
        by_contra hno
        apply hc
        apply check_of_rat (nodup_extend (nodup_of_sorted hm.sorted))
        intro g hg k hk rg rk
        by_contra hne
        rw [mem_extend] at hg hk
        rcases hg with hg | hg <;> rcases hk with hk | hk
        · exact hne (hm.rat_unique hg hk rg rk)
        · exact hno ⟨g, hg, k, hk, rg, rk, hne⟩
        · exact hno ⟨k, hk, g, hg, rk, rg, fun e => hne e.symm⟩
        · exact hne (hn.rat_unique hg hk rg rk)

/-- What `span` returns. -/
theorem span_ok {m n s : Mod P} (hm : m.WF) (hn : n.WF) (h : span m n = .ok s) :
    s.WF ∧ (∀ g, g ∈ s.basis ↔ g ∈ m.basis ∨ g ∈ n.basis) ∧
    ((m.basis = [] ∧ s = n) ∨ (n.basis = [] ∧ s = m) ∨ (m.basis ≠ [] ∧ n.basis ≠ [] ∧ CRing.compositum m.par n.par = .ok s.par)) := by
  unfold span at h
  split at h
  · rename_i he; cases h
    exact ⟨hn, by simp [he], .inl ⟨he, rfl⟩⟩
  · rename_i hme
    split at h
    · rename_i he; cases h
      exact ⟨hm, by simp [he], .inr (.inl ⟨he, rfl⟩)⟩
    · rename_i hne
      split at h
      · rw [Out.bind_eq_ok] at h
        obtain ⟨r, hr, h⟩ := h
        rw [make_self hm, make_self hn] at h
        simp only [Out.ok_bind] at h
        obtain ⟨h1, h2, h3⟩ := spanSame_ok (m := ⟨r, m.basis⟩) (n := ⟨r, n.basis⟩) ⟨hm.gens, hm.sorted⟩ ⟨hn.gens, hn.sorted⟩ rfl h
        exact ⟨h1, h2, .inr (.inr ⟨hme, hne, by rw [h3]; exact hr⟩)⟩
      · rename_i hp
        rw [not_not] at hp
        obtain ⟨h1, h2, h3⟩ := spanSame_ok hm hn hp h
        refine ⟨h1, h2, .inr (.inr ⟨hme, hne, ?_⟩)⟩
        rw [h3, ← hp, LawfulCRing.compositum_self]

/-- `span` returns or throws, and it throws only for incompatible rings or different rational generators. -/
theorem span_throws {m n : Mod P} (hm : m.WF) (hn : n.WF) :
    (∃ s, span m n = .ok s) ∨ (span m n = .throws .logicError ∧ m.basis ≠ [] ∧ n.basis ≠ [] ∧
      (CRing.compositum m.par n.par = .throws .logicError ∨
      ∃ g ∈ m.basis, ∃ h ∈ n.basis, g.isRat = true ∧ h.isRat = true ∧ g ≠ h)) := by
  unfold span
  split
  · exact .inl ⟨_, rfl⟩
  · split
    · exact .inl ⟨_, rfl⟩
    · rename_i hme hne
      split
      · rcases LawfulCRing.compositum_outcomes (P := P) m.par n.par with ⟨r, hr⟩ | hr
        · rw [hr]
          simp only [Out.ok_bind]
          rw [make_self hm, make_self hn]
          simp only [Out.ok_bind]
          rcases spanSame_throws (m := ⟨r, m.basis⟩) (n := ⟨r, n.basis⟩) ⟨hm.gens, hm.sorted⟩ ⟨hn.gens, hn.sorted⟩ with h | ⟨h, h'⟩
          · exact .inl h
          · exact .inr ⟨h, hme, hne, .inr h'⟩
        · right
          rw [hr]
          exact ⟨rfl, hme, hne, .inl rfl⟩
      · rcases spanSame_throws hm hn with h | ⟨h, h'⟩
        · exact .inl h
        · exact .inr ⟨h, hme, hne, .inr h'⟩

theorem WF.ext {m n : Mod P} (hm : m.WF) (hn : n.WF) (hp : m.par = n.par) (h : ∀ g, g ∈ m.basis ↔ g ∈ n.basis) : m = n := by
  have := eq_of_mem_iff hm.sorted hn.sorted h
  cases m; cases n; simp_all

/-- Two different rational generators make `span` impossible. -/
theorem span_throws_of_rat {m n : Mod P} (hm : m.WF) (hn : n.WF) {g k : RN} (hg : g ∈ m.basis) (hk : k ∈ n.basis)
    (rg : g.isRat = true) (rk : k.isRat = true) (hne : g ≠ k) : span m n = .throws .logicError := by
  rcases span_throws (R := R) hm hn with ⟨s, hs⟩ | ⟨h, -⟩
  · exfalso
    obtain ⟨ws, hmem, -⟩ := span_ok (R := R) hm hn hs
    exact hne (ws.rat_unique ((hmem g).2 (.inl hg)) ((hmem k).2 (.inr hk)) rg rk)
  · exact h

end ExactReal.Mod
