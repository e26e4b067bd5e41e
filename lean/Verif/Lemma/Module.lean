import Verif.Lemma.RealNumber
import Verif.Spec.Module

namespace ExactReal.Mod
variable {P : Type}

theorem check_iff (l : List RN) : check l = true ↔ l.Pairwise fun x y => compatible x y = true := by
  induction l with
  | nil => simp [check]
  | cons x xs ih => simp [check, ih]

theorem compatible_iff {x y : RN} : compatible x y = true ↔ ¬ (x.isRat = true ∧ y.isRat = true) ∧ x ≠ y := by
  unfold compatible
  by_cases h : x = y <;> cases x.isRat <;> cases y.isRat <;> simp [h]

theorem compatible_symm {x y : RN} (h : compatible x y = true) : compatible y x = true := by
  rw [compatible_iff] at *
  exact ⟨fun h' => h.1 h'.symm, h.2.symm⟩

theorem precedes_of_compatible {x y : RN} (hx : x.WF) (hy : y.WF) (h : compatible x y = true) (hl : RN.lt y x = false) :
    Precedes x.mult y.mult := by
  rw [compatible_iff] at h
  have hl' : ¬ Precedes y.mult x.mult := by rw [← RN.lt_iff hy hx]; simp [hl]
  rcases Precedes.trichotomy x.mult y.mult with hp | hp | hp
  · exact hp
  · exfalso
    by_cases hr : x.isRat = true
    · exact h.1 ⟨hr, by rw [RN.isRat_iff hy, ← hp]; exact (RN.isRat_iff hx).1 hr⟩
    · exact h.2 (RN.mult_injective hx hy hp (by simpa using hr))
  · exact absurd hp hl'

theorem compatible_of_precedes {x y : RN} (hx : x.WF) (hy : y.WF) (h : Precedes x.mult y.mult) : compatible x y = true := by
  rw [compatible_iff]
  refine ⟨?_, ?_⟩
  · rintro ⟨h1, h2⟩
    rw [(RN.isRat_iff hx).1 h1, (RN.isRat_iff hy).1 h2] at h
    exact Precedes.irrefl _ h
  · rintro rfl; exact Precedes.irrefl _ h

theorem check_perm {l l' : List RN} (h : l.Perm l') : check l = check l' := by
  rw [Bool.eq_iff_iff, check_iff, check_iff]
  exact h.pairwise_iff fun h => compatible_symm h

theorem sort_perm (l : List RN) : (sort l).Perm l := List.perm_insertionSort _ l

theorem sort_sorted {l : List RN} (hl : ∀ g ∈ l, g.WF) : (sort l).Pairwise fun x y => RN.lt y x = false := by
  -- the relation is total and transitive on well-formed numbers; insertion sort keeps everything well-formed
  have key : ∀ (l : List RN), (∀ g ∈ l, g.WF) → (l.insertionSort fun x y => (RN.lt y x) = false).Pairwise fun x y => RN.lt y x = false := by
    intro l
    induction l with
    | nil => simp
    | cons a l ih =>
      intro h
      have ih := ih fun g hg => h g (by simp [hg])
      have hw : ∀ g ∈ (l.insertionSort fun x y => (RN.lt y x) = false), g.WF := by
        intro g hg
        exact h g (by simp [(List.perm_insertionSort _ l).mem_iff.1 hg])
      rw [List.insertionSort_cons]
      generalize (l.insertionSort fun x y => (RN.lt y x) = false) = s at ih hw
      have ha := h a (by simp)
      clear h
      induction s with
      | nil => simp
      | cons b s ihs =>
        have hb := hw b (by simp)
        have hs : ∀ g ∈ s, g.WF := fun g hg => hw g (by simp [hg])
        rw [List.orderedInsert_cons]
        rw [List.pairwise_cons] at ih
        have nlt : ∀ {x y : RN}, x.WF → y.WF → (RN.lt y x = false ↔ ¬ Precedes y.mult x.mult) := by
          intro x y hx hy; rw [← RN.lt_iff hy hx]; simp
        split
        · rename_i hab
          rw [List.pairwise_cons, List.pairwise_cons]
          refine ⟨?_, ih⟩
          intro c hc
          rcases List.mem_cons.1 hc with rfl | hc
          · exact hab
          · have hcb := ih.1 c hc
            have hcw := hs c hc
            rw [nlt ha hcw]
            rw [nlt ha hb] at hab
            rw [nlt hb hcw] at hcb
            intro hca
            rcases Precedes.trichotomy a.mult b.mult with hh | hh | hh
            · exact hcb (hca.trans hh)
            · exact hcb (hh ▸ hca)
            · exact hab hh
        · rename_i hab
          rw [List.pairwise_cons]
          refine ⟨?_, ihs ih.2 hs⟩
          intro c hc
          rw [List.mem_orderedInsert] at hc
          rcases hc with rfl | hc
          · rw [nlt ha hb] at hab
            rw [nlt hb ha]
            rw [not_not] at hab
            exact hab.asymm
          · exact ih.1 c hc
  exact key l hl

theorem pairwise_precedes_of {s : List RN} (hs : ∀ g ∈ s, g.WF) (h1 : s.Pairwise fun x y => RN.lt y x = false)
    (h2 : check s = true) : s.Pairwise fun g h => Precedes g.mult h.mult := by
  rw [check_iff] at h2
  have := h1.and h2
  rw [List.pairwise_iff_getElem] at *
  intro i j hi hj hij
  exact precedes_of_compatible (hs _ (List.getElem_mem _)) (hs _ (List.getElem_mem _)) (this i j hi hj hij).2 (this i j hi hj hij).1

theorem make_ok {r : P} {l : List RN} {m : Mod P} (hl : ∀ g ∈ l, g.WF) (h : make r l = .ok m) :
    m.par = r ∧ m.basis.Perm l ∧ m.WF := by
  unfold make at h
  simp only at h
  split at h
  · rename_i hc
    cases h
    have hw : ∀ g ∈ sort l, g.WF := fun g hg => hl g ((sort_perm l).mem_iff.1 hg)
    exact ⟨rfl, sort_perm l, hw, pairwise_precedes_of hw (sort_sorted hl) hc⟩
  · cases h

theorem eq_of_perm_of_sorted {s t : List RN} (h : s.Perm t) (hs : s.Pairwise fun g h => Precedes g.mult h.mult)
    (ht : t.Pairwise fun g h => Precedes g.mult h.mult) : s = t :=
  h.eq_of_pairwise (fun a b _ _ hab hba => absurd hba hab.asymm) hs ht

theorem nodup_of_sorted {s : List RN} (hs : s.Pairwise fun g h => Precedes g.mult h.mult) : s.Nodup :=
  hs.imp fun {a b} h => by rintro rfl; exact Precedes.irrefl _ h

theorem eq_of_mem_iff {s t : List RN} (hs : s.Pairwise fun g h => Precedes g.mult h.mult)
    (ht : t.Pairwise fun g h => Precedes g.mult h.mult) (h : ∀ g, g ∈ s ↔ g ∈ t) : s = t :=
  eq_of_perm_of_sorted ((List.perm_ext_iff_of_nodup (nodup_of_sorted hs) (nodup_of_sorted ht)).2 h) hs ht

theorem make_perm {r : P} {l l' : List RN} (hl : ∀ g ∈ l, g.WF) (h : l.Perm l') : make r l = make r l' := by
  have hl' : ∀ g ∈ l', g.WF := fun g hg => hl g (h.mem_iff.2 hg)
  unfold make
  simp only
  have hc : check (sort l) = check (sort l') := by
    rw [check_perm (sort_perm l), check_perm (sort_perm l'), check_perm h]
  rw [← hc]
  split
  · rename_i hcl
    have hw : ∀ g ∈ sort l, g.WF := fun g hg => hl g ((sort_perm l).mem_iff.1 hg)
    have hw' : ∀ g ∈ sort l', g.WF := fun g hg => hl' g ((sort_perm l').mem_iff.1 hg)
    rw [eq_of_perm_of_sorted ((sort_perm l).trans (h.trans (sort_perm l').symm))
      (pairwise_precedes_of hw (sort_sorted hl) hcl) (pairwise_precedes_of hw' (sort_sorted hl') (hc ▸ hcl))]
  · rfl

theorem WF.check {m : Mod P} (h : m.WF) : check m.basis = true := by
  rw [check_iff]
  have := h.sorted
  rw [List.pairwise_iff_getElem] at *
  intro i j hi hj hij
  exact compatible_of_precedes (h.gens _ (List.getElem_mem _)) (h.gens _ (List.getElem_mem _)) (this i j hi hj hij)

theorem make_eq_of_perm {r : P} {l s : List RN} (hl : ∀ g ∈ l, g.WF) (hp : s.Perm l)
    (hs : s.Pairwise fun g h => Precedes g.mult h.mult) : make r l = .ok ⟨r, s⟩ := by
  have hw : WF (⟨r, s⟩ : Mod P) := ⟨fun g hg => hl g (hp.mem_iff.1 hg), hs⟩
  have hc : Mod.check (sort l) = true := by
    rw [check_perm (sort_perm l), ← check_perm hp]; exact hw.check
  have hww : ∀ g ∈ sort l, g.WF := fun g hg => hl g ((sort_perm l).mem_iff.1 hg)
  unfold make
  simp only [hc, if_true]
  rw [eq_of_perm_of_sorted ((sort_perm l).trans hp.symm) (pairwise_precedes_of hww (sort_sorted hl) hc) hs]

theorem make_self {m : Mod P} (h : m.WF) (r : P) : make r m.basis = .ok ⟨r, m.basis⟩ :=
  make_eq_of_perm h.gens (List.Perm.refl _) h.sorted

theorem make_outcomes (r : P) (l : List RN) : (∃ m, make r l = .ok m) ∨ make r l = .throws .logicError := by
  unfold make
  simp only
  split
  · exact Or.inl ⟨_, rfl⟩
  · exact Or.inr rfl

theorem make_ok_iff (r : P) (l : List RN) : (∃ m, make r l = .ok m) ↔ check l = true := by
  rw [← check_perm (sort_perm l)]
  unfold make
  simp only
  split <;> simp_all

theorem check_iff' (l : List RN) : check l = true ↔ l.Nodup ∧ (l.filter RN.isRat).length ≤ 1 := by
  induction l with
  | nil => simp [check]
  | cons x xs ih =>
    simp only [check, Bool.and_eq_true, ih, List.all_eq_true, compatible_iff, List.nodup_cons, List.filter_cons]
    constructor
    · rintro ⟨h1, h2, h3⟩
      refine ⟨⟨fun hx => (h1 x hx).2 rfl, h2⟩, ?_⟩
      split
      · rename_i hr
        have : xs.filter RN.isRat = [] := by
          rw [List.filter_eq_nil_iff]
          intro a ha har
          exact (h1 a ha).1 ⟨hr, har⟩
        simp [this]
      · exact h3
    · rintro ⟨⟨h1, h2⟩, h3⟩
      refine ⟨fun y hy => ⟨?_, fun h => h1 (h ▸ hy)⟩, h2, ?_⟩
      · rintro ⟨hx, hyr⟩
        have hm : y ∈ xs.filter RN.isRat := List.mem_filter.2 ⟨hy, hyr⟩
        rw [if_pos hx, List.length_cons] at h3
        have := List.length_pos_of_mem hm
        omega
      · split at h3
        · rw [List.length_cons] at h3; omega
        · exact h3

theorem submodule_iff (m n : Mod P) : m.submodule n = true ↔ ∀ g ∈ m.basis, g ∈ n.basis := by
  simp [submodule]

theorem mem_extend (l n : List RN) (g : RN) : g ∈ extend l n ↔ g ∈ l ∨ g ∈ n := by
  induction n generalizing l with
  | nil => simp [extend]
  | cons x xs ih =>
    rw [extend, ih]
    by_cases h : x ∈ l
    · simp only [List.any_eq_true, decide_eq_true_eq]
      rw [if_pos ⟨x, h, rfl⟩, List.mem_cons]
      constructor
      · tauto
      · rintro (h' | rfl | h') <;> tauto
    · simp only [List.any_eq_true, decide_eq_true_eq]
      rw [if_neg (by rintro ⟨y, hy, rfl⟩; exact h hy)]
      simp only [List.mem_append, List.mem_singleton, List.mem_cons]
      tauto

theorem nodup_extend {l n : List RN} (hl : l.Nodup) : (extend l n).Nodup := by
  induction n generalizing l with
  | nil => simpa [extend]
  | cons x xs ih =>
    rw [extend]
    apply ih
    split
    · exact hl
    · rename_i h
      rw [List.nodup_append]
      refine ⟨hl, by simp, ?_⟩
      simp only [List.any_eq_true, decide_eq_true_eq, not_exists, not_and] at h
      intro a ha b hb
      rw [List.mem_singleton] at hb
      rw [hb]; exact h a ha

theorem check_of_rat {l : List RN} (hn : l.Nodup) (h : ∀ g ∈ l, ∀ h ∈ l, g.isRat = true → h.isRat = true → g = h) : check l = true := by
  rw [check_iff]
  rw [List.pairwise_iff_getElem]
  intro i j hi hj hij
  rw [compatible_iff]
  have hne : l[i] ≠ l[j] := fun he => by
    have := (List.Nodup.getElem_inj_iff hn).1 he
    omega
  exact ⟨fun hr => hne (h _ (List.getElem_mem _) _ (List.getElem_mem _) hr.1 hr.2), hne⟩

theorem WF.rat_unique {m : Mod P} (h : m.WF) {g k : RN} (hg : g ∈ m.basis) (hk : k ∈ m.basis) (rg : g.isRat = true)
    (rk : k.isRat = true) : g = k := by
  by_contra hne
  have hp := h.sorted
  rw [List.pairwise_iff_getElem] at hp
  have hne' : ∀ a ∈ m.basis, ∀ b ∈ m.basis, a ≠ b → a.mult ≠ b.mult := by
    intro a ha b hb hab e
    obtain ⟨i, hi, rfl⟩ := List.getElem_of_mem ha
    obtain ⟨j, hj, rfl⟩ := List.getElem_of_mem hb
    rcases lt_trichotomy i j with hij | rfl | hij
    · have := hp i j hi hj hij; rw [e] at this; exact Precedes.irrefl _ this
    · exact hab rfl
    · have := hp j i hj hi hij; rw [e] at this; exact Precedes.irrefl _ this
  apply hne' g hg k hk hne
  rw [(RN.isRat_iff (h.gens g hg)).1 rg, (RN.isRat_iff (h.gens k hk)).1 rk]

end ExactReal.Mod
