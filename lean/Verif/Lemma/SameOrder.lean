import Verif.Lemma.ModuleHeap
import Verif.Spec.ModuleHeap

/-! # If the identities of atoms are in the same order then so are the generators -/

namespace ExactReal.Heap
open State

theorem isAtom_iff {s : State} {p : Ptr} : s.IsAtom p ↔ ∃ o, s.live p = some o ∧ o.data.isAtom := by
  constructor
  · rintro ⟨o, ho, ⟨t, ht⟩ | ⟨i, e, n, ht⟩⟩
    · exact ⟨o, ho, by rw [ht]; trivial⟩
    · exact ⟨o, ho, by rw [ht]; trivial⟩
  · rintro ⟨o, ho, hd⟩
    refine ⟨o, ho, ?_⟩
    cases hx : o.data with
    | random t => exact Or.inl ⟨t, rfl⟩
    | constrained i e n => exact Or.inr ⟨i, e, n, rfl⟩
    | _ => rw [hx] at hd; exact hd.elim

/-- The multiplicity of a live atom in a number, in terms of descriptions. -/
theorem mult_idOf {s : State} (h : Inv s) {p : Ptr} (hp : (s.live p).isSome) {x : Ptr} {o : Obj} (hx : s.live x = some o) (hd : o.data.isAtom) :
    Finsupp.mapDomain (descOfId s) (s.rn p).mult (s.atomDesc x) = (s.rn p).mult (s.idOf x) := by
  rw [← descOfId_idOf h (show (s.live x).isSome by simp [hx])]
  refine Finsupp.mapDomain_apply' _ _ ?_ (descOfId_injOn h) ⟨x, o, hx, hd, rfl⟩
  intro i hi
  exact idOf_live h hp i (by simpa using hi)

theorem mapDomain_eq {s₀ s : State} (h₀ : Inv s₀) (h : Inv s) {p q : Ptr} (hs : Same s₀ p s q) :
    Finsupp.mapDomain (descOfId s) (s.rn q).mult = Finsupp.mapDomain (descOfId s₀) (s₀.rn p).mult := by
  have e := hs.desc
  rw [desc_eq_descOf h hs.live, desc_eq_descOf h₀ hs.live₀] at e
  cases hq : (s.rn q).isRat with
  | true =>
    cases hp : (s₀.rn p).isRat with
    | true => rw [(RN.isRat_iff (rn_WF h q)).1 hq, (RN.isRat_iff (rn_WF h₀ p)).1 hp]; simp
    | false =>
      rw [descOf_of_not_rat _ hp] at e
      cases hx : s.rn q with
      | rat x => rw [hx] at e; cases e
      | _ => rw [hx] at hq; simp [RN.isRat, RN.rational?] at hq
  | false =>
    cases hp : (s₀.rn p).isRat with
    | true =>
      rw [descOf_of_not_rat _ hq] at e
      cases hx : s₀.rn p with
      | rat x => rw [hx] at e; cases e
      | _ => rw [hx] at hp; simp [RN.isRat, RN.rational?] at hp
    | false =>
      rw [descOf_of_not_rat _ hq, descOf_of_not_rat _ hp] at e
      injection e

theorem degree_mapDomain {α β : Type*} (f : α → β) (m : α →₀ ℕ) : (Finsupp.mapDomain f m).degree = m.degree := by
  induction m using Finsupp.induction_linear with
  | zero => simp
  | add a b ha hb => rw [Finsupp.mapDomain_add, map_add, map_add, ha, hb]
  | single a b => simp

/-- An atom that occurs in a number and is loaded occurs in the loaded number. -/
theorem atom_in {s₀ s : State} (h₀ : Inv s₀) (h : Inv s) {p q : Ptr} (hs : Same s₀ p s q) {i : ℕ} (hi : (s₀.rn p).mult i ≠ 0) :
    ∃ x y, s₀.IsAtom x ∧ s.IsAtom y ∧ s.atomDesc y = s₀.atomDesc x ∧ i = s₀.idOf x := by
  obtain ⟨x, o, hx, hd, rfl⟩ := idOf_live h₀ hs.live₀ i hi
  have e := mult_idOf h₀ hs.live₀ hx hd
  rw [← mapDomain_eq h₀ h hs] at e
  have hne : Finsupp.mapDomain (descOfId s) (s.rn q).mult (s₀.atomDesc x) ≠ 0 := by rw [e]; exact hi
  have hmem := Finsupp.mapDomain_support (Finsupp.mem_support_iff.2 hne)
  obtain ⟨j, hj, hj'⟩ := Finset.mem_image.1 hmem
  obtain ⟨y, o', hy, hd', rfl⟩ := idOf_live h hs.live j (Finsupp.mem_support_iff.1 hj)
  rw [descOfId_idOf h (by simp [hy])] at hj'
  exact ⟨x, y, isAtom_iff.2 ⟨o, hx, hd⟩, isAtom_iff.2 ⟨o', hy, hd'⟩, hj', rfl⟩

theorem Same.symm' {s₀ s : State} {p q : Ptr} (h : Inv s) (h₀ : Inv s₀) (hs : Same s₀ p s q) :
    Finsupp.mapDomain (descOfId s₀) (s₀.rn p).mult = Finsupp.mapDomain (descOfId s) (s.rn q).mult := (mapDomain_eq h₀ h hs).symm

theorem atom_in' {s₀ s : State} (h₀ : Inv s₀) (h : Inv s) {p q : Ptr} (hs : Same s₀ p s q) {i : ℕ} (hi : (s.rn q).mult i ≠ 0) :
    ∃ x y, s₀.IsAtom x ∧ s.IsAtom y ∧ s.atomDesc y = s₀.atomDesc x ∧ i = s.idOf y := by
  obtain ⟨y, o, hy, hd, rfl⟩ := idOf_live h hs.live i hi
  have e := mult_idOf h hs.live hy hd
  rw [mapDomain_eq h₀ h hs] at e
  have hne : Finsupp.mapDomain (descOfId s₀) (s₀.rn p).mult (s.atomDesc y) ≠ 0 := by rw [e]; exact hi
  have hmem := Finsupp.mapDomain_support (Finsupp.mem_support_iff.2 hne)
  obtain ⟨j, hj, hj'⟩ := Finset.mem_image.1 hmem
  obtain ⟨x, o', hx, hd', rfl⟩ := idOf_live h₀ hs.live₀ j (Finsupp.mem_support_iff.1 hj)
  rw [descOfId_idOf h₀ (by simp [hx])] at hj'
  exact ⟨x, y, isAtom_iff.2 ⟨o', hx, hd'⟩, isAtom_iff.2 ⟨o, hy, hd⟩, hj'.symm, rfl⟩

theorem mult_same {s₀ s : State} (h₀ : Inv s₀) (h : Inv s) {p q : Ptr} (hs : Same s₀ p s q) {x y : Ptr} (hx : s₀.IsAtom x) (hy : s.IsAtom y)
    (he : s.atomDesc y = s₀.atomDesc x) : (s.rn q).mult (s.idOf y) = (s₀.rn p).mult (s₀.idOf x) := by
  obtain ⟨o, hx, hd⟩ := isAtom_iff.1 hx
  obtain ⟨o', hy, hd'⟩ := isAtom_iff.1 hy
  rw [← mult_idOf h₀ hs.live₀ hx hd, ← mult_idOf h hs.live hy hd', mapDomain_eq h₀ h hs, he]

theorem desc_atom {s : State} {x : Ptr} (hx : s.IsAtom x) : s.desc x = .monomial (Finsupp.single (s.atomDesc x) 1) := by
  obtain ⟨o, hx, hd⟩ := isAtom_iff.1 hx
  exact desc_of_atom hx hd

theorem precedes_same {s₀ s : State} (h₀ : Inv s₀) (h : Inv s) (ho : SameOrder s₀ s) {p p' q q' : Ptr} (hs : Same s₀ p s q)
    (hs' : Same s₀ p' s q') (hp : Precedes (s₀.rn p).mult (s₀.rn p').mult) : Precedes (s.rn q).mult (s.rn q').mult := by
  have hdeg : ∀ {p q}, Same s₀ p s q → (s.rn q).mult.degree = (s₀.rn p).mult.degree := by
    intro p q hs
    rw [← degree_mapDomain (descOfId s), mapDomain_eq h₀ h hs, degree_mapDomain]
  rcases hp with hp | ⟨hp, i, h1, h2⟩
  · exact Or.inl (by rw [hdeg hs, hdeg hs']; exact hp)
  · refine Or.inr ⟨by rw [hdeg hs, hdeg hs']; exact hp, ?_⟩
    obtain ⟨x, y, hx, hy, he, rfl⟩ := atom_in h₀ h hs (i := i) (by omega)
    refine ⟨s.idOf y, ?_, ?_⟩
    · intro j hj
      by_cases hz : (s.rn q).mult j = 0 ∧ (s.rn q').mult j = 0
      · rw [hz.1, hz.2]
      · have : ∃ x' y', s₀.IsAtom x' ∧ s.IsAtom y' ∧ s.atomDesc y' = s₀.atomDesc x' ∧ j = s.idOf y' := by
          by_cases hz1 : (s.rn q).mult j = 0
          · exact atom_in' h₀ h hs' fun h => hz ⟨hz1, h⟩
          · exact atom_in' h₀ h hs hz1
        obtain ⟨x', y', hx', hy', he', rfl⟩ := this
        rw [mult_same h₀ h hs hx' hy' he', mult_same h₀ h hs' hx' hy' he']
        apply h1
        by_contra hc
        rw [not_lt] at hc
        rcases Nat.lt_or_ge (s₀.idOf x) (s₀.idOf x') with hlt | hge
        · have := ho x x' y y' hx hx' hy hy' (by rw [desc_atom hy, desc_atom hx, he]) (by rw [desc_atom hy', desc_atom hx', he']) hlt
          omega
        · have heq : s₀.idOf x = s₀.idOf x' := le_antisymm hc hge
          obtain ⟨o1, l1, -⟩ := isAtom_iff.1 hx
          obtain ⟨o2, l2, -⟩ := isAtom_iff.1 hx'
          rw [idOf_eq h₀ (by simp [l1]), idOf_eq h₀ (by simp [l2])] at heq
          have e1 := Nat.add_left_cancel heq
          subst e1
          obtain ⟨o3, l3, d3⟩ := isAtom_iff.1 hy
          obtain ⟨o4, l4, d4⟩ := isAtom_iff.1 hy'
          have := atomDesc_inj h l3 l4 d3 d4 (by rw [he, he'])
          subst this
          exact lt_irrefl _ hj
    · rw [mult_same h₀ h hs hx hy he, mult_same h₀ h hs' hx hy he]
      exact h2

theorem sort_of_precedes {s : State} (h : Inv s) {l : List Ptr} (hl : (l.map s.rn).Pairwise fun g h => Precedes g.mult h.mult) :
    MState.sort s l = l := by
  unfold MState.sort
  apply List.Pairwise.insertionSort_eq
  rw [List.pairwise_map] at hl
  refine hl.imp fun {a b} hab => ?_
  cases hlt : RN.lt (s.rn b) (s.rn a) with
  | false => rfl
  | true => exact absurd ((RN.lt_iff (rn_WF h b) (rn_WF h a)).1 hlt) hab.asymm

theorem pairwise_same {s₀ s : State} (h₀ : Inv s₀) (h : Inv s) (ho : SameOrder s₀ s) {ps qs : List Ptr}
    (hf : List.Forall₂ (fun p q => Same s₀ p s q) ps qs) (hp : (ps.map s₀.rn).Pairwise fun g h => Precedes g.mult h.mult) :
    (qs.map s.rn).Pairwise fun g h => Precedes g.mult h.mult := by
  rw [List.pairwise_map] at hp ⊢
  induction hf with
  | nil => simp
  | cons hs hf ih =>
    rename_i p q ps qs
    rw [List.pairwise_cons] at hp ⊢
    refine ⟨?_, ih hp.2⟩
    intro q' hq'
    obtain ⟨p', hp', hs'⟩ : ∃ p' ∈ ps, Same s₀ p' s q' := by
      clear ih hp
      induction hf with
      | nil => cases hq'
      | cons a _ ih =>
        rcases List.mem_cons.1 hq' with rfl | hq'
        · exact ⟨_, List.mem_cons_self, a⟩
        · obtain ⟨p', h1, h2⟩ := ih hq'
          exact ⟨p', List.mem_cons_of_mem _ h1, h2⟩
    exact precedes_same h₀ h ho hs hs' (hp.1 p' hp')

theorem combination_same {R : Type} [AddCommMonoid R] {s₀ s : State} {ps qs : List Ptr} (hf : List.Forall₂ (fun p q => Same s₀ p s q) ps qs)
    (cs : List R) : s.combination qs cs = s₀.combination ps cs := by
  unfold State.combination
  congr 1
  induction hf generalizing cs with
  | nil => simp
  | cons a _ ih =>
    cases cs with
    | nil => simp
    | cons c cs => simp only [List.zipWith_cons_cons, a.desc, ih cs]

end ExactReal.Heap
