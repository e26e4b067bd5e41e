import Verif.Lemma.HeapDiv

/-! # Descriptions of objects -/

namespace ExactReal.Heap
open State

theorem seedOf_congr {s s' : State} {p : Ptr} (h : s'.live p = s.live p) : s'.seedOf p = s.seedOf p := by
  simp [seedOf, h]

theorem atomDesc_congr {s s' : State} {p : Ptr} {o : Obj} (ho : s.live p = some o) (h : s'.live p = s.live p)
    (hr : ∀ r ∈ o.data.refs, s'.live r = s.live r) : s'.atomDesc p = s.atomDesc p := by
  rcases o with ⟨a, i, d⟩
  cases d with
  | constrained x e n =>
    simp only [atomDesc, h, ho]
    rw [seedOf_congr (hr n (by simp [Data.refs]))]
  | _ => simp [atomDesc, h, ho]

theorem atomDesc_random {s : State} {p : Ptr} {o : Obj} (ho : s.live p = some o) {t : UInt32} (hd : o.data = .random t) :
    s.atomDesc p = .random t := by
  rcases o with ⟨a, i, d⟩
  simp only at hd; subst hd
  simp [atomDesc, ho]

theorem seedOf_random {s : State} {p : Ptr} {o : Obj} (ho : s.live p = some o) {t : UInt32} (hd : o.data = .random t) :
    s.seedOf p = t := by
  rcases o with ⟨a, i, d⟩
  simp only at hd; subst hd
  simp [seedOf, ho]

theorem atomDesc_constrained {s : State} {p : Ptr} {o : Obj} (ho : s.live p = some o) {x : ℚ} {e : ℤ} {n : Ptr}
    (hd : o.data = .constrained x e n) : s.atomDesc p = .constrained x e (s.seedOf n) := by
  rcases o with ⟨a, i, d⟩
  simp only at hd; subst hd
  simp [atomDesc, ho]

/-- Atoms with the same description are the same. -/
theorem atomDesc_inj {s : State} (h : Inv s) {p q : Ptr} {o o' : Obj} (ho : s.live p = some o) (ho' : s.live q = some o')
    (hd : o.data.isAtom) (hd' : o'.data.isAtom) (he : s.atomDesc p = s.atomDesc q) : p = q := by
  apply h.data_inj p o q o' ho ho'
  have h1 := h.data_ok p o ho
  have h2 := h.data_ok q o' ho'
  cases hx : o.data with
  | rational x => rw [hx] at hd; exact hd.elim
  | product f hh => rw [hx] at hd; exact hd.elim
  | random t =>
    rw [atomDesc_random ho hx] at he
    cases hy : o'.data with
    | rational x => rw [hy] at hd'; exact hd'.elim
    | product f hh => rw [hy] at hd'; exact hd'.elim
    | random t' => rw [atomDesc_random ho' hy] at he; injection he with he; rw [he]
    | constrained x e n => rw [atomDesc_constrained ho' hy] at he; cases he
  | constrained x e n =>
    rw [atomDesc_constrained ho hx] at he
    cases hy : o'.data with
    | rational x => rw [hy] at hd'; exact hd'.elim
    | product f hh => rw [hy] at hd'; exact hd'.elim
    | random t' => rw [atomDesc_random ho' hy] at he; cases he
    | constrained x' e' n' =>
      rw [atomDesc_constrained ho' hy] at he
      injection he with e1 e2 e3
      rw [hx] at h1; rw [hy] at h2
      obtain ⟨on, hn, t, ht⟩ := h1
      obtain ⟨on', hn', t', ht'⟩ := h2
      rw [seedOf_random hn ht, seedOf_random hn' ht'] at e3
      have := h.data_inj n on n' on' hn hn' (by rw [ht, ht', e3])
      rw [e1, e2, this]

/-- The description of the atom with a given identity. -/
def descOfId (s : State) (i : ℕ) : AtomDesc := s.atomDesc (i - base)

theorem descOfId_idOf {s : State} (h : Inv s) {p : Ptr} (hp : (s.live p).isSome) : descOfId s (s.idOf p) = s.atomDesc p := by
  rw [descOfId, idOf_eq h hp, Nat.add_sub_cancel_left]

theorem mapDomain_mult {s : State} (h : Inv s) (f : List (Ptr × ℕ)) (hf : ∀ x ∈ f, (s.live x.1).isSome) :
    Finsupp.mapDomain (descOfId s) (s.toMono f).mult = (f.map fun x => Finsupp.single (s.atomDesc x.1) x.2).sum := by
  induction f with
  | nil => simp [toMono]
  | cons a f ih =>
    have ih' := ih fun x hx => hf x (by simp [hx])
    simp only [toMono, List.map_cons, Mono.mult_cons, List.sum_cons, Finsupp.mapDomain_add, Finsupp.mapDomain_single] at ih' ⊢
    rw [descOfId_idOf h (hf a (by simp)), ih']

/-- The description in terms of the abstract number. -/
theorem desc_eq {s : State} (h : Inv s) {p : Ptr} (hp : (s.live p).isSome) :
    s.desc p = match s.rn p with
      | .rat q => .rational q
      | x => .monomial (Finsupp.mapDomain (descOfId s) x.mult) := by
  obtain ⟨⟨a, i, d⟩, ho⟩ := Option.isSome_iff_exists.1 hp
  have hid : s.idOf p = i := by simp [idOf, ho]
  have hk := descOfId_idOf h hp
  rw [hid] at hk
  cases d with
  | rational q => rw [rn_rational ho rfl]; simp [desc, ho]
  | product f hh =>
    rw [rn_product ho rfl]
    simp only [desc, ho, RN.mult_prod]
    rw [mapDomain_mult h f (DataOK.product_live (h.data_ok p _ ho))]
  | random t => rw [rn_atom ho trivial]; simp [desc, ho, hk]
  | constrained x e n => rw [rn_atom ho trivial]; simp [desc, ho, hk]

theorem idOf_live {s : State} (h : Inv s) {p : Ptr} (hp : (s.live p).isSome) (i : ℕ) (hi : (s.rn p).mult i ≠ 0) :
    ∃ q o, s.live q = some o ∧ o.data.isAtom ∧ i = s.idOf q := by
  obtain ⟨⟨a, j, d⟩, ho⟩ := Option.isSome_iff_exists.1 hp
  have atomCase : Data.isAtom d → ∃ q o, s.live q = some o ∧ o.data.isAtom ∧ i = s.idOf q := by
    intro hd
    rw [rn_atom ho hd, RN.mult_atom] at hi
    refine ⟨p, _, ho, hd, ?_⟩
    by_contra hc
    apply hi
    rw [Finsupp.single_apply, if_neg]
    rintro rfl
    exact hc (by simp [idOf, ho])
  cases d with
  | rational q => rw [rn_rational ho rfl] at hi; simp at hi
  | product f hh =>
    rw [rn_product ho rfl, RN.mult_prod] at hi
    have hok := h.data_ok p _ ho
    have : ∃ x ∈ f, s.idOf x.1 = i := by
      by_contra hc
      push Not at hc
      apply hi
      clear hi ho hok hp atomCase
      induction f with
      | nil => simp [toMono]
      | cons b f ih =>
        have := ih fun x hx => hc x (by simp [hx])
        simp only [toMono, List.map_cons, Mono.mult_cons, Finsupp.add_apply] at this ⊢
        rw [this, Finsupp.single_apply, if_neg (hc b (by simp))]
    obtain ⟨x, hx, he⟩ := this
    obtain ⟨o, ho', hd⟩ := hok.2.2 x hx
    exact ⟨x.1, o, ho', hd, he.symm⟩
  | random t => exact atomCase trivial
  | constrained x e n => exact atomCase trivial

/-- Live numbers with the same description are the same object. -/
theorem desc_inj {s : State} (h : Inv s) {p q : Ptr} (hp : (s.live p).isSome) (hq : (s.live q).isSome) (he : s.desc p = s.desc q) :
    p = q := by
  apply rn_inj h hp hq
  rw [desc_eq h hp, desc_eq h hq] at he
  have key : (s.rn p).isRat = false → Finsupp.mapDomain (descOfId s) (s.rn p).mult = Finsupp.mapDomain (descOfId s) (s.rn q).mult →
      s.rn p = s.rn q := by
    intro hr hm
    apply RN.mult_injective (rn_WF h p) (rn_WF h q) ?_ hr
    refine Finsupp.mapDomain_injOn {i | ∃ q o, s.live q = some o ∧ o.data.isAtom ∧ i = s.idOf q} ?_ ?_ ?_ hm
    · rintro i ⟨p1, o1, l1, a1, rfl⟩ j ⟨p2, o2, l2, a2, rfl⟩ hij
      rw [descOfId_idOf h (by simp [l1]), descOfId_idOf h (by simp [l2])] at hij
      rw [atomDesc_inj h l1 l2 a1 a2 hij]
    · intro i hi; exact idOf_live h hp i (Finsupp.mem_support_iff.1 hi)
    · intro i hi; exact idOf_live h hq i (Finsupp.mem_support_iff.1 hi)
  cases h1 : s.rn p with
  | rat x =>
    rw [h1] at he
    cases h2 : s.rn q with
    | rat y => rw [h2] at he; injection he with he; rw [he]
    | atom i => rw [h2] at he; cases he
    | prod m => rw [h2] at he; cases he
  | atom i =>
    rw [h1] at he key
    cases h2 : s.rn q with
    | rat y => rw [h2] at he; cases he
    | atom j => rw [h2] at he key; injection he with he; exact key rfl he
    | prod m => rw [h2] at he key; injection he with he; exact key rfl he
  | prod m =>
    rw [h1] at he key
    cases h2 : s.rn q with
    | rat y => rw [h2] at he; cases he
    | atom j => rw [h2] at he key; injection he with he; exact key rfl he
    | prod m => rw [h2] at he key; injection he with he; exact key rfl he

/-- States that agree on `p` and everything it refers to describe it in the same way. -/
theorem desc_congr {s s' : State} (h : Inv s) {p : Ptr} (hp : (s.live p).isSome)
    (hl : ∀ q o, s.live q = some o → q = p ∨ (∃ o', s.live p = some o' ∧ (q ∈ o'.data.refs ∨
      ∃ r o'', r ∈ o'.data.refs ∧ s.live r = some o'' ∧ q ∈ o''.data.refs)) → s'.live q = some o) :
    s'.desc p = s.desc p := by
  obtain ⟨⟨a, i, d⟩, ho⟩ := Option.isSome_iff_exists.1 hp
  have hok := h.data_ok p _ ho
  have hp' : s'.live p = s.live p := by rw [ho]; exact hl p _ ho (Or.inl rfl)
  have href : ∀ r ∈ d.refs, s'.live r = s.live r := by
    intro r hr
    obtain ⟨o, h1⟩ := Option.isSome_iff_exists.1 (hok.refs_live r hr)
    rw [h1]; exact hl r o h1 (Or.inr ⟨_, ho, Or.inl hr⟩)
  have hself : s'.atomDesc p = s.atomDesc p := atomDesc_congr ho hp' href
  cases d with
  | rational q => simp [desc, hp', ho]
  | product f hh =>
    simp only [desc, hp', ho]
    congr 2
    apply List.map_congr_left
    intro x hx
    obtain ⟨o, h1, h2⟩ := hok.2.2 x hx
    have hm : x.1 ∈ (Data.product f hh).refs := List.mem_map.2 ⟨x, hx, rfl⟩
    rw [atomDesc_congr h1 (href x.1 hm)]
    intro r hr
    obtain ⟨o', h3⟩ := Option.isSome_iff_exists.1 ((h.data_ok x.1 o h1).refs_live r hr)
    rw [h3]; exact hl r o' h3 (Or.inr ⟨_, ho, Or.inr ⟨x.1, o, hm, h1, hr⟩⟩)
  | random t => simp only [desc, hp', ho, hself]
  | constrained x e n => simp only [desc, hp', ho, hself]

theorem desc_ext {s s' : State} (h : Inv s) (he : Ext s s') {p : Ptr} (hp : (s.live p).isSome) : s'.desc p = s.desc p :=
  desc_congr h hp fun q o hq _ => he.live q o hq

end ExactReal.Heap
