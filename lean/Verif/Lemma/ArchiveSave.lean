import Verif.Lemma.History

/-! # What is written describes the number -/

namespace ExactReal.Heap
open State

/-- The numbers that have been written are the ones that the archive describes, except for the numbers `O` that are still being written. -/
def Written (s : State) (tab : List Addr) (dt : List (ℕ × Desc)) (O : Set ℕ) : Prop :=
  ∀ i a, tab[i]? = some a → i ∉ O → ∃ p o, s.live p = some o ∧ o.addr = a ∧ dt.lookup (i + 1) = some (s.desc p)

theorem Written.push {s : State} {tab : List Addr} {dt : List (ℕ × Desc)} {O : Set ℕ} {p : Ptr} {o : Obj} {i : ℕ}
    (ho : s.live p = some o) (hi : tab[i]? = some o.addr) (m : Written s tab dt (insert i O)) : Written s tab ((i + 1, s.desc p) :: dt) O := by
  intro j a hj hO
  by_cases hji : j = i
  · subst hji
    rw [hi] at hj
    injection hj with hj
    exact ⟨p, o, ho, hj, by simp [List.lookup_cons]⟩
  · obtain ⟨p', o', h1, h2, h3⟩ := m j a hj (by simp [hji, hO])
    refine ⟨p', o', h1, h2, ?_⟩
    rw [List.lookup_cons]
    have : (j + 1 == i + 1) = false := by simp [hji]
    rw [this]; exact h3

theorem Written.open_new {s : State} {tab : List Addr} {dt : List (ℕ × Desc)} {O : Set ℕ} (a : Addr) (m : Written s tab dt O) :
    Written s (tab ++ [a]) dt (insert tab.length O) := by
  intro j b hj hO
  simp only [Set.mem_insert_iff, not_or] at hO
  have hlt : j < tab.length := by
    obtain ⟨h1, -⟩ := List.getElem?_eq_some_iff.1 hj
    simp at h1
    omega
  rw [List.getElem?_append_left hlt] at hj
  exact m j b hj hO.2

theorem saveAll_denotes {s : State} (h : Inv s) {n : ℕ}
    (ih : ∀ tab p tab' t dt O, s.save n tab p = some (tab', t) → (∀ o, s.live p = some o → Open s tab O o.data.level) →
      Written s tab dt O → (∃ ext, tab' = tab ++ ext) ∧ ∃ dt', t.Denotes dt dt' (s.desc p) ∧ Written s tab' dt' O)
    (l : List (Ptr × ℕ)) (hl : ∀ x ∈ l, ∃ o, s.live x.1 = some o ∧ o.data.isAtom) (hpos : ∀ x ∈ l, 0 < x.2) (hnd : (l.map Prod.fst).Nodup) :
    ∀ tab tab' ts dt O, saveAll (s.save n) tab l = some (tab', ts) → Open s tab O 1 → Written s tab dt O →
      (∃ ext, tab' = tab ++ ext) ∧ ∃ dt', ts.Denotes dt dt' (l.map fun x => Finsupp.single (s.atomDesc x.1) x.2).sum ∧ Written s tab' dt' O := by
  induction l with
  | nil =>
    intro tab tab' ts dt O hs _ hw
    simp only [saveAll, Option.some.injEq, Prod.mk.injEq] at hs
    obtain ⟨rfl, rfl⟩ := hs
    exact ⟨⟨[], by simp⟩, dt, .nil, hw⟩
  | cons x l ihl =>
    rcases x with ⟨p, e⟩
    intro tab tab' ts dt O hs hO hw
    simp only [saveAll] at hs
    cases h1 : s.save n tab p with
    | none => rw [h1] at hs; simp at hs
    | some r =>
      rcases r with ⟨tab1, t⟩
      rw [h1] at hs
      simp only at hs
      cases h2 : saveAll (s.save n) tab1 l with
      | none => rw [h2] at hs; simp at hs
      | some r =>
        rcases r with ⟨tab2, ts2⟩
        rw [h2] at hs
        simp only [Option.some.injEq, Prod.mk.injEq] at hs
        obtain ⟨rfl, rfl⟩ := hs
        obtain ⟨o, ho, hat⟩ := hl (p, e) (by simp)
        obtain ⟨⟨ext1, rfl⟩, dt1, d1, w1⟩ := ih tab p tab1 t dt O h1 (fun o' ho' => by
          rw [ho] at ho'; injection ho' with ho'; subst ho'
          have := hO.mono (ext := []) (level_atom hat)
          simpa using this) hw
        rw [List.map_cons, List.nodup_cons] at hnd
        obtain ⟨⟨ext2, rfl⟩, dt2, d2, w2⟩ := ihl (fun x hx => hl x (by simp [hx])) (fun x hx => hpos x (by simp [hx])) hnd.2 (tab ++ ext1)
          tab2 ts2 dt1 O h2 (hO.mono le_rfl) w1
        refine ⟨⟨ext1 ++ ext2, by simp⟩, dt2, ?_, w2⟩
        rw [List.map_cons, List.sum_cons]
        refine .cons (by rw [← desc_of_atom ho hat]; exact d1) (hpos (p, e) (by simp)) d2 ?_
        have : ∀ l' : List (Ptr × ℕ), (∀ x ∈ l', x ∈ l) → (l'.map fun x => Finsupp.single (s.atomDesc x.1) x.2).sum (s.atomDesc p) = 0 := by
          intro l' hl'
          induction l' with
          | nil => simp
          | cons y l' ihy =>
            rw [List.map_cons, List.sum_cons, Finsupp.add_apply, ihy fun x hx => hl' x (by simp [hx]), add_zero]
            apply Finsupp.single_eq_of_ne
            intro hc
            obtain ⟨oy, hoy, haty⟩ := hl y (by simp [hl' y (by simp)])
            have := atomDesc_inj h ho hoy hat haty hc
            exact hnd.1 (List.mem_map.2 ⟨y, hl' y (by simp), this.symm⟩)
        exact this l fun _ hx => hx

/-- What is written for a number describes it. -/
theorem save_denotes {s : State} (h : Inv s) (n : ℕ) :
    ∀ tab p tab' t dt O, s.save n tab p = some (tab', t) → (∀ o, s.live p = some o → Open s tab O o.data.level) →
      Written s tab dt O → (∃ ext, tab' = tab ++ ext) ∧ ∃ dt', t.Denotes dt dt' (s.desc p) ∧ Written s tab' dt' O := by
  induction n with
  | zero => intro tab p tab' t dt O hs; simp [State.save] at hs
  | succ n ih =>
    intro tab p tab' t dt O hs hO hw
    rw [State.save] at hs
    cases ho : s.live p with
    | none => rw [ho] at hs; simp at hs
    | some o =>
      rw [ho] at hs
      simp only at hs
      have hO' := hO o ho
      by_cases hmem : o.addr ∈ tab
      · rw [if_pos hmem] at hs
        simp only [Option.some.injEq, Prod.mk.injEq] at hs
        obtain ⟨rfl, rfl⟩ := hs
        have hidx : tab[tab.idxOf o.addr]? = some o.addr := List.getElem?_idxOf hmem
        have hnO : tab.idxOf o.addr ∉ O := fun hc => lt_irrefl _ ((hO' _ hc).2 p o ho hidx)
        obtain ⟨p', o', h1, h2, h3⟩ := hw _ _ hidx hnO
        have hpp := h.addr_inj p' o' p o h1 ho h2
        subst hpp
        exact ⟨⟨[], by simp⟩, dt, .shared h3, hw⟩
      · rw [if_neg hmem] at hs
        have hi : (tab ++ [o.addr])[tab.length]? = some o.addr := by simp
        have hlen : (tab ++ [o.addr]).length = tab.length + 1 := by simp
        have hwo := hw.open_new o.addr
        cases hd : o.data with
        | rational q =>
          rw [hd] at hs
          simp only [Option.some.injEq, Prod.mk.injEq] at hs
          obtain ⟨rfl, rfl⟩ := hs
          have e : s.desc p = .rational q := by rcases o with ⟨a, i, d⟩; simp only at hd; subst hd; simp [desc, ho]
          refine ⟨⟨[o.addr], rfl⟩, _, ?_, hwo.push ho hi⟩
          rw [hlen, e]; exact .rational
        | random t =>
          rw [hd] at hs
          simp only [Option.some.injEq, Prod.mk.injEq] at hs
          obtain ⟨rfl, rfl⟩ := hs
          have e : s.desc p = .monomial (.single (.random t) 1) := by rw [desc_of_atom ho (by rw [hd]; trivial), atomDesc_random ho hd]
          refine ⟨⟨[o.addr], rfl⟩, _, ?_, hwo.push ho hi⟩
          rw [hlen, e]; exact .random
        | constrained i e inner =>
          rw [hd] at hs
          simp only at hs
          cases h1 : s.save n (tab ++ [o.addr]) inner with
          | none => rw [h1] at hs; simp at hs
          | some r =>
            rcases r with ⟨tab1, t1⟩
            rw [h1] at hs
            simp only [Option.some.injEq, Prod.mk.injEq] at hs
            obtain ⟨rfl, rfl⟩ := hs
            have hok := h.data_ok p o ho
            rw [hd] at hok
            obtain ⟨oi, hoi, ti, hti⟩ := hok
            obtain ⟨⟨ext1, rfl⟩, dt1, d1, w1⟩ := ih (tab ++ [o.addr]) inner tab1 t1 dt (insert tab.length O) h1
              (fun o1 ho1 => by
                rw [hoi] at ho1; injection ho1 with ho1; subst ho1
                exact hO'.new h ho (by rw [hd, hti]; simp [Data.level])) hwo
            have ei : s.desc inner = .monomial (.single (.random ti) 1) := by
              rw [desc_of_atom hoi (by rw [hti]; trivial), atomDesc_random hoi hti]
            have ep : s.desc p = .monomial (.single (.constrained i e ti) 1) := by
              rw [desc_of_atom ho (by rw [hd]; trivial), atomDesc_constrained ho hd, seedOf_random hoi hti]
            refine ⟨⟨o.addr :: ext1, by simp⟩, _, ?_, w1.push ho (by rw [List.getElem?_append_left (by simp)]; exact hi)⟩
            rw [hlen, ep]
            exact .constrained (by rw [← ei]; exact d1)
        | product f hh =>
          rw [hd] at hs
          simp only at hs
          cases h1 : saveAll (s.save n) (tab ++ [o.addr]) (s.byAddr f) with
          | none => rw [h1] at hs; simp at hs
          | some r =>
            rcases r with ⟨tab1, ts1⟩
            rw [h1] at hs
            simp only [Option.some.injEq, Prod.mk.injEq] at hs
            obtain ⟨rfl, rfl⟩ := hs
            have hok := h.data_ok p o ho
            rw [hd] at hok
            have hperm : (s.byAddr f).Perm f := List.perm_insertionSort _ _
            have hat : ∀ x ∈ s.byAddr f, ∃ o, s.live x.1 = some o ∧ o.data.isAtom := fun x hx => hok.2.2 x (hperm.mem_iff.1 hx)
            have hnd : ((s.byAddr f).map Prod.fst).Nodup := by
              rw [(hperm.map Prod.fst).nodup_iff]
              have := hok.2.1.1.sorted
              rw [toMono, List.pairwise_map] at this
              exact List.pairwise_map.2 (this.imp fun hab hc => by rw [hc] at hab; exact lt_irrefl _ hab)
            have hpos : ∀ x ∈ s.byAddr f, 0 < x.2 := fun x hx =>
              hok.2.1.1.pos (s.idOf x.1, x.2) (List.mem_map.2 ⟨x, hperm.mem_iff.1 hx, rfl⟩)
            obtain ⟨⟨ext1, rfl⟩, dt1, d1, w1⟩ := saveAll_denotes h ih (s.byAddr f) hat hpos hnd (tab ++ [o.addr]) tab1 ts1 dt
              (insert tab.length O) h1 (hO'.new h ho (by rw [hd]; simp [Data.level])) hwo
            have ep : s.desc p = .monomial ((s.byAddr f).map fun x => Finsupp.single (s.atomDesc x.1) x.2).sum := by
              rw [sum_perm hperm]
              rcases o with ⟨a, i, d⟩; simp only at hd; subst hd; simp [desc, ho]
            refine ⟨⟨o.addr :: ext1, by simp⟩, _, ?_, w1.push ho (by rw [List.getElem?_append_left (by simp)]; exact hi)⟩
            rw [hlen, ep]
            refine .product d1 ?_
            have hdeg : ∀ g : List (Ptr × ℕ), ((g.map fun x => Finsupp.single (s.atomDesc x.1) x.2).sum).sum (fun _ n => n) = (g.map Prod.snd).sum := by
              intro g
              induction g with
              | nil => simp
              | cons x g ih => rw [List.map_cons, List.sum_cons, Finsupp.sum_add_index' (by simp) (by simp), ih]; simp
            rw [hdeg, sum_perm hperm]
            have h2 := hok.2.1.2
            rw [toMono, List.map_map] at h2
            exact h2

end ExactReal.Heap
