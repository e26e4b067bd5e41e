import Verif.Lemma.History
import Verif.Lemma.Deglex

/-! # Results of operations in terms of descriptions -/

namespace ExactReal.Heap
open State

/-- The description of an abstract number, given descriptions of the atoms. -/
noncomputable def descOf (F : ℕ → AtomDesc) : RN → Desc
  | .rat q => .rational q
  | .atom i => .monomial (Finsupp.mapDomain F (RN.atom i).mult)
  | .prod m => .monomial (Finsupp.mapDomain F (RN.prod m).mult)

theorem descOf_of_not_rat (F : ℕ → AtomDesc) {x : RN} (h : x.isRat = false) : descOf F x = .monomial (Finsupp.mapDomain F x.mult) := by
  cases x <;> first | rfl | simp [RN.isRat, RN.rational?] at h

theorem desc_eq_descOf {s : State} (h : Inv s) {p : Ptr} (hp : (s.live p).isSome) : s.desc p = descOf (descOfId s) (s.rn p) := by
  rw [desc_eq h hp]
  cases s.rn p <;> rfl

theorem descOf_mul (F : ℕ → AtomDesc) {x y z : RN} (hx : x.WF) (hy : y.WF) (h : x.mul y = .ok z) :
    (descOf F x).mul (descOf F y) = some (descOf F z) := by
  cases hrx : x.isRat with
  | true =>
    cases x with
    | rat p =>
      cases hry : y.isRat with
      | true =>
        cases y with
        | rat q =>
          by_cases hp : p = 1
          · simp [RN.mul, RN.ratMul, hp] at h; subst h; simp [descOf, Desc.mul, hp]
          · simp [RN.mul, RN.ratMul, hp] at h; subst h; simp [descOf, Desc.mul]
        | _ => simp [RN.isRat, RN.rational?] at hry
      | false =>
        by_cases hp : p = 1
        · simp [RN.mul, RN.ratMul, hp] at h
          subst h
          rw [descOf_of_not_rat F hry]; simp [descOf, Desc.mul, hp]
        · cases y <;> simp [RN.mul, RN.ratMul, hp] at h
          simp [RN.isRat, RN.rational?] at hry
    | _ => simp [RN.isRat, RN.rational?] at hrx
  | false =>
    cases hry : y.isRat with
    | true =>
      cases y with
      | rat q =>
        rw [rnMul_rat_right hrx] at h
        by_cases hq : q = 1
        · simp [RN.ratMul, hq] at h
          subst h
          rw [descOf_of_not_rat F hrx]; simp [descOf, Desc.mul, hq]
        · cases x <;> simp [RN.ratMul, hq] at h
          simp [RN.isRat, RN.rational?] at hrx
      | _ => simp [RN.isRat, RN.rational?] at hry
    | false =>
      obtain ⟨-, hm, -⟩ := RN.mul_eq_ok hx hy h
      rw [rnMul_of_not_rat hrx hry] at h
      obtain ⟨m, hm'⟩ := RN.persist_isProd x y hrx
      rw [hm'] at h; injection h with h; subst h
      rw [descOf_of_not_rat F hrx, descOf_of_not_rat F hry, Desc.mul, descOf, hm, Finsupp.mapDomain_add]

theorem descOf_mul_throws (F : ℕ → AtomDesc) {x y : RN} (h : x.mul y = .throws .logicError) : (descOf F x).mul (descOf F y) = none := by
  cases x with
  | rat p =>
    by_cases hp : p = 1
    · simp [RN.mul, RN.ratMul, hp] at h
    · cases y <;> simp_all [RN.mul, RN.ratMul, descOf, Desc.mul]
  | _ =>
    cases y with
    | rat q => by_cases hq : q = 1 <;> simp_all [RN.mul, RN.ratMul, descOf, Desc.mul]
    | _ => simp [RN.mul] at h

theorem mult_exists (f : ℕ →₀ ℕ) : ∃ x : RN, x.WF ∧ x.mult = f ∧ x.coef = 1 := by
  obtain ⟨h1, h2, h3⟩ := RN.rebuild_spec (Mono.canon_ofMult f).sorted
  exact ⟨_, h1, by rw [h2, Mono.mult_ofMult], h3⟩

/-- If there is no quotient of abstract numbers then there is no quotient of descriptions. -/
theorem descOf_div_none {F : ℕ → AtomDesc} {S : Set ℕ} (hF : Set.InjOn F S) {x y : RN} (hx : x.WF) (hy : y.WF)
    (sx : ∀ i, x.mult i ≠ 0 → i ∈ S) (sy : ∀ i, y.mult i ≠ 0 → i ∈ S) (h : x.div y = .ok none) (d : Desc) :
    d.mul (descOf F y) ≠ some (descOf F x) := by
  intro hd
  have hnone := RN.div_eq_none hx hy h
  have hry : y.isRat = false := by
    cases y with
    | rat q =>
      cases x with
      | rat p => simp [RN.div] at h; split_ifs at h <;> simp at h
      | atom i => simp [RN.div] at h; split_ifs at h; simp at h
      | prod m => simp [RN.div] at h; split_ifs at h; simp at h
    | _ => rfl
  have hrx : x.isRat = false := by
    cases hrx : x.isRat with
    | false => rfl
    | true =>
      cases x with
      | rat p =>
        rw [descOf_of_not_rat F hry] at hd
        cases d with
        | rational r => simp only [Desc.mul, descOf] at hd; split_ifs at hd; simp at hd
        | monomial g => simp [Desc.mul, descOf] at hd
      | _ => simp [RN.isRat, RN.rational?] at hrx
  have hle : Finsupp.mapDomain F y.mult ≤ Finsupp.mapDomain F x.mult := by
    rw [descOf_of_not_rat F hrx, descOf_of_not_rat F hry] at hd
    cases d with
    | rational r =>
      simp only [Desc.mul] at hd; split_ifs at hd; simp at hd; rw [hd]
    | monomial g =>
      simp only [Desc.mul, Option.some.injEq, Desc.monomial.injEq] at hd
      rw [← hd]; exact le_add_self
  have hle' : y.mult ≤ x.mult := by
    intro i
    by_cases hi : i ∈ S
    · have := hle (F i)
      rwa [Finsupp.mapDomain_apply' S _ (fun j hj => sy j (by simpa using hj)) hF hi,
        Finsupp.mapDomain_apply' S _ (fun j hj => sx j (by simpa using hj)) hF hi] at this
    · have : y.mult i = 0 := by by_contra hc; exact hi (sy i hc)
      rw [this]; exact Nat.zero_le _
  obtain ⟨q, hq, hm, hc⟩ := mult_exists (x.mult - y.mult)
  apply hnone q hq
  rw [RN.mul_eq_ok_iff hq hy hx]
  refine ⟨Or.inr ⟨hc, RN.coef_of_not_rat hry⟩, ?_, ?_⟩
  · rw [hm, tsub_add_cancel_of_le hle']
  · rw [hc, RN.coef_of_not_rat hry, RN.coef_of_not_rat hrx, mul_one]

theorem descOfId_injOn {s : State} (h : Inv s) : Set.InjOn (descOfId s) {i | ∃ q o, s.live q = some o ∧ o.data.isAtom ∧ i = s.idOf q} := by
  rintro i ⟨p1, o1, l1, a1, rfl⟩ j ⟨p2, o2, l2, a2, rfl⟩ hij
  rw [descOfId_idOf h (by simp [l1]), descOfId_idOf h (by simp [l2])] at hij
  rw [atomDesc_inj h l1 l2 a1 a2 hij]

/-! ### What never changes -/

/-- What an event does to the objects: it destroys some, creates others (with new pointers) and leaves the rest alone. -/
structure Later (s s' : State) : Prop where
  count : s.count ≤ s'.count
  live : ∀ p o, s'.live p = some o → p < s.count → s.live p = some o

theorem Later.rfl {s : State} : Later s s := ⟨le_rfl, fun _ _ h _ => h⟩
theorem Later.trans {a b c : State} (h : Later a b) (h' : Later b c) : Later a c :=
  ⟨h.count.trans h'.count, fun p o hp hl => h.live p o (h'.live p o hp (Nat.lt_of_lt_of_le hl h.count)) hl⟩

theorem later_create (s : State) (alloc : Alloc) (k : Key) (d : Data) : Later s (s.create alloc k d).1 := by
  refine ⟨Nat.le_succ _, fun p o hp hl => ?_⟩
  rw [live_create, if_neg (Nat.ne_of_lt hl)] at hp
  exact hp

theorem later_get (s : State) (alloc : Alloc) (isKey : Key → Bool) (k : Key) (d : Data) : Later s (s.get alloc isKey k d).1 := by
  unfold State.get
  split
  · exact ⟨le_rfl, fun _ _ h _ => h⟩
  · exact later_create _ _ _ _

theorem later_root (s : State) (r : List Ptr) : Later s { s with roots := r } := ⟨le_rfl, fun _ _ h _ => h⟩

theorem later_rebuild (s : State) (alloc : Alloc) (f : List (Ptr × ℕ)) : Later s (s.rebuild alloc f).1 := by
  unfold State.rebuild
  split
  · exact later_get _ _ _ _ _
  · exact later_root _ _
  · exact later_get _ _ _ _ _

theorem later_ratMul (s : State) (alloc : Alloc) (x : ℚ) (q : Ptr) : Later s (s.ratMul alloc x q).1 := by
  unfold State.ratMul
  split_ifs
  · exact later_root _ _
  · split
    · exact later_get _ _ _ _ _
    · exact Later.rfl

theorem later_step {gen : Generators} {alloc : Alloc} {s s' : State} {e : Event} {r : Res} (h : step gen alloc s e = some (s', r)) :
    Later s s' := by
  cases e with
  | rational q => simp only [step, Option.some.injEq, Prod.mk.injEq] at h; rw [← h.1]; exact later_get _ _ _ _ _
  | random q => simp only [step, Option.some.injEq, Prod.mk.injEq] at h; rw [← h.1]; exact later_get _ _ _ _ _
  | randomIn l u q =>
    simp only [step, Option.some.injEq, Prod.mk.injEq] at h; rw [← h.1]
    unfold State.randomIn
    split
    · exact later_get _ _ _ _ _
    · refine Later.trans ((later_get s alloc _ _ _).trans (later_get _ _ _ _ _)) ⟨le_rfl, fun _ _ h _ => h⟩
    all_goals exact Later.rfl
  | mul p q =>
    simp only [step] at h
    split_ifs at h
    simp only [Option.some.injEq, Prod.mk.injEq] at h; rw [← h.1]
    unfold State.mul
    split
    · exact later_ratMul _ _ _ _
    · split
      · exact later_ratMul _ _ _ _
      · exact later_get _ _ _ _ _
  | div p q =>
    simp only [step] at h
    split_ifs at h
    simp only [Option.some.injEq, Prod.mk.injEq] at h; rw [← h.1]
    unfold State.div
    split
    · split
      · split_ifs
        · exact later_root _ _
        · exact Later.rfl
      · split
        · exact later_rebuild _ _ _
        · exact Later.rfl
      · split
        · exact later_rebuild _ _ _
        · exact Later.rfl
    · split_ifs
      · exact later_get _ _ _ _ _
      · split
        · split_ifs
          · exact later_root _ _
          · exact Later.rfl
        · exact Later.rfl
  | copy p =>
    simp only [step] at h
    split_ifs at h
    simp only [Option.some.injEq, Prod.mk.injEq] at h; rw [← h.1]; exact later_root _ _
  | drop p =>
    simp only [step] at h
    split_ifs at h
    simp only [Option.some.injEq, Prod.mk.injEq] at h; rw [← h.1]; exact later_root _ _
  | destroy p =>
    simp only [step] at h
    split_ifs at h
    simp only [Option.some.injEq, Prod.mk.injEq] at h; rw [← h.1]
    refine ⟨le_rfl, fun q o hq _ => ?_⟩
    rw [live_destroy] at hq
    split_ifs at hq
    exact hq
  | forget k p =>
    simp only [step] at h
    split_ifs at h
    simp only [Option.some.injEq, Prod.mk.injEq] at h; rw [← h.1]
    exact ⟨le_rfl, fun q o hq _ => hq⟩

mutual
theorem later_load (alloc : Alloc) (s : State) (tab : List (ℕ × Ptr)) (t : Tree) : Later s (s.load alloc tab t).1 := by
  match t with
  | .shared id => exact Later.rfl
  | .rational id q => rw [State.load]; exact later_get _ _ _ _ _
  | .random id q => rw [State.load]; exact later_get _ _ _ _ _
  | .constrained id i e t =>
    have := later_load alloc s tab t
    rw [State.load]
    split
    · rename_i h; rw [h] at this; exact this.trans (later_get _ _ _ _ _)
    · rename_i h; rw [h] at this; exact this
  | .product id ts =>
    have := later_loadAll alloc s tab [] ts
    rw [State.load]
    split
    · rename_i h; rw [h] at this; exact this.trans (later_get _ _ _ _ _)
    · rename_i h; rw [h] at this; exact this
theorem later_loadAll (alloc : Alloc) (s : State) (tab : List (ℕ × Ptr)) (f : List (Ptr × ℕ)) (ts : Trees) :
    Later s (s.loadAll alloc tab f ts).1 := by
  match ts with
  | .nil => exact Later.rfl
  | .cons t e rest =>
    have := later_load alloc s tab t
    rw [State.loadAll]
    split
    · rename_i h; rw [h] at this; exact this.trans (later_loadAll _ _ _ _ _)
    · rename_i h; rw [h] at this; exact this
end

theorem later_of_evolves {gen : Generators} {s s' : State} (h : Evolves gen s s') : Later s s' := by
  induction h with
  | refl => exact Later.rfl
  | step _ _ hs ih => exact ih.trans (later_step hs)
  | load _ _ _ _ _ ih => exact ih.trans (later_load _ _ _ _)
  | read _ _ _ ih => exact ih.trans (later_load _ _ _ _)

theorem reach_of_evolves {gen : Generators} {s s' : State} (h : Reach gen s) (he : Evolves gen s s') : Reach gen s' := by
  induction he with
  | refl => exact h
  | step _ ha hs ih => exact ih.step ha hs
  | load _ ha h₀ hb hs ih => exact ih.load ha h₀ hb hs
  | read _ ha hd ih => exact ih.read ha hd

theorem next_of_evolves {gen : Generators} {s s' : State} (h : Evolves gen s s') : s.next ≤ s'.next := by
  induction h with
  | refl => exact le_rfl
  | step _ _ hs ih => exact ih.trans (next_step hs)
  | load _ _ _ _ _ ih => exact ih.trans (next_load _ _ _ _)
  | read _ _ _ ih => exact ih.trans (next_load _ _ _ _)

theorem desc_later {s s' : State} (h : Inv s) (h' : Inv s') (hl : Later s s') {p : Ptr} (hp : (s.live p).isSome)
    (hp' : (s'.live p).isSome) : s'.live p = s.live p ∧ s'.desc p = s.desc p := by
  have back : ∀ {q o}, (s.live q).isSome → s'.live q = some o → s.live q = some o := by
    intro q o hq hq'
    obtain ⟨o1, h1⟩ := Option.isSome_iff_exists.1 hq
    exact hl.live q o hq' (h.obj_id q o1 h1).1
  obtain ⟨o, ho⟩ := Option.isSome_iff_exists.1 hp'
  have ho' := back hp ho
  refine ⟨by rw [ho, ho'], ?_⟩
  symm
  apply desc_congr h' hp'
  rintro q o1 hq (rfl | ⟨o2, h2, h3⟩)
  · exact back hp hq
  · rw [ho] at h2; injection h2 with h2; subst h2
    rcases h3 with h3 | ⟨r, o3, h3, h4, h5⟩
    · exact back ((h.data_ok p o ho').refs_live q h3) hq
    · have := back ((h.data_ok p o ho').refs_live r h3) h4
      exact back ((h.data_ok r o3 this).refs_live q h5) hq

end ExactReal.Heap
