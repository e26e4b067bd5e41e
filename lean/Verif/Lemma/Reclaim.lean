import Verif.Spec.Reclaim
import Verif.Lemma.ModuleHeap

/-! # Lemmas about reclaiming memory -/

namespace ExactReal.Heap

/-! ### There is one object per pointer and at most one entry per object -/

/-- Pointers are not reused in the heap and in the factories. -/
structure Tidy (s : State) : Prop where
  heap : (s.heap.map Prod.fst).Nodup
  heap_lt : ∀ x ∈ s.heap, x.1 < s.count
  cache : (s.cache.map Prod.snd).Nodup
  cache_lt : ∀ x ∈ s.cache, x.2 < s.count

/-- Tidiness is kept. -/
def Tidies (s s' : State) : Prop := Tidy s → Tidy s'

theorem Tidies.rfl {s : State} : Tidies s s := fun h => h
theorem Tidies.trans {a b c : State} (h : Tidies a b) (h' : Tidies b c) : Tidies a c := fun x => h' (h x)

theorem wf_get (s : State) (alloc : Alloc) (isKey : Key → Bool) (k : Key) (d : Data) : Tidies s (s.get alloc isKey k d).1 := by
  intro w
  unfold State.get
  split
  · exact ⟨w.1, w.2, w.3, w.4⟩
  · refine ⟨?_, ?_, ?_, ?_⟩
    · refine List.nodup_cons.2 ⟨?_, w.1⟩
      intro h
      obtain ⟨x, hx, he⟩ := List.mem_map.1 h
      have := w.2 x hx
      exact absurd he (ne_of_lt this)
    · intro x hx
      show x.1 < s.count + 1
      rcases List.mem_cons.1 hx with rfl | hx
      · exact Nat.lt_succ_self _
      · exact Nat.lt_succ_of_lt (w.2 x hx)
    · refine List.nodup_cons.2 ⟨?_, w.3⟩
      intro h
      obtain ⟨x, hx, he⟩ := List.mem_map.1 h
      have := w.4 x hx
      exact absurd he (ne_of_lt this)
    · intro x hx
      show x.2 < s.count + 1
      rcases List.mem_cons.1 hx with rfl | hx
      · exact Nat.lt_succ_self _
      · exact Nat.lt_succ_of_lt (w.4 x hx)

theorem wf_root (s : State) (p : Ptr) : Tidies s { s with roots := p :: s.roots } := fun w => ⟨w.1, w.2, w.3, w.4⟩

theorem wf_rebuild (s : State) (alloc : Alloc) (f : List (Ptr × ℕ)) : Tidies s (s.rebuild alloc f).1 := by
  unfold State.rebuild
  split
  · exact wf_get _ _ _ _ _
  · exact wf_root _ _
  · exact wf_get _ _ _ _ _

theorem wf_ratMul (s : State) (alloc : Alloc) (x : ℚ) (q : Ptr) : Tidies s (s.ratMul alloc x q).1 := by
  unfold State.ratMul
  split_ifs
  · exact wf_root _ _
  · split
    · exact wf_get _ _ _ _ _
    · exact Tidies.rfl

theorem wf_step {gen : Generators} {alloc : Alloc} {s s' : State} {e : Event} {r : Res}
    (h : step gen alloc s e = some (s', r)) : Tidies s s' := by
  cases e with
  | rational q => simp only [step, Option.some.injEq, Prod.mk.injEq] at h; rw [← h.1]; exact wf_get _ _ _ _ _
  | random q => simp only [step, Option.some.injEq, Prod.mk.injEq] at h; rw [← h.1]; exact wf_get _ _ _ _ _
  | randomIn l u q =>
    simp only [step, Option.some.injEq, Prod.mk.injEq] at h; rw [← h.1]
    unfold State.randomIn
    split
    · exact wf_get _ _ _ _ _
    · exact ((wf_get s alloc _ _ _).trans (wf_get _ _ _ _ _)).trans fun w => ⟨w.1, w.2, w.3, w.4⟩
    all_goals exact Tidies.rfl
  | mul p q =>
    simp only [step] at h
    split_ifs at h
    simp only [Option.some.injEq, Prod.mk.injEq] at h; rw [← h.1]
    unfold State.mul
    split
    · exact wf_ratMul _ _ _ _
    · split
      · exact wf_ratMul _ _ _ _
      · exact wf_get _ _ _ _ _
  | div p q =>
    simp only [step] at h
    split_ifs at h
    simp only [Option.some.injEq, Prod.mk.injEq] at h; rw [← h.1]
    unfold State.div
    split
    · split
      · split_ifs
        · exact wf_root _ _
        · exact Tidies.rfl
      · split
        · exact wf_rebuild _ _ _
        · exact Tidies.rfl
      · split
        · exact wf_rebuild _ _ _
        · exact Tidies.rfl
    · split_ifs
      · exact wf_get _ _ _ _ _
      · split
        · split_ifs
          · exact wf_root _ _
          · exact Tidies.rfl
        · exact Tidies.rfl
  | copy p =>
    simp only [step] at h
    split_ifs at h
    simp only [Option.some.injEq, Prod.mk.injEq] at h; rw [← h.1]; exact wf_root _ _
  | drop p =>
    simp only [step] at h
    split_ifs at h
    simp only [Option.some.injEq, Prod.mk.injEq] at h; rw [← h.1]; exact fun w => ⟨w.1, w.2, w.3, w.4⟩
  | destroy p =>
    simp only [step] at h
    split_ifs at h
    simp only [Option.some.injEq, Prod.mk.injEq] at h; rw [← h.1]
    exact fun w => ⟨w.1.sublist (List.filter_sublist.map _), fun x hx => w.2 x (List.mem_of_mem_filter hx), w.3, w.4⟩
  | forget k p =>
    simp only [step] at h
    split_ifs at h
    simp only [Option.some.injEq, Prod.mk.injEq] at h; rw [← h.1]
    exact fun w => ⟨w.1, w.2, w.3.sublist (List.erase_sublist.map _), fun x hx => w.4 x (List.mem_of_mem_erase hx)⟩

mutual
theorem wf_load (alloc : Alloc) (s : State) (tab : List (ℕ × Ptr)) (t : Tree) : Tidies s (s.load alloc tab t).1 := by
  match t with
  | .shared id => exact Tidies.rfl
  | .rational id q => rw [State.load]; exact wf_get _ _ _ _ _
  | .random id q => rw [State.load]; exact wf_get _ _ _ _ _
  | .constrained id i e t =>
    have := wf_load alloc s tab t
    rw [State.load]
    split
    · rename_i h; rw [h] at this; exact this.trans (wf_get _ _ _ _ _)
    · rename_i h; rw [h] at this; exact this
  | .product id ts =>
    have := wf_loadAll alloc s tab [] ts
    rw [State.load]
    split
    · rename_i h; rw [h] at this; exact this.trans (wf_get _ _ _ _ _)
    · rename_i h; rw [h] at this; exact this
theorem wf_loadAll (alloc : Alloc) (s : State) (tab : List (ℕ × Ptr)) (f : List (Ptr × ℕ)) (ts : Trees) :
    Tidies s (s.loadAll alloc tab f ts).1 := by
  match ts with
  | .nil => exact Tidies.rfl
  | .cons t e rest =>
    have := wf_load alloc s tab t
    rw [State.loadAll]
    split
    · rename_i h; rw [h] at this; exact this.trans (wf_loadAll _ _ _ _ _)
    · rename_i h; rw [h] at this; exact this
end

theorem wf_loadBasis (alloc : Alloc) (ts : List Tree) : ∀ (s : State) (tab : List (ℕ × Ptr)), Tidies s (s.loadBasis alloc tab ts).1 := by
  induction ts with
  | nil => intro s tab; exact Tidies.rfl
  | cons t ts ih =>
    intro s tab
    have h1 := wf_load alloc s tab t
    rw [State.loadBasis]
    split
    · rename_i s1 tab1 p h
      rw [h] at h1
      have h2 := ih s1 tab1
      split <;> (rename_i h'; rw [h'] at h2; exact h1.trans h2)
    · rename_i h; rw [h] at h1; exact h1

/-! ### Every call hands out one reference -/

theorem roots_rebuild (s : State) (alloc : Alloc) (f : List (Ptr × ℕ)) :
    (s.rebuild alloc f).1.roots = (s.rebuild alloc f).2 :: s.roots := by
  unfold State.rebuild
  split
  · exact roots_get _ _ _ _ _
  · rfl
  · exact roots_get _ _ _ _ _

theorem roots_ratMul (s : State) (alloc : Alloc) (x : ℚ) (q : Ptr) :
    (s.ratMul alloc x q).1.roots = (Res.ofOut (s.ratMul alloc x q).2).given ++ s.roots := by
  unfold State.ratMul
  split_ifs
  · rfl
  · split
    · exact roots_get _ _ _ _ _
    · rfl

theorem roots_call {gen : Generators} {alloc : Alloc} {s s' : State} {e : Event} {r : Res} (hc : ∀ p, e ≠ .copy p) (hd : ∀ p, e ≠ .drop p)
    (h : step gen alloc s e = some (s', r)) : s'.roots = r.given ++ s.roots := by
  cases e with
  | rational q => simp only [step, Option.some.injEq, Prod.mk.injEq] at h; rw [← h.1, ← h.2]; exact roots_get _ _ _ _ _
  | random q => simp only [step, Option.some.injEq, Prod.mk.injEq] at h; rw [← h.1, ← h.2]; exact roots_get _ _ _ _ _
  | randomIn l u q =>
    simp only [step, Option.some.injEq, Prod.mk.injEq] at h; rw [← h.1, ← h.2]
    unfold State.randomIn
    split
    · exact roots_get _ _ _ _ _
    · exact erase_inner _ _ _ _ _
    all_goals rfl
  | mul p q =>
    simp only [step] at h
    split_ifs at h
    simp only [Option.some.injEq, Prod.mk.injEq] at h; rw [← h.1, ← h.2]
    unfold State.mul
    split
    · exact roots_ratMul _ _ _ _
    · split
      · exact roots_ratMul _ _ _ _
      · exact roots_get _ _ _ _ _
  | div p q =>
    simp only [step] at h
    split_ifs at h
    simp only [Option.some.injEq, Prod.mk.injEq] at h; rw [← h.1, ← h.2]
    unfold State.div
    split
    · split
      · split_ifs <;> rfl
      · split
        · exact roots_rebuild _ _ _
        · rfl
      · split
        · exact roots_rebuild _ _ _
        · rfl
    · split_ifs
      · exact roots_get _ _ _ _ _
      · split
        · split_ifs <;> rfl
        · rfl
  | copy p => exact absurd rfl (hc p)
  | drop p => exact absurd rfl (hd p)
  | destroy p =>
    simp only [step] at h
    split_ifs at h
    simp only [Option.some.injEq, Prod.mk.injEq] at h; rw [← h.1, ← h.2]; rfl
  | forget k p =>
    simp only [step] at h
    split_ifs at h
    simp only [Option.some.injEq, Prod.mk.injEq] at h; rw [← h.1, ← h.2]; rfl

namespace MState
variable {P : Type} [DecidableEq P]

theorem held_cons (st : MState P) (x : Ptr × MObj P) (p : Ptr) :
    ((x :: st.mods).map fun m => m.2.basis.count p).sum = x.2.basis.count p + st.held p := by
  unfold MState.held
  simp

/-- The same for modules; modules to which there are references are alive. -/
structure MTidy (st : MState P) : Prop where
  base : Tidy st.base
  cache : (st.mcache.map Prod.snd).Nodup
  cache_lt : ∀ x ∈ st.mcache, x.2 < st.mcount
  roots : ∀ m ∈ st.mroots, (st.live m).isSome

theorem mtidy_make (malloc : MAlloc P) {st : MState P} (h : MTidy st) (ring : P) (l : List Ptr) : MTidy (st.make malloc ring l).1 := by
  unfold MState.make
  simp only
  split
  · rename_i e he
    refine ⟨h.1, h.2, h.3, ?_⟩
    intro m hm
    rcases List.mem_cons.1 hm with rfl | hm
    · have := List.find?_some he
      simp only [Bool.and_eq_true] at this
      exact this.2
    · exact h.4 m hm
  · split_ifs
    · refine ⟨⟨h.1.1, h.1.2, h.1.3, h.1.4⟩, ?_, ?_, ?_⟩
      · refine List.nodup_cons.2 ⟨?_, h.2⟩
        intro hx
        obtain ⟨x, hx, he⟩ := List.mem_map.1 hx
        have := h.3 x hx
        exact absurd he (ne_of_lt this)
      · intro x hx
        show x.2 < st.mcount + 1
        rcases List.mem_cons.1 hx with rfl | hx
        · exact Nat.lt_succ_self _
        · exact Nat.lt_succ_of_lt (h.3 x hx)
      · intro m hm
        show (List.lookup m (_ :: st.mods)).isSome
        rw [List.lookup_cons]
        by_cases hmc : m = st.mcount
        · simp [hmc]
        · rw [beq_eq_false_iff_ne.2 hmc]
          rcases List.mem_cons.1 hm with rfl | hm
          · exact absurd rfl hmc
          · exact h.4 m hm
    · exact h

theorem mtidy_step {gen : Generators} {alloc : Alloc} {malloc : MAlloc P} {st st' : MState P} {e : MEvent P} {r : Res} (h : MTidy st)
    (hs : mstep gen alloc malloc st e = some (st', r)) : MTidy st' := by
  cases e with
  | base e =>
    obtain ⟨s', h1, rfl, -⟩ := base_step hs
    exact ⟨wf_step h1 h.1, h.2, h.3, h.4⟩
  | make ring basis =>
    simp only [mstep] at hs
    split_ifs at hs with hc
    simp only [Option.some.injEq, Prod.mk.injEq] at hs
    rw [← hs.1]
    exact mtidy_make _ h _ _
  | copy m =>
    simp only [mstep] at hs; split_ifs at hs with hc; simp only [Option.some.injEq, Prod.mk.injEq] at hs; rw [← hs.1]
    refine ⟨h.1, h.2, h.3, ?_⟩
    intro m' hm
    rcases List.mem_cons.1 hm with rfl | hm
    · exact h.4 m' (List.contains_iff_mem.1 hc)
    · exact h.4 m' hm
  | drop m =>
    simp only [mstep] at hs; split_ifs at hs; simp only [Option.some.injEq, Prod.mk.injEq] at hs; rw [← hs.1]
    exact ⟨h.1, h.2, h.3, fun m' hm => h.4 m' (List.mem_of_mem_erase hm)⟩
  | destroy m =>
    simp only [mstep] at hs
    split at hs
    · split_ifs at hs with hc; simp only [Option.some.injEq, Prod.mk.injEq] at hs; rw [← hs.1]
      refine ⟨⟨h.1.1, h.1.2, h.1.3, h.1.4⟩, h.2, h.3, ?_⟩
      intro m' hm
      show (List.lookup m' (st.mods.filter fun x => x.1 ≠ m)).isSome
      rw [lookup_filter, if_neg]
      · exact h.4 m' hm
      · rintro rfl
        exact hc (List.contains_iff_mem.2 hm)
    · cases hs
  | forget k m =>
    simp only [mstep] at hs; split_ifs at hs; simp only [Option.some.injEq, Prod.mk.injEq] at hs; rw [← hs.1]
    exact ⟨h.1, h.2.sublist (List.erase_sublist.map _), fun x hx => h.3 x (List.mem_of_mem_erase hx), h.4⟩

theorem mtidy_loadElement {R : Type} (alloc : Alloc) (malloc : MAlloc P) {st : MState P} (h : MTidy st) (a : EltArchive P R) :
    MTidy (st.loadElement alloc malloc a).1 := by
  have h1 := wf_loadBasis alloc a.basis st.base []
  unfold MState.loadElement
  split
  · rename_i s tab basis hs
    rw [hs] at h1
    have h2 := mtidy_make malloc (st := { st with base := s }) ⟨h1 h.1, h.2, h.3, h.4⟩ a.ring basis
    split <;> (rename_i hh; rw [hh] at h2; exact h2)
  · rename_i s tab hs
    rw [hs] at h1
    exact ⟨h1 h.1, h.2, h.3, h.4⟩

theorem mtidy_of_mreach {gen : Generators} {st : MState P} (h : MReach gen st) : MTidy st := by
  induction h with
  | init =>
    refine ⟨⟨?_, ?_, ?_, ?_⟩, ?_, ?_, ?_⟩ <;> simp [minit, init]
  | step _ _ _ hs ih => exact mtidy_step ih hs
  | load _ _ _ _ _ _ ih _ => exact mtidy_loadElement _ _ ih _
  | read _ _ _ _ ih => exact mtidy_loadElement _ _ ih _

/-! ### One event -/

theorem live_of_mem {s : State} (h : Tidy s) {p : Ptr} {o : Obj} (hp : (p, o) ∈ s.heap) : s.live p = some o := by
  have key : ∀ l : List (Ptr × Obj), (l.map Prod.fst).Nodup → (p, o) ∈ l → l.lookup p = some o := by
    intro l
    induction l with
    | nil => intro _ h; cases h
    | cons a l ih =>
      intro hn hm
      rw [List.lookup_cons]
      rw [List.map_cons, List.nodup_cons] at hn
      rcases List.mem_cons.1 hm with rfl | hm
      · simp
      · have : p ≠ a.1 := by
          rintro rfl
          exact hn.1 (List.mem_map.2 ⟨_, hm, rfl⟩)
        rw [beq_eq_false_iff_ne.2 this]
        exact ih hn.2 hm
  exact key _ h.heap hp

theorem heap_of_live {s : State} {p : Ptr} {o : Obj} (h : s.live p = some o) : (p, o) ∈ s.heap := by
  have key : ∀ l : List (Ptr × Obj), l.lookup p = some o → (p, o) ∈ l := by
    intro l
    induction l with
    | nil => intro h; cases h
    | cons a l ih =>
      intro h
      rw [List.lookup_cons] at h
      by_cases hq : p = a.1
      · rw [hq, beq_self_eq_true] at h
        injection h with h
        rw [hq, ← h]; exact List.mem_cons_self
      · rw [beq_eq_false_iff_ne.2 hq] at h
        exact List.mem_cons_of_mem _ (ih h)
  exact key _ h

theorem mlive_of_mem {st : MState P} (h : (st.mods.map Prod.fst).Nodup) {m : Ptr} {o : MObj P} (hp : (m, o) ∈ st.mods) : st.live m = some o := by
  have key : ∀ l : List (Ptr × MObj P), (l.map Prod.fst).Nodup → (m, o) ∈ l → l.lookup m = some o := by
    intro l
    induction l with
    | nil => intro _ h; cases h
    | cons a l ih =>
      intro hn hm
      rw [List.lookup_cons]
      rw [List.map_cons, List.nodup_cons] at hn
      rcases List.mem_cons.1 hm with rfl | hm
      · simp
      · have : m ≠ a.1 := by
          rintro rfl
          exact hn.1 (List.mem_map.2 ⟨_, hm, rfl⟩)
        rw [beq_eq_false_iff_ne.2 this]
        exact ih hn.2 hm
  exact key _ h hp

/-- What freeing memory leaves alone. -/
structure Spared (st st' : MState P) : Prop where
  needs : ∀ p, st'.Needs p ↔ st.Needs p
  live : ∀ p, st.Needs p → st'.base.live p = st.base.live p
  roots : st'.mroots = st.mroots
  mods : ∀ m ∈ st.mroots, st'.live m = st.live m
  held : ∀ p, st'.users p = st.users p
  next : st'.base.next = st.base.next

theorem Spared.rfl {st : MState P} : Spared st st := ⟨fun _ => Iff.rfl, fun _ _ => Eq.refl _, Eq.refl _, fun _ _ => Eq.refl _, fun _ => Eq.refl _, Eq.refl _⟩

theorem Spared.trans {a b c : MState P} (h : Spared a b) (h' : Spared b c) : Spared a c :=
  ⟨fun p => (h'.needs p).trans (h.needs p), fun p hp => (h'.live p ((h.needs p).2 hp)).trans (h.live p hp), h'.roots.trans h.roots,
    fun m hm => (h'.mods m (by rw [h.roots]; exact hm)).trans (h.mods m hm), fun p => (h'.held p).trans (h.held p), h'.next.trans h.next⟩

theorem needs_iff {st st' : MState P} (hc : ∀ p, st'.users p = st.users p)
    (hr : st'.mroots = st.mroots) (hm : ∀ m ∈ st.mroots, st'.live m = st.live m) (hl : ∀ p, st.Needs p → st'.base.live p = st.base.live p)
    (hl' : ∀ p o, st'.base.live p = some o → st.base.live p = some o) (p : Ptr) : st'.Needs p ↔ st.Needs p := by
  constructor
  · intro h
    induction h with
    | held h => exact .held (by rw [← hc]; exact h)
    | generator h1 h2 h3 =>
      rw [hr] at h1
      rw [hm _ h1] at h2
      exact .generator h1 h2 h3
    | part _ h2 h3 ih => exact .part ih (hl' _ _ h2) h3
  · intro h
    induction h with
    | held h => exact .held (by rw [hc]; exact h)
    | generator h1 h2 h3 =>
      rw [← hm _ h1] at h2
      rw [← hr] at h1
      exact .generator h1 h2 h3
    | part h1 h2 h3 ih => exact .part ih (by rw [hl _ h1]; exact h2) h3

theorem needs_live {st : MState P} (h : MInv st) {p : Ptr} (hp : st.Needs p) : (st.base.live p).isSome := by
  induction hp with
  | held h1 => exact h.base.roots_live _ (List.count_pos_iff.1 (by unfold MState.users at h1; omega))
  | generator _ h2 h3 => exact h.basis_live h2 h3
  | part _ h2 h3 _ => exact (h.base.data_ok _ _ h2).refs_live _ h3

theorem needs_referenced {st : MState P} (h : MInv st) {p : Ptr} (hp : st.Needs p) : st.base.referenced p := by
  unfold State.referenced
  simp only [Bool.or_eq_true]
  cases hp with
  | held h1 => exact Or.inl (Or.inl (List.contains_iff_mem.2 (List.count_pos_iff.1 (by unfold MState.users at h1; omega))))
  | generator _ h2 h3 => exact Or.inl (Or.inl (List.contains_iff_mem.2 (h.basis_root h2 h3)))
  | part _ h2 h3 => exact Or.inl (Or.inr (List.any_eq_true.2 ⟨_, heap_of_live h2, List.contains_iff_mem.2 h3⟩))

theorem length_filter_lt {α : Type} {l : List (Ptr × α)} {p : Ptr} {o : α} (h : (p, o) ∈ l) :
    (l.filter fun x => x.1 ≠ p).length < l.length := by
  refine lt_of_le_of_ne (List.length_filter_le _ _) ?_
  intro he
  have := List.length_filter_eq_length_iff.1 he _ h
  simp at this

theorem length_erase_lt {α : Type} [BEq α] [LawfulBEq α] {l : List α} {x : α} (h : x ∈ l) : (l.erase x).length < l.length := by
  rw [List.length_erase_of_mem h]
  have := List.length_pos_of_mem h
  omega

theorem freesOne_spec {gen : Generators} {st st' : MState P} (h : MInv st) (hf : FreesOne gen st st') :
    Spared st st' ∧ st'.memory < st.memory := by
  obtain ⟨alloc, malloc, e, r, -, -, hf, hs⟩ := hf
  cases e with
  | base e =>
    obtain ⟨s', h1, rfl, -⟩ := base_step hs
    cases e with
    | destroy p =>
      simp only [step] at h1
      split_ifs at h1 with hc
      simp only [Option.some.injEq, Prod.mk.injEq] at h1
      obtain ⟨rfl, -⟩ := h1
      simp only [Bool.and_eq_true, Bool.not_eq_true'] at hc
      have hlv : ∀ q, State.live { st.base with heap := st.base.heap.filter fun x => x.1 ≠ p } q = if q = p then none else st.base.live q :=
        fun q => lookup_filter_ne _ _ _
      have hl : ∀ q, st.Needs q → State.live { st.base with heap := st.base.heap.filter fun x => x.1 ≠ p } q = st.base.live q := by
        intro q hq
        rw [hlv, if_neg]
        rintro rfl
        have := needs_referenced h hq
        rw [hc.2] at this
        cases this
      refine ⟨⟨needs_iff (fun _ => rfl) rfl (fun _ _ => rfl) hl ?_, hl, rfl, fun _ _ => rfl, fun _ => rfl, rfl⟩, ?_⟩
      · intro q o hq
        have hq' : State.live { st.base with heap := st.base.heap.filter fun x => x.1 ≠ p } q = some o := hq
        rw [hlv] at hq'
        split_ifs at hq'
        exact hq'
      · obtain ⟨o, ho⟩ := Option.isSome_iff_exists.1 hc.1
        have := length_filter_lt (heap_of_live ho)
        unfold MState.memory
        show (st.base.heap.filter fun x => x.1 ≠ p).length + _ + _ + _ < _
        simp only
        omega
    | forget k p =>
      simp only [step] at h1
      split_ifs at h1 with hc
      simp only [Option.some.injEq, Prod.mk.injEq] at h1
      obtain ⟨rfl, -⟩ := h1
      refine ⟨⟨needs_iff (fun _ => rfl) rfl (fun _ _ => rfl) (fun _ _ => rfl) (fun _ _ h => h), fun _ _ => rfl, rfl, fun _ _ => rfl, fun _ => rfl, rfl⟩, ?_⟩
      have := length_erase_lt (show (k, p) ∈ st.base.cache from hf)
      unfold MState.memory
      simp only
      omega
    | _ => exact absurd hf (by simp [MEvent.Frees])
  | destroy m =>
    simp only [mstep] at hs
    split at hs
    · rename_i o ho
      split_ifs at hs with hc; simp only [Option.some.injEq, Prod.mk.injEq] at hs
      obtain ⟨rfl, -⟩ := hs
      have hlv : ∀ q ∈ st.mroots, (st.mods.filter fun x => x.1 ≠ m).lookup q = st.live q := by
        intro q hq
        rw [lookup_filter, if_neg]
        · rfl
        · rintro rfl
          exact hc (List.contains_iff_mem.2 hq)
      have e1 := fun p => sum_filter h.nodup ho p
      have e2 := h.held
      have e3 : ∀ p, (st.base.roots.diff o.basis).count p = st.base.roots.count p - o.basis.count p := fun p => List.count_diff _ _ _
      have hu : ∀ p, (st.base.roots.diff o.basis).count p - ((st.mods.filter fun x => x.1 ≠ m).map fun x => x.2.basis.count p).sum = st.users p := by
        intro p
        have e1 := e1 p
        have e2 := e2 p
        have e3 := e3 p
        unfold MState.users
        unfold MState.held at e2 ⊢
        omega
      refine ⟨⟨needs_iff hu rfl hlv (fun _ _ => rfl) (fun _ _ h => h), fun _ _ => rfl, rfl, hlv, hu, rfl⟩, ?_⟩
      · have := length_filter_lt (mem_of_live ho)
        unfold MState.memory
        show _ + (st.mods.filter fun x => x.1 ≠ m).length + _ + _ < _
        simp only
        omega
    · cases hs
  | forget k m =>
    simp only [mstep] at hs; split_ifs at hs; simp only [Option.some.injEq, Prod.mk.injEq] at hs
    obtain ⟨rfl, -⟩ := hs
    refine ⟨⟨needs_iff (fun _ => rfl) rfl (fun _ _ => rfl) (fun _ _ => rfl) (fun _ _ h => h), fun _ _ => rfl, rfl, fun _ _ => rfl, fun _ => rfl, rfl⟩, ?_⟩
    have := length_erase_lt (show (k, m) ∈ st.mcache from hf)
    unfold MState.memory
    simp only
    omega
  | _ => exact absurd hf (by simp [MEvent.Frees])

/-! ### References -/

theorem roots_make (malloc : MAlloc P) (st : MState P) (ring : P) (l : List Ptr) :
    (∀ p, (st.make malloc ring l).1.users p = st.users p) ∧
      (st.make malloc ring l).1.mroots = (Res.ofOut (st.make malloc ring l).2).given ++ st.mroots := by
  unfold MState.make
  simp only
  split
  · exact ⟨fun _ => rfl, rfl⟩
  · split_ifs
    · refine ⟨fun p => ?_, rfl⟩
      show (sort st.base l ++ st.base.roots).count p - (((_, _) :: st.mods).map fun m => m.2.basis.count p).sum = _
      rw [held_cons, List.count_append]
      unfold MState.users
      simp only
      omega
    · exact ⟨fun _ => rfl, rfl⟩

/-! ### Settled states -/

theorem exists_alloc : ∃ alloc : Alloc, alloc.Valid := by
  refine ⟨fun s => (s.heap.map fun x => x.2.addr).sum + 1, ?_⟩
  intro s p o hp
  have := List.single_le_sum (fun _ _ => Nat.zero_le _) _ (List.mem_map.2 ⟨(p, o), heap_of_live hp, rfl⟩ : o.addr ∈ s.heap.map fun x => x.2.addr)
  exact (Nat.lt_succ_of_le this).ne'

theorem exists_malloc : ∃ malloc : MAlloc P, malloc.Valid := by
  refine ⟨fun st => (st.mods.map fun x => x.2.addr).sum + 1, ?_⟩
  intro st m o hm
  have := List.single_le_sum (fun _ _ => Nat.zero_le _) _ (List.mem_map.2 ⟨(m, o), mem_of_live hm, rfl⟩ : o.addr ∈ st.mods.map fun x => x.2.addr)
  exact (Nat.lt_succ_of_le this).ne'

/-- How deep in the graph of references an object can be. -/
def rank : Data → ℕ
  | .product _ _ => 0
  | .rational _ => 0
  | .constrained _ _ _ => 1
  | .random _ => 2

theorem settled_spec {gen : Generators} {st : MState P} (h : MInv st) (ht : MTidy st) (hs : Settled gen st) :
    (∀ p, (st.base.live p).isSome → st.Needs p) ∧ (∀ m, (st.live m).isSome → m ∈ st.mroots) ∧
    (∀ e ∈ st.base.cache, (st.base.live e.2).isSome) ∧ ∀ e ∈ st.mcache, (st.live e.2).isSome := by
  obtain ⟨alloc, ha⟩ := exists_alloc
  obtain ⟨malloc, hm⟩ := exists_malloc (P := P)
  have hmods : ∀ m, (st.live m).isSome → m ∈ st.mroots := by
    intro m hlm
    obtain ⟨o, ho⟩ := Option.isSome_iff_exists.1 hlm
    by_contra hc
    refine hs { st with
        base := { st.base with roots := st.base.roots.diff o.basis }
        mods := st.mods.filter fun x => x.1 ≠ m } ⟨alloc, malloc, .destroy m, .unit, ha, hm, trivial, ?_⟩
    simp only [mstep, ho]
    rw [if_neg (by simpa using hc)]
  have hcache : ∀ e ∈ st.base.cache, (st.base.live e.2).isSome := by
    intro e he
    by_contra hc
    refine hs { st with base := { st.base with cache := st.base.cache.erase e } } ⟨alloc, malloc, .base (.forget e.1 e.2), .unit, ha, hm, he, ?_⟩
    have : (st.base.live e.2).isNone := by simpa using hc
    simp only [mstep, step, this, if_true, Option.map_some]
  have hmcache : ∀ e ∈ st.mcache, (st.live e.2).isSome := by
    intro e he
    by_contra hc
    refine hs { st with mcache := st.mcache.erase e } ⟨alloc, malloc, .forget e.1 e.2, .unit, ha, hm, he, ?_⟩
    have : (st.live e.2).isNone := by simpa using hc
    simp only [mstep, this, if_true]
  refine ⟨?_, hmods, hcache, hmcache⟩
  have hrank : ∀ {p q : Ptr} {o o' : Obj}, st.base.live q = some o' → p ∈ o'.data.refs → st.base.live p = some o → rank o'.data < rank o.data := by
    intro p q o o' hq hp ho
    have hd := h.base.data_ok q o' hq
    cases hdat : o'.data with
    | rational x => rw [hdat] at hp; simp [Data.refs] at hp
    | random x => rw [hdat] at hp; simp [Data.refs] at hp
    | constrained i e n =>
      rw [hdat] at hp hd
      simp only [Data.refs, List.mem_singleton] at hp
      subst hp
      obtain ⟨o1, ho1, t, hto⟩ := hd
      rw [ho] at ho1
      injection ho1 with ho1
      rw [ho1, hto]
      simp [rank]
    | product f hh =>
      rw [hdat] at hp hd
      simp only [Data.refs] at hp
      obtain ⟨x, hx, rfl⟩ := List.mem_map.1 hp
      obtain ⟨o1, ho1, hto⟩ := hd.2.2 x hx
      rw [ho] at ho1
      injection ho1 with ho1
      rw [← ho1] at hto
      cases hdo : o.data <;> rw [hdo] at hto <;> simp_all [rank, Data.isAtom]
  have main : ∀ n p o, st.base.live p = some o → rank o.data = n → st.Needs p := by
    intro n
    induction n using Nat.strong_induction_on with
    | _ n ih =>
      intro p o ho hn
      have hpart : ∀ q o', st.base.live q = some o' → p ∈ o'.data.refs → st.Needs p := by
        intro q o' hq hp
        exact .part (ih _ (hn ▸ hrank hq hp ho) q o' hq rfl) hq hp
      have href : st.base.referenced p := by
        by_contra hc
        refine hs { st with base := { st.base with heap := st.base.heap.filter fun x => x.1 ≠ p } }
          ⟨alloc, malloc, .base (.destroy p), .unit, ha, hm, trivial, ?_⟩
        have h1 : (st.base.live p).isSome && !st.base.referenced p := by
          simp only [ho, Option.isSome_some, Bool.true_and]
          simpa using hc
        simp only [mstep, step, h1, if_true, Option.map_some]
      unfold State.referenced at href
      simp only [Bool.or_eq_true, List.any_eq_true, List.contains_iff_mem] at href
      rcases href with (h1 | ⟨x, hx, hp⟩) | ⟨e, he, hp⟩
      · by_cases hc : 0 < st.users p
        · exact .held hc
        · have h2 := List.count_pos_iff.2 h1
          have h3 : 0 < st.held p := by unfold MState.users at hc; omega
          unfold MState.held at h3
          have : ∃ x ∈ st.mods, p ∈ x.2.basis := by
            by_contra hne
            push Not at hne
            have : (st.mods.map fun m => m.2.basis.count p).sum = 0 := by
              rw [List.sum_eq_zero_iff]
              intro y hy
              obtain ⟨x, hx, rfl⟩ := List.mem_map.1 hy
              exact List.count_eq_zero.2 (hne x hx)
            omega
          obtain ⟨⟨m, o'⟩, hx, hp⟩ := this
          have hlm := mlive_of_mem h.nodup hx
          exact .generator (hmods m (by rw [hlm]; rfl)) hlm hp
      · exact hpart x.1 x.2 (live_of_mem ht.base hx) hp
      · obtain ⟨o', ho'⟩ := Option.isSome_iff_exists.1 (hcache e he)
        have hk := (h.base.cache_sound e.1 e.2 he).2 o' ho'
        refine hpart e.2 o' ho' ?_
        rw [hk] at hp
        cases hd : o'.data <;> rw [hd] at hp <;> simp_all [State.keyOf, Key.refs, Data.refs]
  intro p hp
  obtain ⟨o, ho⟩ := Option.isSome_iff_exists.1 hp
  exact main _ p o ho rfl

end MState

end ExactReal.Heap
