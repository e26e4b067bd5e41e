import Verif.Lemma.Archive

/-! # The invariant holds in every history -/

namespace ExactReal.Heap
open State

theorem mem_of_lookup {l : List (Ptr × Obj)} {p : Ptr} {o : Obj} (h : l.lookup p = some o) : (p, o) ∈ l := by
  induction l with
  | nil => simp at h
  | cons a l ih =>
    rcases a with ⟨q, o'⟩
    rw [List.lookup_cons] at h
    by_cases hq : p = q
    · subst hq
      simp only [beq_self_eq_true] at h
      injection h with h
      rw [h]; exact List.mem_cons_self
    · rw [beq_eq_false_iff_ne.2 hq] at h
      exact List.mem_cons_of_mem _ (ih h)

theorem live_destroy (s : State) (p q : Ptr) :
    State.live { s with heap := s.heap.filter fun x => x.1 ≠ p } q = if q = p then none else s.live q :=
  lookup_filter_ne s.heap p q

theorem inv_destroy {s : State} (h : Inv s) {p : Ptr} (hr : s.referenced p = false) :
    Inv { s with heap := s.heap.filter fun x => x.1 ≠ p } := by
  have hl := live_destroy s p
  set s' : State := { s with heap := s.heap.filter fun x => x.1 ≠ p } with hs'
  simp only [referenced, Bool.or_eq_false_iff] at hr
  obtain ⟨⟨r1, r2⟩, r3⟩ := hr
  have back : ∀ {q o}, s'.live q = some o → q ≠ p ∧ s.live q = some o := by
    intro q o hq
    rw [hl] at hq
    split_ifs at hq with hc
    exact ⟨hc, hq⟩
  have fwd : ∀ {q}, q ≠ p → s'.live q = s.live q := by
    intro q hq; rw [hl, if_neg hq]
  have refs : ∀ {q o}, s.live q = some o → ∀ r ∈ o.data.refs, r ≠ p := by
    intro q o hq r hr hc
    subst hc
    have := List.any_eq_false.1 r2 (q, o) (mem_of_lookup hq)
    simp [hr] at this
  have congr : ∀ {q o}, s.live q = some o → ∀ r ∈ o.data.refs, s'.live r = s.live r := fun hq r hr => fwd (refs hq r hr)
  refine ⟨h.next_eq, h.bound, ?_, ?_, ?_, ?_, ?_, ?_, ?_, ?_⟩
  · intro q o hq; exact h.obj_id q o (back hq).2
  · intro q o q' o' hq hq'; exact h.addr_inj q o q' o' (back hq).2 (back hq').2
  · intro q o hq; exact DataOK_congr (congr (back hq).2) (h.data_ok q o (back hq).2)
  · intro q o q' o' hq hq'; exact h.data_inj q o q' o' (back hq).2 (back hq').2
  · intro q o hq
    rw [keyOf_congr (congr (back hq).2)]
    exact h.cached q o (back hq).2
  · intro k q hk
    obtain ⟨h1, h2⟩ := h.cache_sound k q hk
    refine ⟨h1, fun o hq => ?_⟩
    rw [keyOf_congr (congr (back hq).2)]
    exact h2 o (back hq).2
  · intro k q hk r hr
    have hne : r ≠ p := by
      rintro rfl
      have := List.any_eq_false.1 r3 (k, q) hk
      simp [hr] at this
    rw [fwd hne]; exact h.cache_refs k q hk r hr
  · intro q hq
    have hne : q ≠ p := by
      rintro rfl
      have hq' : q ∈ s.roots := hq
      simp [hq'] at r1
    rw [fwd hne]; exact h.roots_live q hq

theorem inv_forget {s : State} (h : Inv s) {k : Key} {p : Ptr} (hp : s.live p = none) : Inv { s with cache := s.cache.erase (k, p) } := by
  refine ⟨h.next_eq, h.bound, h.obj_id, h.addr_inj, h.data_ok, h.data_inj, ?_, ?_, ?_, h.roots_live⟩
  · intro q o hq
    have hne : (s.keyOf o.data, q) ≠ (k, p) := by
      intro hc
      have : q = p := congrArg Prod.snd hc
      subst this
      have hq' : s.live q = some o := hq
      rw [hp] at hq'; cases hq'
    exact (List.mem_erase_of_ne hne).2 (h.cached q o hq)
  · intro k' q hk
    exact h.cache_sound k' q (List.mem_of_mem_erase hk)
  · intro k' q hk
    exact h.cache_refs k' q (List.mem_of_mem_erase hk)

theorem inv_drop {s : State} (h : Inv s) (p : Ptr) : Inv { s with roots := s.roots.erase p } :=
  ⟨h.next_eq, h.bound, h.obj_id, h.addr_inj, h.data_ok, h.data_inj, h.cached, h.cache_sound, h.cache_refs,
    fun q hq => h.roots_live q (List.mem_of_mem_erase hq)⟩

/-! ### `next` only grows -/

theorem next_rational (s : State) (alloc : Alloc) (q : ℚ) : s.next ≤ (s.rational alloc q).1.next := next_get _ _ _ _ _
theorem next_random (s : State) (alloc : Alloc) (q : UInt32) : s.next ≤ (s.random alloc q).1.next := next_get _ _ _ _ _

theorem next_randomIn (gen : Generators) (s : State) (alloc : Alloc) (l u : ℚ) (seed : UInt32) :
    s.next ≤ (s.randomIn gen alloc l u seed).1.next := by
  unfold State.randomIn
  split
  · exact next_random _ _ _
  · exact (next_random s alloc seed).trans (next_get _ _ _ _ _)
  all_goals exact le_rfl

theorem next_ratMul (s : State) (alloc : Alloc) (x : ℚ) (q : Ptr) : s.next ≤ (s.ratMul alloc x q).1.next := by
  unfold State.ratMul
  split_ifs
  · exact le_rfl
  · split
    · exact next_rational _ _ _
    · exact le_rfl

theorem next_mul (s : State) (alloc : Alloc) (p q : Ptr) : s.next ≤ (s.mul alloc p q).1.next := by
  unfold State.mul
  split
  · exact next_ratMul _ _ _ _
  · split
    · exact next_ratMul _ _ _ _
    · exact next_get _ _ _ _ _

theorem next_rebuild (s : State) (alloc : Alloc) (f : List (Ptr × ℕ)) : s.next ≤ (s.rebuild alloc f).1.next := by
  unfold State.rebuild
  split
  · exact next_rational _ _ _
  · exact le_rfl
  · exact next_productFactory _ _ _

theorem next_div (s : State) (alloc : Alloc) (p q : Ptr) : s.next ≤ (s.div alloc p q).1.next := by
  unfold State.div
  split
  · split
    · split_ifs <;> exact le_rfl
    · split
      · exact next_rebuild _ _ _
      · exact le_rfl
    · split
      · exact next_rebuild _ _ _
      · exact le_rfl
  · split_ifs
    · exact next_rational _ _ _
    · split
      · split_ifs <;> exact le_rfl
      · exact le_rfl

theorem next_step {gen : Generators} {alloc : Alloc} {s s' : State} {e : Event} {r : Res} (h : step gen alloc s e = some (s', r)) :
    s.next ≤ s'.next := by
  cases e with
  | rational q => simp only [step, Option.some.injEq, Prod.mk.injEq] at h; rw [← h.1]; exact next_rational _ _ _
  | random q => simp only [step, Option.some.injEq, Prod.mk.injEq] at h; rw [← h.1]; exact next_random _ _ _
  | randomIn l u q => simp only [step, Option.some.injEq, Prod.mk.injEq] at h; rw [← h.1]; exact next_randomIn _ _ _ _ _ _
  | mul p q =>
    simp only [step] at h
    split_ifs at h
    simp only [Option.some.injEq, Prod.mk.injEq] at h; rw [← h.1]; exact next_mul _ _ _ _
  | div p q =>
    simp only [step] at h
    split_ifs at h
    simp only [Option.some.injEq, Prod.mk.injEq] at h; rw [← h.1]; exact next_div _ _ _ _
  | copy p | drop p | destroy p | forget k p =>
    simp only [step] at h
    split_ifs at h
    simp only [Option.some.injEq, Prod.mk.injEq] at h; rw [← h.1]

/-! ### Numbers in an interval -/

/-- The factory hands out one reference. -/
theorem roots_get (s : State) (alloc : Alloc) (isKey : Key → Bool) (k : Key) (d : Data) :
    (s.get alloc isKey k d).1.roots = (s.get alloc isKey k d).2 :: s.roots := by
  unfold State.get
  split <;> rfl

/-- What is left of the references taken in `RealNumber::random(lower, upper, seed)`. -/
theorem erase_inner (s : State) (alloc : Alloc) (i : ℚ) (e : ℤ) (seed : UInt32) :
    ((s.random alloc seed).1.constrained alloc i e (s.random alloc seed).2).1.roots.erase (s.random alloc seed).2 =
      ((s.random alloc seed).1.constrained alloc i e (s.random alloc seed).2).2 :: s.roots := by
  have h1 : ((s.random alloc seed).1.constrained alloc i e (s.random alloc seed).2).1.roots =
      ((s.random alloc seed).1.constrained alloc i e (s.random alloc seed).2).2 :: (s.random alloc seed).2 :: s.roots := by
    rw [State.constrained, roots_get, State.random, roots_get]
  rw [h1]
  generalize ((s.random alloc seed).1.constrained alloc i e (s.random alloc seed).2).2 = p
  by_cases hp : p = (s.random alloc seed).2
  · rw [hp, List.erase_cons_head]
  · rw [List.erase_cons_tail (by simpa using hp), List.erase_cons_head]

theorem randomIn_inv {gen : Generators} {s : State} (h : Inv s) {alloc : Alloc} (ha : alloc.Valid) (l u : ℚ) (seed : UInt32)
    (hb : (s.randomIn gen alloc l u seed).1.next ≤ 2 ^ 64) :
    Inv (s.randomIn gen alloc l u seed).1 ∧ Ext s (s.randomIn gen alloc l u seed).1 ∧
      match ExactReal.randomIn gen l u seed with
      | .ok a => ∃ p, (s.randomIn gen alloc l u seed).2 = .ok p ∧ p ∈ (s.randomIn gen alloc l u seed).1.roots ∧
          ∃ o, (s.randomIn gen alloc l u seed).1.live p = some o ∧ (match a with
            | .random _ => o.data = .random seed
            | .constrained m e _ => ∃ inner oi, o.data = .constrained (Arf.ofMantissaExponent m e) e inner ∧
                (s.randomIn gen alloc l u seed).1.live inner = some oi ∧ oi.data = .random seed)
      | .throws e => (s.randomIn gen alloc l u seed) = (s, .throws e)
      | .abort => (s.randomIn gen alloc l u seed) = (s, .abort)
      | .ub => (s.randomIn gen alloc l u seed) = (s, .ub)
      | .pending => (s.randomIn gen alloc l u seed) = (s, .pending) := by
  unfold State.randomIn at hb ⊢
  cases hr : ExactReal.randomIn gen l u seed with
  | ok a =>
    cases a with
    | random d =>
      simp only [hr] at hb ⊢
      have g := random_spec h ha seed hb
      obtain ⟨o, h1, h2⟩ := g.data
      exact ⟨g.inv, g.ext, _, rfl, g.root, o, h1, h2⟩
    | constrained m e d =>
      simp only [hr] at hb ⊢
      have g := random_spec h ha seed (le_trans (next_get _ _ _ _ _) hb)
      obtain ⟨o, h1, h2⟩ := g.data
      have g' := constrained_spec g.inv ha (Arf.ofMantissaExponent m e) e (s.random alloc seed).2 ⟨o, h1, seed, h2⟩ hb
      obtain ⟨o', h1', h2'⟩ := g'.data
      have hroots := erase_inner s alloc (Arf.ofMantissaExponent m e) e seed
      refine ⟨inv_drop g'.inv _, ⟨(g.ext.trans g'.ext).live, (g.ext.trans g'.ext).next, ?_⟩, _, rfl, ?_, o', h1', _, o, h2', g'.ext.live _ o h1, h2⟩
      · intro p hp
        rw [hroots]; exact List.mem_cons_of_mem _ hp
      · rw [hroots]; exact List.mem_cons_self
  | throws e => exact ⟨h, Ext.rfl, rfl⟩
  | abort => exact ⟨h, Ext.rfl, rfl⟩
  | ub => exact ⟨h, Ext.rfl, rfl⟩
  | pending => exact ⟨h, Ext.rfl, rfl⟩

theorem Refines.inv {s : State} (h : Inv s) {r : State × Out Ptr} {x : Out RN} (hr : Refines s r x) : Inv r.1 ∧ Ext s r.1 := by
  unfold Refines at hr
  split at hr
  · obtain ⟨y, -, g⟩ := hr; exact ⟨g.inv, g.ext⟩
  · rw [hr.2]; exact ⟨h, Ext.rfl⟩
  · exact hr.elim

theorem RefinesOption.inv {s : State} (h : Inv s) {r : State × Out (Option Ptr)} {x : Out (Option RN)} (hr : RefinesOption s r x) :
    Inv r.1 ∧ Ext s r.1 := by
  unfold RefinesOption at hr
  split at hr
  · obtain ⟨y, -, g⟩ := hr; exact ⟨g.inv, g.ext⟩
  · rw [hr.2]; exact ⟨h, Ext.rfl⟩
  · rw [hr.2]; exact ⟨h, Ext.rfl⟩
  · exact hr.elim

theorem roots_of_contains {s : State} (h : Inv s) {p : Ptr} (hp : s.roots.contains p = true) : (s.live p).isSome :=
  h.roots_live p (by simpa using hp)

theorem inv_step {gen : Generators} {alloc : Alloc} (ha : alloc.Valid) {s s' : State} (h : Inv s) {e : Event} {r : Res}
    (hs : step gen alloc s e = some (s', r)) (hb : s'.next ≤ 2 ^ 64) : Inv s' := by
  cases e with
  | rational q =>
    simp only [step, Option.some.injEq, Prod.mk.injEq] at hs
    rw [← hs.1] at hb ⊢; exact (rational_spec h ha q hb).inv
  | random q =>
    simp only [step, Option.some.injEq, Prod.mk.injEq] at hs
    rw [← hs.1] at hb ⊢; exact (random_spec h ha q hb).inv
  | randomIn l u q =>
    simp only [step, Option.some.injEq, Prod.mk.injEq] at hs
    rw [← hs.1] at hb ⊢; exact (randomIn_inv h ha l u q hb).1
  | mul p q =>
    simp only [step] at hs
    split_ifs at hs with hc
    simp only [Bool.and_eq_true] at hc
    simp only [Option.some.injEq, Prod.mk.injEq] at hs
    rw [← hs.1] at hb ⊢
    exact (mul_refines h ha (roots_of_contains h hc.1) (roots_of_contains h hc.2) hb).inv h |>.1
  | div p q =>
    simp only [step] at hs
    split_ifs at hs with hc
    simp only [Bool.and_eq_true] at hc
    simp only [Option.some.injEq, Prod.mk.injEq] at hs
    rw [← hs.1] at hb ⊢
    exact (div_refines h ha (roots_of_contains h hc.1) (roots_of_contains h hc.2) hb).inv h |>.1
  | copy p =>
    simp only [step] at hs
    split_ifs at hs with hc
    simp only [Option.some.injEq, Prod.mk.injEq] at hs
    rw [← hs.1]; exact inv_root h (roots_of_contains h hc)
  | drop p =>
    simp only [step] at hs
    split_ifs at hs with hc
    simp only [Option.some.injEq, Prod.mk.injEq] at hs
    rw [← hs.1]; exact inv_drop h p
  | destroy p =>
    simp only [step] at hs
    split_ifs at hs with hc
    simp only [Bool.and_eq_true, Bool.not_eq_true'] at hc
    simp only [Option.some.injEq, Prod.mk.injEq] at hs
    rw [← hs.1]; exact inv_destroy h hc.2
  | forget k p =>
    simp only [step] at hs
    split_ifs at hs with hc
    simp only [Option.some.injEq, Prod.mk.injEq] at hs
    rw [← hs.1]; exact inv_forget h (by simpa using hc)

theorem load_fresh {s₀ : State} (h₀ : Inv s₀) {alloc : Alloc} (ha : alloc.Valid) {s : State} (h : Inv s) {n : ℕ} {p : Ptr} {tab : List Addr}
    {t : Tree} (hs : s₀.save n [] p = some (tab, t)) (hb : (s.load alloc [] t).1.next ≤ 2 ^ 64) :
    Loaded s₀ s p tab ∅ (s.load alloc [] t) :=
  (load_save h₀ ha n s h [] p tab t [] ∅ hs (fun o _ i hi => by simp at hi) (fun i a hi => by simp at hi) hb).2

theorem inv_of_reach {gen : Generators} {s : State} (h : Reach gen s) (hb : s.next ≤ 2 ^ 64) : Inv s := by
  induction h with
  | init => exact inv_init
  | step _ ha hs ih => exact inv_step ha (ih ((next_step hs).trans hb)) hs hb
  | load _ ha _ hb₀ hs ih ih₀ => exact (load_fresh (ih₀ hb₀) ha (ih ((next_load _ _ _ _).trans hb)) hs hb).inv
  | read _ ha hd ih => exact (load_denotes ha _ hd (ih ((next_load _ _ _ _).trans hb)) (fun id d hl => by simp at hl) hb).inv

/-- Three levels of recursion suffice to write a number. -/
theorem saveAll_total {s : State} {n : ℕ} (l : List (Ptr × ℕ)) (hl : ∀ x ∈ l, ∀ tab, ∃ r, s.save n tab x.1 = some r) (tab : List Addr) :
    ∃ r, saveAll (s.save n) tab l = some r := by
  induction l generalizing tab with
  | nil => exact ⟨_, rfl⟩
  | cons x l ih =>
    rcases x with ⟨p, e⟩
    obtain ⟨⟨tab1, t⟩, h1⟩ := hl (p, e) (by simp) tab
    obtain ⟨⟨tab2, ts⟩, h2⟩ := ih (fun x hx => hl x (by simp [hx])) tab1
    exact ⟨(tab2, .cons t e ts), by simp only [saveAll, h1, h2]⟩

theorem save_total {s : State} (h : Inv s) (n : ℕ) {p : Ptr} {o : Obj} (ho : s.live p = some o) (hl : o.data.level < n) (tab : List Addr) :
    ∃ r, s.save n tab p = some r := by
  induction n generalizing p o tab with
  | zero => simp at hl
  | succ n ih =>
    rw [State.save, ho]
    simp only
    split_ifs
    · exact ⟨_, rfl⟩
    · have hok := h.data_ok p o ho
      cases hd : o.data with
      | rational q => exact ⟨_, rfl⟩
      | random t => exact ⟨_, rfl⟩
      | constrained i e inner =>
        rw [hd] at hok hl
        obtain ⟨oi, h1, t, h2⟩ := hok
        obtain ⟨⟨tab1, t1⟩, h3⟩ := ih h1 (by rw [h2]; simp [Data.level] at hl ⊢; omega) (tab ++ [o.addr])
        exact ⟨(tab1, .constrained (tab ++ [o.addr]).length i e t1), by simp only [h3]⟩
      | product f hh =>
        rw [hd] at hok hl
        have hperm : (s.byAddr f).Perm f := List.perm_insertionSort _ _
        obtain ⟨⟨tab1, t1⟩, h3⟩ := saveAll_total (s := s) (n := n) (s.byAddr f) (fun x hx tab => by
          obtain ⟨ox, h1, h2⟩ := hok.2.2 x (hperm.mem_iff.1 hx)
          have := level_atom h2
          exact ih h1 (by simp [Data.level] at hl; omega) tab) (tab ++ [o.addr])
        exact ⟨(tab1, .product (tab ++ [o.addr]).length t1), by simp only [h3]⟩

end ExactReal.Heap
