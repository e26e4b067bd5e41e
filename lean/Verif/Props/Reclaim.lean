import Verif.Lemma.Reclaim
import Verif.Props.ModuleHeap

/-!
# C83: Memory is reclaimed

Nothing leaks and nothing is lost: whenever memory is freed, in whatever order, everything that somebody still needs stays as it is, and when
nothing more can be freed then only what somebody needs is left — in the heap and in the factories.
-/

namespace ExactReal.Props
open ExactReal.Heap

variable {P : Type} [DecidableEq P]

/-- Freeing memory is part of the life of the process. -/
theorem freesN_reach {gen : Generators} {st st' : MState P} (h : MReach gen st) {n : ℕ} (hf : FreesN gen st n st') : MReach gen st' := by
  induction hf with
  | refl => exact h
  | step _ h1 ih =>
    obtain ⟨alloc, malloc, e, r, ha, hm, -, hs⟩ := h1
    exact ih.step ha hm hs

/-- What `n` events that free memory do. -/
theorem freesN_spec {gen : Generators} {st st' : MState P} (h : MReach gen st) (hb : st.base.next ≤ 2 ^ 64) {n : ℕ} (hf : FreesN gen st n st') :
    MState.Spared st st' ∧ n + st'.memory ≤ st.memory := by
  induction hf with
  | refl => exact ⟨MState.Spared.rfl, by omega⟩
  | step h1 h2 ih =>
    have hi := MState.minv_of_mreach (freesN_reach h h1) (by rw [ih.1.next]; exact hb)
    have := MState.freesOne_spec hi h2
    exact ⟨ih.1.trans this.1, by omega⟩

/-- **C83**: Freeing memory comes to an end: there cannot be more events that free memory than there are objects and entries. -/
theorem reclaim_bounded {gen : Generators} {st st' : MState P} (h : MReach gen st) (hb : st.base.next ≤ 2 ^ 64) {n : ℕ}
    (hf : FreesN gen st n st') : n + st'.memory ≤ st.memory := (freesN_spec h hb hf).2

/-- **C83**: From every state of every history, memory can be freed until nothing more can be freed. -/
theorem reclaim_total {gen : Generators} {st : MState P} (h : MReach gen st) (hb : st.base.next ≤ 2 ^ 64) :
    ∃ n st', FreesN gen st n st' ∧ Settled gen st' := by
  by_contra hc
  push Not at hc
  have key : ∀ n, ∃ st', FreesN gen st n st' := by
    intro n
    induction n with
    | zero => exact ⟨st, .refl⟩
    | succ n ih =>
      obtain ⟨st', h'⟩ := ih
      have := hc n st' h'
      unfold Settled at this
      push Not at this
      obtain ⟨st'', h''⟩ := this
      exact ⟨st'', .step h' h''⟩
  obtain ⟨st', h'⟩ := key (st.memory + 1)
  have := reclaim_bounded h hb h'
  omega

/-- **C83**: Freeing memory in any order does not affect what is needed: the numbers and modules that somebody needs are the same as before, they
have not moved and have not changed, and nobody lost a reference. -/
theorem reclaim_spares {gen : Generators} {st st' : MState P} (h : MReach gen st) (hb : st.base.next ≤ 2 ^ 64) {n : ℕ}
    (hf : FreesN gen st n st') :
    (∀ p, st.Needs p → st'.Needs p ∧ ∃ o, st.base.live p = some o ∧ st'.base.live p = some o) ∧
    (∀ m ∈ st.mroots, ∃ o, st.live m = some o ∧ st'.live m = some o) ∧ st'.mroots = st.mroots ∧
    ∀ p, st'.users p = st.users p := by
  have hs := (freesN_spec h hb hf).1
  refine ⟨fun p hp => ⟨(hs.needs p).2 hp, ?_⟩, fun m hm => ?_, hs.roots, hs.held⟩
  · obtain ⟨o, ho⟩ := Option.isSome_iff_exists.1 (MState.needs_live (MState.minv_of_mreach h hb) hp)
    exact ⟨o, ho, (hs.live p hp).trans ho⟩
  · obtain ⟨o, ho⟩ := Option.isSome_iff_exists.1 ((MState.mtidy_of_mreach h).roots m hm)
    exact ⟨o, ho, (hs.mods m hm).trans ho⟩

/-- **C83**: When nothing more can be freed, only what somebody needs is left: the living numbers are those that are needed, the living modules
are those to which there are references, and the factories have one entry for each of them and no others. -/
theorem reclaim_complete {gen : Generators} {st : MState P} (h : MReach gen st) (hb : st.base.next ≤ 2 ^ 64) (hs : Settled gen st) :
    (∀ p, (st.base.live p).isSome ↔ st.Needs p) ∧ (∀ m, (st.live m).isSome ↔ m ∈ st.mroots) ∧
    ∃ ps ms : List Ptr, ps.Nodup ∧ (∀ p, p ∈ ps ↔ st.Needs p) ∧ ms.Nodup ∧ (∀ m, m ∈ ms ↔ m ∈ st.mroots) ∧
      st.memory = 2 * (ps.length + ms.length) := by
  have hi := MState.minv_of_mreach h hb
  have ht := MState.mtidy_of_mreach h
  obtain ⟨h1, h2, h3, h4⟩ := MState.settled_spec hi ht hs
  have n1 : ∀ p, (st.base.live p).isSome ↔ st.Needs p := fun p => ⟨h1 p, MState.needs_live hi⟩
  have n2 : ∀ m, (st.live m).isSome ↔ m ∈ st.mroots := fun m => ⟨h2 m, ht.roots m⟩
  have m1 : ∀ p, p ∈ st.base.heap.map Prod.fst ↔ (st.base.live p).isSome := by
    intro p
    constructor
    · intro hp
      obtain ⟨x, hx, rfl⟩ := List.mem_map.1 hp
      rw [MState.live_of_mem ht.base (o := x.2) hx]; rfl
    · intro hp
      obtain ⟨o, ho⟩ := Option.isSome_iff_exists.1 hp
      exact List.mem_map.2 ⟨_, MState.heap_of_live ho, rfl⟩
  have m2 : ∀ m, m ∈ st.mods.map Prod.fst ↔ (st.live m).isSome := by
    intro m
    constructor
    · intro hm
      obtain ⟨x, hx, rfl⟩ := List.mem_map.1 hm
      rw [MState.mlive_of_mem hi.nodup (o := x.2) hx]; rfl
    · intro hm
      obtain ⟨o, ho⟩ := Option.isSome_iff_exists.1 hm
      exact List.mem_map.2 ⟨_, MState.mem_of_live ho, rfl⟩
  have c1 : st.base.cache.length = st.base.heap.length := by
    have : (st.base.cache.map Prod.snd).Perm (st.base.heap.map Prod.fst) := by
      refine (List.perm_ext_iff_of_nodup ht.base.cache ht.base.heap).2 fun p => ?_
      rw [m1]
      constructor
      · intro hp
        obtain ⟨e, he, rfl⟩ := List.mem_map.1 hp
        exact h3 e he
      · intro hp
        obtain ⟨o, ho⟩ := Option.isSome_iff_exists.1 hp
        exact List.mem_map.2 ⟨_, hi.base.cached p o ho, rfl⟩
    simpa using this.length_eq
  have c2 : st.mcache.length = st.mods.length := by
    have : (st.mcache.map Prod.snd).Perm (st.mods.map Prod.fst) := by
      refine (List.perm_ext_iff_of_nodup ht.cache hi.nodup).2 fun m => ?_
      rw [m2]
      constructor
      · intro hm
        obtain ⟨e, he, rfl⟩ := List.mem_map.1 hm
        exact h4 e he
      · intro hm
        obtain ⟨o, ho⟩ := Option.isSome_iff_exists.1 hm
        exact List.mem_map.2 ⟨_, hi.cached m o ho, rfl⟩
    simpa using this.length_eq
  refine ⟨n1, n2, st.base.heap.map Prod.fst, st.mods.map Prod.fst, ht.base.heap, fun p => (m1 p).trans (n1 p), hi.nodup,
    fun m => (m2 m).trans (n2 m), ?_⟩
  unfold MState.memory
  simp only [List.length_map]
  omega

/-- **C83**: The order in which memory is freed does not matter. -/
theorem reclaim_confluent {gen : Generators} {st st₁ st₂ : MState P} (h : MReach gen st) (hb : st.base.next ≤ 2 ^ 64) {n₁ n₂ : ℕ}
    (h₁ : FreesN gen st n₁ st₁) (h₂ : FreesN gen st n₂ st₂) (s₁ : Settled gen st₁) (s₂ : Settled gen st₂) :
    (∀ p, st₁.base.live p = st₂.base.live p) ∧ (∀ m, st₁.live m = st₂.live m) ∧ st₁.memory = st₂.memory := by
  have a1 := (freesN_spec h hb h₁).1
  have a2 := (freesN_spec h hb h₂).1
  obtain ⟨l1, m1, ps1, ms1, np1, hp1, nm1, hm1, e1⟩ := reclaim_complete (freesN_reach h h₁) (by rw [a1.next]; exact hb) s₁
  obtain ⟨l2, m2, ps2, ms2, np2, hp2, nm2, hm2, e2⟩ := reclaim_complete (freesN_reach h h₂) (by rw [a2.next]; exact hb) s₂
  refine ⟨fun p => ?_, fun m => ?_, ?_⟩
  · by_cases hp : st.Needs p
    · rw [a1.live p hp, a2.live p hp]
    · have x1 := (not_congr (l1 p)).2 (fun hx => hp ((a1.needs p).1 hx))
      have x2 := (not_congr (l2 p)).2 (fun hx => hp ((a2.needs p).1 hx))
      simp only [Bool.not_eq_true, Option.isSome_eq_false_iff, Option.isNone_iff_eq_none] at x1 x2
      rw [x1, x2]
  · by_cases hm : m ∈ st.mroots
    · rw [a1.mods m hm, a2.mods m hm]
    · have x1 := (not_congr (m1 m)).2 (fun hx => hm (by rw [a1.roots] at hx; exact hx))
      have x2 := (not_congr (m2 m)).2 (fun hx => hm (by rw [a2.roots] at hx; exact hx))
      simp only [Bool.not_eq_true, Option.isSome_eq_false_iff, Option.isNone_iff_eq_none] at x1 x2
      rw [x1, x2]
  · have hp : ps1.Perm ps2 := (List.perm_ext_iff_of_nodup np1 np2).2 fun p => by
      rw [hp1, hp2, a1.needs, a2.needs]
    have hm : ms1.Perm ms2 := (List.perm_ext_iff_of_nodup nm1 nm2).2 fun m => by
      rw [hm1, hm2, a1.roots, a2.roots]
    rw [e1, e2, hp.length_eq, hm.length_eq]

/-- **C83**: Once nobody holds any references anymore, everything is freed. -/
theorem reclaim_everything {gen : Generators} {st st' : MState P} (h : MReach gen st) (hb : st.base.next ≤ 2 ^ 64) (hm : st.mroots = [])
    (hr : ∀ p, st.users p = 0) {n : ℕ} (hf : FreesN gen st n st') (hs : Settled gen st') : st'.memory = 0 := by
  have a := (freesN_spec h hb hf).1
  obtain ⟨-, -, ps, ms, -, hp, -, hm', e⟩ := reclaim_complete (freesN_reach h hf) (by rw [a.next]; exact hb) hs
  have none : ∀ p, ¬ st.Needs p := by
    intro p hp
    induction hp with
    | held h1 => rw [hr] at h1; exact lt_irrefl _ h1
    | generator h1 => rw [hm] at h1; cases h1
    | part _ _ _ ih => exact ih
  have e1 : ps = [] := List.eq_nil_iff_forall_not_mem.2 fun p hx => none p ((a.needs p).1 ((hp p).1 hx))
  have e2 : ms = [] := List.eq_nil_iff_forall_not_mem.2 fun m hx => by
    have := (hm' m).1 hx
    rw [a.roots, hm] at this
    cases this
  rw [e, e1, e2]
  rfl

/-- **C83**: References are accounted for: a call adds exactly one reference, to the number that it returns; a call that creates a module adds
exactly one reference to it; copying and destroying a reference adds and removes exactly that reference; and nothing else changes the references
that users hold. -/
theorem references_accounted {gen : Generators} {alloc : Alloc} {malloc : MAlloc P} {st st' : MState P} {e : MEvent P} {r : Res}
    (h : MReach gen st) (hb : st.base.next ≤ 2 ^ 64) (hs : mstep gen alloc malloc st e = some (st', r)) :
    (∀ p, st'.users p = match (generalizing := false) e with
      | .base (.copy q) => st.users p + if p = q then 1 else 0
      | .base (.drop q) => st.users p - if p = q then 1 else 0
      | .base _ => st.users p + r.given.count p
      | _ => st.users p) ∧
    ∀ m, st'.mroots.count m = match (generalizing := false) e with
      | .make _ _ => st.mroots.count m + r.given.count m
      | .copy q => st.mroots.count m + if m = q then 1 else 0
      | .drop q => st.mroots.count m - if m = q then 1 else 0
      | _ => st.mroots.count m := by
  have hi := MState.minv_of_mreach h hb
  have hh := hi.held
  cases e with
  | base e =>
    obtain ⟨s', h1, rfl, hd⟩ := MState.base_step hs
    refine ⟨fun p => ?_, fun _ => rfl⟩
    have hp := hh p
    cases e with
    | copy q =>
      simp only [Heap.step] at h1
      split_ifs at h1
      simp only [Option.some.injEq, Prod.mk.injEq] at h1
      obtain ⟨rfl, -⟩ := h1
      show (q :: st.base.roots).count p - st.held p = _
      rw [List.count_cons]
      unfold MState.users
      by_cases hq : p = q
      · subst hq; simp; omega
      · have : (q == p) = false := beq_eq_false_iff_ne.2 (Ne.symm hq)
        simp [hq, this]
    | drop q =>
      simp only [Heap.step] at h1
      split_ifs at h1 with hc
      simp only [Option.some.injEq, Prod.mk.injEq] at h1
      obtain ⟨rfl, -⟩ := h1
      show (st.base.roots.erase q).count p - st.held p = _
      unfold MState.users
      by_cases hq : p = q
      · subst hq
        rw [List.count_erase_self]
        simp; omega
      · rw [List.count_erase_of_ne hq]
        simp [hq]
    | _ =>
      have h2 := roots_call (by simp) (by simp) h1
      show s'.roots.count p - st.held p = _
      rw [h2, List.count_append]
      unfold MState.users
      simp only
      omega
  | make ring basis =>
    simp only [mstep] at hs
    split_ifs at hs with hc
    simp only [Option.some.injEq, Prod.mk.injEq] at hs
    have := MState.roots_make malloc st ring basis
    rw [hs.1, hs.2] at this
    refine ⟨this.1, fun m => ?_⟩
    rw [this.2, List.count_append]
    simp only
    omega
  | copy q =>
    simp only [mstep] at hs; split_ifs at hs; simp only [Option.some.injEq, Prod.mk.injEq] at hs
    obtain ⟨rfl, -⟩ := hs
    refine ⟨fun _ => rfl, fun m => ?_⟩
    show (q :: st.mroots).count m = _
    rw [List.count_cons]
    by_cases hq : m = q
    · subst hq; simp
    · have : (q == m) = false := beq_eq_false_iff_ne.2 (Ne.symm hq)
      simp [hq, this]
  | drop q =>
    simp only [mstep] at hs; split_ifs at hs; simp only [Option.some.injEq, Prod.mk.injEq] at hs
    obtain ⟨rfl, -⟩ := hs
    refine ⟨fun _ => rfl, fun m => ?_⟩
    show (st.mroots.erase q).count m = _
    by_cases hq : m = q
    · subst hq
      rw [List.count_erase_self]
      simp
    · rw [List.count_erase_of_ne hq]
      simp [hq]
  | destroy q =>
    have hf : FreesOne gen st st' := by
      obtain ⟨alloc', ha⟩ := MState.exists_alloc
      obtain ⟨malloc', hm⟩ := MState.exists_malloc (P := P)
      exact ⟨alloc', malloc', .destroy q, r, ha, hm, trivial, hs⟩
    have := (MState.freesOne_spec hi hf).1
    exact ⟨this.held, fun m => by rw [this.roots]⟩
  | forget k q =>
    simp only [mstep] at hs; split_ifs at hs; simp only [Option.some.injEq, Prod.mk.injEq] at hs
    obtain ⟨rfl, -⟩ := hs
    exact ⟨fun _ => rfl, fun _ => rfl⟩

/-! ### Examples -/

/-- The two random numbers, the products and the module of `mstate` when only the reference to the module is left. -/
def mdropped : MState Unit :=
  { mstate with base := { mstate.base with roots := [3, 2] } }

theorem mreach_mdropped (gen : Generators) : MReach gen mdropped :=
  mreach_mrun downAlloc_valid (stackMAlloc_valid Unit) (mreach_mstate gen)
    [.base (.drop 0), .base (.drop 1), .base (.drop 2), .base (.drop 3)] rfl

/-- Everything is needed then: `a` and `b` are parts of the generators `a·b` and `b²`. -/
example : mdropped.Needs 0 ∧ mdropped.Needs 1 ∧ mdropped.Needs 2 ∧ mdropped.Needs 3 := by
  have h2 : mdropped.Needs 2 := .generator (m := 0) (o := ⟨1, (), [2, 3]⟩) (by decide) rfl (by decide)
  have h3 : mdropped.Needs 3 := .generator (m := 0) (o := ⟨1, (), [2, 3]⟩) (by decide) rfl (by decide)
  exact ⟨.part h2 (o := ⟨998, 2147483661, .product [(0, 1), (1, 1)] (2147483659 * 2147483660)⟩) rfl (by simp [Data.refs]),
    .part h2 (o := ⟨998, 2147483661, .product [(0, 1), (1, 1)] (2147483659 * 2147483660)⟩) rfl (by simp [Data.refs]), h2, h3⟩

/-- Then the reference to the module is dropped as well. -/
def mfinished : MState Unit := { mdropped with mroots := [] }

theorem mreach_mfinished (gen : Generators) : MReach gen mfinished :=
  mreach_mrun downAlloc_valid (stackMAlloc_valid Unit) (mreach_mdropped gen) [.drop 0] rfl

/-- The ten events that free the four numbers, the module and their entries. -/
example (gen : Generators) : ∃ n st', FreesN gen mfinished n st' ∧ Settled gen st' ∧ st'.memory = 0 ∧ mfinished.memory = 10 := by
  obtain ⟨n, st', hf, hs⟩ := reclaim_total (mreach_mfinished gen) (by decide)
  refine ⟨n, st', hf, hs, ?_, rfl⟩
  refine reclaim_everything (mreach_mfinished gen) (by decide) rfl (fun p => ?_) hf hs
  show List.count p [3, 2] - (List.count p [2, 3] + 0) = 0
  rw [(List.Perm.swap 2 3 []).count_eq p]
  exact Nat.sub_self _

end ExactReal.Props
