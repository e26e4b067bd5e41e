import Verif.Lemma.ArchiveSave
import Verif.Props.Heap
import Verif.Props.ModuleHeap

/-!
# C77: archives from anywhere

`t.Denotes [] tab d` (`Verif/Spec/Archive.lean`) says that the archive `t` describes the number `d`; whoever wrote it.  `Reach` and `MReach`
include histories in which such archives have been loaded, so everything that is proved about histories (C33-C44, C55) holds for these.
-/

namespace ExactReal.Props
open Heap State

/-- C77. Everything that a process writes is an archive that describes the number that is written. -/
theorem archive_of_save {gen : Generators} {s : State} (h : Reach gen s) (hb : s.next ≤ 2 ^ 64) {p : Ptr} {written : List Addr} {t : Tree}
    (hs : s.save 3 [] p = some (written, t)) : ∃ tab, t.Denotes [] tab (s.desc p) := by
  obtain ⟨-, tab, hd, -⟩ := save_denotes (inv_of_reach h hb) 3 [] p written t [] ∅ hs (fun o _ i hi => by simp at hi) (fun i a hi => by simp at hi)
  exact ⟨tab, hd⟩

/-- C77. An archive that describes a number is loaded as that number, in any state of the process; what was alive before is not touched.
Missing: that all other archives are rejected, which is false in release builds (`archive_single_fails`). -/
theorem archive_read_partial {gen : Generators} {alloc : Alloc} (ha : alloc.Valid) {s : State} (h : Reach gen s) {t : Tree} {tab : List (ℕ × Desc)} {d : Desc}
    (hd : t.Denotes [] tab d) (hb : (s.load alloc [] t).1.next ≤ 2 ^ 64) :
    ∃ q o, (s.load alloc [] t).2.2 = some q ∧ (s.load alloc [] t).1.live q = some o ∧ (s.load alloc [] t).1.desc q = d ∧
      ∀ x o, s.live x = some o → (s.load alloc [] t).1.live x = some o := by
  have l := load_denotes ha t hd (inv_of_reach h ((next_load _ _ _ _).trans hb)) (lt := []) (fun id d hl => by simp at hl) hb
  obtain ⟨q, h1, h2, h3⟩ := l.num
  obtain ⟨o, ho⟩ := Option.isSome_iff_exists.1 h2
  exact ⟨q, o, h1, ho, h3, l.ext.live⟩

/-- C77. If there is such a number already, however it came about, then it is the one that is loaded. -/
theorem archive_unique {gen : Generators} {alloc : Alloc} (ha : alloc.Valid) {s : State} (h : Reach gen s) {t : Tree} {tab : List (ℕ × Desc)}
    {p : Ptr} {o : Obj} (hp : s.live p = some o) (hd : t.Denotes [] tab (s.desc p)) (hb : (s.load alloc [] t).1.next ≤ 2 ^ 64) :
    (s.load alloc [] t).2.2 = some p := by
  have hi := inv_of_reach h ((next_load _ _ _ _).trans hb)
  have l := load_denotes ha t hd hi (lt := []) (fun id d hl => by simp at hl) hb
  obtain ⟨q, h1, h2, h3⟩ := l.num
  rw [h1, desc_inj l.inv (p := q) (q := p) h2 (by rw [l.ext.live p o hp]; rfl) (by rw [h3, desc_ext hi l.ext (by simp [hp])])]

/-- C77. Two archives that describe the same number, loaded at two points of a history, yield the same object if it is still there. -/
theorem archive_same {gen : Generators} {alloc alloc' : Alloc} (ha : alloc.Valid) (ha' : alloc'.Valid) {s s₁ : State} (h : Reach gen s)
    {t t' : Tree} {tab tab' : List (ℕ × Desc)} {d : Desc} (hd : t.Denotes [] tab d) (hd' : t'.Denotes [] tab' d)
    (he : Evolves gen (s.load alloc [] t).1 s₁) (hb : (s₁.load alloc' [] t').1.next ≤ 2 ^ 64) {p : Ptr} {o : Obj}
    (hp : (s.load alloc [] t).2.2 = some p) (ho : s₁.live p = some o) : (s₁.load alloc' [] t').2.2 = some p := by
  have hr := h.read ha hd
  have b1 := (next_load alloc' s₁ [] t').trans hb
  have b0 := (next_of_evolves he).trans b1
  obtain ⟨q, oq, h1, h2, h3, -⟩ := archive_read_partial ha h hd b0
  rw [hp] at h1; injection h1 with h1; subst h1
  refine archive_unique (tab := tab') ha' (reach_of_evolves hr he) ho ?_ hb
  rw [(desc_later (inv_of_reach hr b0) (inv_of_reach (reach_of_evolves hr he) b1) (later_of_evolves he) (by simp [h2]) (by simp [ho])).2, h3]
  exact hd'

/-- At most one of the numbers is rational, and no number is there twice. -/
def BasisOk (ds : List Desc) : Prop := ds.Pairwise fun d d' => d ≠ d' ∧ ¬ ((∃ x, d = .rational x) ∧ ∃ y, d' = .rational y)

section
variable {P : Type} [DecidableEq P]

theorem isRat_iff_desc {s : State} (h : Inv s) {p : Ptr} (hp : (s.live p).isSome) : (s.rn p).isRat = true ↔ ∃ x, s.desc p = .rational x := by
  rw [desc_eq_descOf h hp]
  cases hx : s.rn p with
  | rat x => simp [descOf, RN.isRat, RN.rational?]
  | atom i => simp [descOf, RN.isRat, RN.rational?]
  | prod m => simp [descOf, RN.isRat, RN.rational?]

theorem check_iff_basisOk {s : State} (h : Inv s) {ds : List Desc} {qs : List Ptr}
    (hf : List.Forall₂ (fun d q => (s.live q).isSome ∧ s.desc q = d) ds qs) : Mod.check (qs.map s.rn) = true ↔ BasisOk ds := by
  unfold BasisOk
  induction hf with
  | nil => simp [Mod.check]
  | @cons d q ds qs hq hf ih =>
    rw [List.map_cons, Mod.check, Bool.and_eq_true, ih, List.pairwise_cons]
    refine and_congr_left fun hx => ?_
    clear ih hx
    rw [List.all_eq_true]
    have hq2 := hq.2
    subst hq2
    have key : ∀ q', (s.live q').isSome → (Mod.compatible (s.rn q) (s.rn q') = true ↔
        (s.desc q ≠ s.desc q' ∧ ¬ ((∃ x, s.desc q = .rational x) ∧ ∃ y, s.desc q' = .rational y))) := by
      intro q' hq'
      rw [Mod.compatible_iff, isRat_iff_desc h hq.1, isRat_iff_desc h hq', and_comm]
      refine and_congr_left fun _ => not_congr ⟨fun e => ?_, fun e => ?_⟩
      · rw [rn_inj h hq.1 hq' e]
      · rw [desc_inj h hq.1 hq' e]
    constructor
    · intro hc d' hd'
      obtain ⟨q', hq', h1, h2⟩ : ∃ q' ∈ qs, (s.live q').isSome ∧ s.desc q' = d' := by
        clear hc key
        induction hf with
        | nil => cases hd'
        | cons a _ ih =>
          rcases List.mem_cons.1 hd' with rfl | hd'
          · exact ⟨_, List.mem_cons_self, a⟩
          · obtain ⟨x, h1, h2⟩ := ih hd'
            exact ⟨x, List.mem_cons_of_mem _ h1, h2⟩
      rw [← h2]
      exact (key q' h1).1 (hc _ (List.mem_map.2 ⟨q', hq', rfl⟩))
    · intro hc g hg
      obtain ⟨q', hq', rfl⟩ := List.mem_map.1 hg
      obtain ⟨h1, h2⟩ : (s.live q').isSome ∧ s.desc q' ∈ ds := by
        clear hc key hg
        induction hf with
        | nil => cases hq'
        | cons a _ ih =>
          rcases List.mem_cons.1 hq' with rfl | hq'
          · exact ⟨a.1, by rw [a.2]; exact List.mem_cons_self⟩
          · obtain ⟨h1, h2⟩ := ih hq'
            exact ⟨h1, List.mem_cons_of_mem _ h2⟩
      exact (key q' h1).2 (hc _ h2)

/-- C77. An archive of an element whose generators describe numbers is accepted exactly if no number is there twice and there is at most one
rational; otherwise it throws.  The generators of the loaded module are these numbers, the coefficients are the ones in the archive. -/
theorem element_read {R : Type} {gen : Generators} {alloc : Alloc} (ha : alloc.Valid) {malloc : MAlloc P} (hma : malloc.Valid) {st : MState P}
    (h : MReach gen st) {a : EltArchive P R} {tab : List (ℕ × Desc)} {ds : List Desc} (hd : BasisDenotes [] a.basis tab ds)
    (hb : (st.loadElement alloc malloc a).1.base.next ≤ 2 ^ 64) :
    (BasisOk ds → ∃ m o, (st.loadElement alloc malloc a).2 = some (.ok (m, a.coefficients)) ∧ (st.loadElement alloc malloc a).1.live m = some o ∧
      m ∈ (st.loadElement alloc malloc a).1.mroots ∧ o.ring = a.ring ∧ (o.basis.map (st.loadElement alloc malloc a).1.base.desc).Perm ds) ∧
    (¬ BasisOk ds → (st.loadElement alloc malloc a).2 = some (.throws .logicError)) := by
  have hn : st.base.next ≤ (st.loadElement alloc malloc a).1.base.next := by
    rw [MState.next_loadElement]; exact (loadBasis_mono _ _ _ _).2.2
  have l := MState.loadElement_read ha hma (MState.minv_of_mreach h (hn.trans hb)) hd hb
  obtain ⟨qs, hf, hr⟩ := l.result
  have hc := check_iff_basisOk l.inv.base hf
  constructor
  · intro hok
    rcases hr with ⟨m, o, h1, h2, h3, h4, h5, -⟩ | ⟨-, h2⟩
    · refine ⟨m, o, h1, h2, h3, h4, ?_⟩
      rw [h5]
      refine ((List.perm_insertionSort _ qs).map _).trans (List.Perm.of_eq ?_)
      clear hc h5
      generalize (st.loadElement alloc malloc a).1.base = s at hf
      clear h1 h2 h3 h4 hok l hn hb hd
      induction hf with
      | nil => rfl
      | cons x _ ih => rw [List.map_cons, x.2, ih]
    · rw [hc.2 hok] at h2; cases h2
  · intro hok
    rcases hr with ⟨m, o, -, -, -, -, -, h2⟩ | ⟨h1, -⟩
    · exact absurd (hc.1 h2) hok
    · exact h1

end

/-! ### A concrete archive -/

/-- `x² y`, written by hand: `y` comes first and `x` is spelled out in the middle. -/
def handWritten : Tree := .product 17 (.cons (.random 3 5) 1 (.cons (.constrained 8 (3 / 4) (-2) (.shared 3)) 2 .nil))

theorem handWritten_denotes : handWritten.Denotes []
    [(17, .monomial (.single (.random 5) 1 + (.single (.constrained (3 / 4) (-2) 5) 2 + 0))),
      (8, .monomial (.single (.constrained (3 / 4) (-2) 5) 1)), (3, .monomial (.single (.random 5) 1))]
    (.monomial (.single (.random 5) 1 + (.single (.constrained (3 / 4) (-2) 5) 2 + 0))) := by
  refine .product (.cons .random (by simp) (.cons (.constrained (.shared (by simp [List.lookup]))) (by simp) .nil (by simp)) (by simp)) ?_
  rw [Finsupp.sum_add_index' (by simp) (by simp)]
  simp

/-- The hypotheses are met. -/
example (gen : Generators) : ∃ q o, (init.load stackAlloc [] handWritten).2.2 = some q ∧ (init.load stackAlloc [] handWritten).1.live q = some o :=
  have hb : (init.load stackAlloc [] handWritten).1.next ≤ 2 ^ 64 := by
    simp [handWritten, State.load, State.loadAll, State.random, State.constrained, State.get, State.create, State.live, init, List.lookup,
      State.insertKey, State.addrOf, State.productFactory, State.byId, State.idOf, List.insertionSort, List.orderedInsert, State.toMono, stackAlloc]
  let ⟨q, o, h1, h2, _⟩ := archive_read_partial stackAlloc_valid (Reach.init (gen := gen)) handWritten_denotes hb
  ⟨q, o, h1, h2⟩

/-- An element `3 x + 5`, with the generators in any order; and an archive with a generator that is there twice. -/
def eltWritten : EltArchive Unit ℤ := ⟨[.random 1 7, .rational 2 1], (), [3, 5]⟩
def eltTwice : EltArchive Unit ℤ := ⟨[.random 1 7, .shared 1], (), [3, 5]⟩

theorem eltWritten_denotes : BasisDenotes [] eltWritten.basis [(2, .rational 1), (1, .monomial (.single (.random 7) 1))]
    [.monomial (.single (.random 7) 1), .rational 1] := .cons .random (.cons .rational .nil)

theorem eltTwice_denotes : BasisDenotes [] eltTwice.basis [(1, .monomial (.single (.random 7) 1))]
    [.monomial (.single (.random 7) 1), .monomial (.single (.random 7) 1)] :=
  .cons .random (.cons (.shared (by simp [List.lookup])) .nil)

example (gen : Generators) : (∃ m, ((minit Unit).loadElement stackAlloc (stackMAlloc Unit) eltWritten).2 = some (.ok (m, [3, 5]))) ∧
    ((minit Unit).loadElement stackAlloc (stackMAlloc Unit) eltTwice).2 = some (.throws .logicError) := by
  constructor
  · obtain ⟨m, o, h, -⟩ := (element_read stackAlloc_valid (stackMAlloc_valid Unit) (MReach.init (gen := gen)) eltWritten_denotes (by
      rw [MState.next_loadElement]
      simp [eltWritten, State.loadBasis, State.load, State.random, State.rational, State.get, State.create, State.live, minit, init, List.lookup])).1
      (by simp [BasisOk])
    exact ⟨m, h⟩
  · exact (element_read stackAlloc_valid (stackMAlloc_valid Unit) (MReach.init (gen := gen)) eltTwice_denotes (by
      rw [MState.next_loadElement]
      simp [eltTwice, State.loadBasis, State.load, State.random, State.get, State.create, State.live, minit, init, List.lookup])).2
      (by simp [BasisOk])

/-! ### Archives that do not describe a number -/

/-- A product with a single factor. -/
def singleFactor : Tree := .product 1 (.cons (.random 2 7) 1 .nil)

/-- C77 fails for other archives: there are no checks in release builds (`src/real_number_product.cc:572-591`; the constructor only has
assertions). A product with one factor is loaded as an object which is different from its factor: they were built as the same number and
compare as different. -/
theorem archive_single_fails : ∃ (p q : Ptr) (o o' : Obj), (init.load stackAlloc [] singleFactor).2.2 = some p ∧
    ((init.load stackAlloc [] singleFactor).1.random stackAlloc 7).2 = q ∧
    ((init.load stackAlloc [] singleFactor).1.random stackAlloc 7).1.live p = some o ∧
    ((init.load stackAlloc [] singleFactor).1.random stackAlloc 7).1.live q = some o' ∧ o.addr ≠ o'.addr ∧
    ((init.load stackAlloc [] singleFactor).1.random stackAlloc 7).1.desc p = ((init.load stackAlloc [] singleFactor).1.random stackAlloc 7).1.desc q := by
  have e : (init.load stackAlloc [] singleFactor) =
      (⟨2147483661, 2, [(1, ⟨2, 2147483660, .product [(0, 1)] 2147483659⟩), (0, ⟨1, 2147483659, .random 7⟩)], [1, 0],
        [(.product [(2147483659, 1)] 2147483659, 1), (.random 7, 0)]⟩, [(1, 1), (2, 0)], some 1) := by
    simp [singleFactor, State.load, State.loadAll, State.random, State.get, State.create, State.live, init, List.lookup, State.insertKey,
      State.addrOf, State.productFactory, State.byId, State.idOf, List.insertionSort, List.orderedInsert, State.toMono, Mono.hash_eq, stackAlloc]
  rw [e]
  refine ⟨1, 0, ⟨2, 2147483660, .product [(0, 1)] 2147483659⟩, ⟨1, 2147483659, .random 7⟩, rfl, ?_, ?_, ?_, by simp, ?_⟩ <;>
    simp [State.random, State.get, State.live, List.lookup, State.desc, State.atomDesc]

/-- C77 fails for the coefficients: their number is not checked in release builds (`src/element.cc:64`). -/
theorem element_count_fails (gen : Generators) : ∃ (a : EltArchive Unit ℤ) (tab : List (ℕ × Desc)) (d : Desc) (m : Ptr),
    BasisDenotes [] a.basis tab [d] ∧ ((minit Unit).loadElement stackAlloc (stackMAlloc Unit) a).2 = some (.ok (m, [3, 5])) := by
  obtain ⟨m, o, h, -⟩ := (element_read (a := (⟨[.random 1 7], (), [3, 5]⟩ : EltArchive Unit ℤ)) stackAlloc_valid (stackMAlloc_valid Unit)
    (MReach.init (gen := gen)) (.cons .random .nil) (by
      rw [MState.next_loadElement]
      simp [State.loadBasis, State.load, State.random, State.get, State.create, State.live, minit, init])).1 (by simp [BasisOk])
  exact ⟨_, _, _, m, .cons .random .nil, h⟩

end ExactReal.Props
