import Verif.Lemma.ArchiveStream

/-!
# C80: several numbers and elements in one archive

`WritesTo gen retain w l` (`Verif/Spec/ArchiveStream.lean`): in the course of its history a process has written `l` to an archive; `retain` says
whether the archive keeps the objects alive that it has seen (`cereal` 1.3.1 and later) or not.  `ReadsFrom gen r l`: a process has read `l`.
-/

namespace ExactReal.Props
open Heap State

section
variable {P R : Type} [DecidableEq P]

/-- C80. Everything that has been written to an archive in the course of a program is read as what it was when it was written, whatever the two
programs do between the calls: if `l₁` has been written before `i`, and has been read, then reading `i` yields the number or element that was
written.  (Also for older versions of `cereal`, if the program does not destroy objects that have been written while it uses the archive: then its
history is the one of a program with an archive that keeps them alive.)
Missing: archives of older versions of `cereal` for programs that destroy what they have written, where the claim is false (`stream_address_fails`). -/
theorem stream_read_partial {gen gen' : Generators} {w : Writer P} {l₁ l₂ : List (Item P R × Source P R)} {i : Item P R} {x : Source P R}
    (hw : WritesTo gen true w (l₁ ++ (i, x) :: l₂)) (hb : w.proc.base.next ≤ 2 ^ 64) {r : Reader P} (hr : ReadsFrom gen' r (l₁.map Prod.fst))
    {alloc : Alloc} (ha : alloc.Valid) {malloc : MAlloc P} (hm : malloc.Valid) (hb' : (r.read alloc malloc i).1.proc.base.next ≤ 2 ^ 64) :
    x.Same (r.read alloc malloc i) := by
  obtain ⟨dt, mt, -, hs⟩ := stream_of_writes hw hb
  obtain ⟨dt, mt, dt', mt', hs, hd⟩ := hs.prefix rfl
  exact ((rinv_of_reads hr hs rfl ((Reader.next_read _ _ _ _).trans hb')).read hd ha hm hb').2

/-- C80. If the process that reads already has such a number, then it is the one that is read. -/
theorem stream_read_alive {gen gen' : Generators} {w : Writer P} {l₁ l₂ : List (Item P R × Source P R)} {i : Item P R} {s : State} {p : Ptr}
    (hw : WritesTo gen true w (l₁ ++ (i, .number s p) :: l₂)) (hb : w.proc.base.next ≤ 2 ^ 64) {r : Reader P}
    (hr : ReadsFrom gen' r (l₁.map Prod.fst)) {alloc : Alloc} (ha : alloc.Valid) {malloc : MAlloc P} (hm : malloc.Valid)
    (hb' : (r.read alloc malloc i).1.proc.base.next ≤ 2 ^ 64) {q : Ptr} (hq : ((r.read alloc malloc i).1.proc.base.live q).isSome)
    (hd : (r.read alloc malloc i).1.proc.base.desc q = s.desc p) : (r.read alloc malloc i).2 = .number q := by
  obtain ⟨q', h1, h2, h3⟩ := stream_read_partial hw hb hr ha hm hb'
  obtain ⟨dt, mt, -, hs⟩ := stream_of_writes hw hb
  obtain ⟨dt, mt, dt', mt', hs, hd'⟩ := hs.prefix rfl
  have hi := ((rinv_of_reads hr hs rfl ((Reader.next_read _ _ _ _).trans hb')).read hd' ha hm hb').1
  rw [h1, desc_inj hi.inv.base h2 hq (by rw [h3, hd])]

/-- C80. Writing never fails. -/
theorem stream_write {gen : Generators} {retain : Bool} {w : Writer P} (h : MReach gen w.proc) (hb : w.proc.base.next ≤ 2 ^ 64) :
    (∀ p, (w.proc.base.live p).isSome → ∃ y, w.writeNumber (R := R) retain p = some y) ∧
    ∀ m (cs : List R), (w.proc.live m).isSome → ∃ y, w.writeElement retain m cs = some y := by
  have hi := MState.minv_of_mreach h hb
  have total : ∀ p, (w.proc.base.live p).isSome → ∀ tab, ∃ y, w.proc.base.save 3 tab p = some y := by
    intro p hp tab
    obtain ⟨o, ho⟩ := Option.isSome_iff_exists.1 hp
    exact Heap.save_total hi.base 3 ho (by cases o.data <;> simp [Data.level]) tab
  refine ⟨fun p hp => ?_, fun m cs hm => ?_⟩
  · obtain ⟨⟨tab, t⟩, hy⟩ := total p hp w.tab
    exact ⟨_, by unfold Writer.writeNumber; rw [hy]⟩
  · obtain ⟨o, ho⟩ := Option.isSome_iff_exists.1 hm
    have : ∀ l : List Ptr, (∀ p ∈ l, (w.proc.base.live p).isSome) → ∀ tab, ∃ y, w.proc.base.saveBasis tab l = some y := by
      intro l hl
      induction l with
      | nil => intro tab; exact ⟨_, rfl⟩
      | cons p l ih =>
        intro tab
        obtain ⟨⟨tab1, t⟩, hy⟩ := total p (hl p (by simp)) tab
        obtain ⟨⟨tab2, ts⟩, hz⟩ := ih (fun q hq => hl q (by simp [hq])) tab1
        exact ⟨_, by rw [State.saveBasis, hy]; simp only; rw [hz]⟩
    unfold Writer.writeElement
    rw [ho]
    by_cases hmem : o.addr ∈ w.tab
    · exact ⟨_, by simp only [hmem, if_true]; rfl⟩
    · obtain ⟨⟨tab, ts⟩, hy⟩ := this o.basis (fun p hp => hi.basis_live ho hp) (w.tab ++ [o.addr])
      exact ⟨_, by simp only [hmem, if_false]; rw [hy]⟩

end

/-! ### Archives that do not keep objects alive -/

/-- A random number. -/
def streamState1 : MState Unit := { minit Unit with
  base := ⟨2147483660, 1, [(0, ⟨1, 2147483659, .random 1⟩)], [0], [(.random 1, 0)]⟩ }

/-- It has been destroyed and there is another random number at its address. -/
def streamState2 : MState Unit := { minit Unit with
  base := ⟨2147483661, 2, [(1, ⟨1, 2147483660, .random 2⟩)], [1], [(.random 2, 1), (.random 1, 0)]⟩ }

theorem streamState1_run (gen : Generators) : mrun gen stackAlloc (stackMAlloc Unit) (minit Unit) [.base (.random 1)] = some streamState1 := by
  simp [mrun, mstep, step, State.random, State.get, minit, init, State.create, stackAlloc, streamState1]

theorem streamState2_run (gen : Generators) : mrun gen stackAlloc (stackMAlloc Unit) streamState1
    [.base (.drop 0), .base (.destroy 0), .base (.random 2)] = some streamState2 := by
  simp [mrun, mstep, step, State.random, State.get, State.create, State.live, State.referenced, stackAlloc, streamState1, streamState2, minit, init,
    List.lookup, MState.held, Data.refs, Key.refs]

theorem mevolves_mrun {P : Type} [DecidableEq P] {gen : Generators} {alloc : Alloc} (ha : alloc.Valid) {malloc : MAlloc P} (hma : malloc.Valid)
    {s₀ s s' : MState P} (h : MEvolves gen s₀ s) (es : List (MEvent P)) (hr : mrun gen alloc malloc s es = some s') : MEvolves gen s₀ s' := by
  induction es generalizing s with
  | nil => simp only [mrun, Option.some.injEq] at hr; rwa [← hr]
  | cons e es ih =>
    rw [mrun] at hr
    split at hr
    · rename_i s1 r h1
      exact ih (h.step ha hma h1) hr
    · cases hr

/-- What is read for the first number. -/
def streamReader : Reader Unit := ⟨⟨⟨2147483660, 1, [(0, ⟨1, 2147483659, .random 1⟩)], [0, 0], [(.random 1, 0)]⟩, 0, [], [], []⟩, [(1, 0)], []⟩

/-- C80 fails for archives that do not keep objects alive, as with `cereal` before 1.3.1: a random number with seed 1 is written and destroyed; a random
number with seed 2 is made and gets its address; when it is written, it is taken for the first one; what is read is a random number with seed 1. -/
theorem stream_address_fails (gen : Generators) : ∃ (w : Writer Unit) (l : List (Item Unit ℤ × Source Unit ℤ)) (i : Item Unit ℤ) (x : Source Unit ℤ)
    (r : Reader Unit), WritesTo gen false w (l ++ [(i, x)]) ∧ ReadsFrom gen r (l.map Prod.fst) ∧
      (r.read stackAlloc (stackMAlloc Unit) i).1.proc.base.next ≤ 2 ^ 64 ∧ ¬ x.Same (r.read stackAlloc (stackMAlloc Unit) i) := by
  have h1 : WritesTo (R := ℤ) gen false ⟨streamState1, [], [], []⟩ [] :=
    .start (mreach_mrun stackAlloc_valid (stackMAlloc_valid Unit) MReach.init _ (streamState1_run gen))
  have h2 : WritesTo (R := ℤ) gen false ⟨streamState1, [1], [], []⟩ ([] ++ [(.number (.random 1 1), .number streamState1.base 0)]) :=
    h1.number (by intro p o m o' _ h; simp [streamState1, minit, MState.live] at h)
      (by simp [Writer.writeNumber, State.save, State.live, streamState1, minit, List.lookup, Writer.register])
  have h3 := h2.progress (st := streamState2) (mevolves_mrun stackAlloc_valid (stackMAlloc_valid Unit) MEvolves.refl _ (streamState2_run gen))
    (by simp) (by simp)
  have h4 := h3.number (p := 1) (w' := ⟨streamState2, [1], [], []⟩) (i := .number (.shared 1))
    (by intro p o m o' _ h; simp [streamState2, minit, MState.live] at h)
    (by simp [Writer.writeNumber, State.save, State.live, streamState2, minit, List.lookup, Writer.register])
  have r1 : ReadsFrom (P := Unit) (R := ℤ) gen ⟨minit Unit, [], []⟩ [] := .start MReach.init
  have r2 := r1.read (i := .number (.random 1 1)) stackAlloc_valid (stackMAlloc_valid Unit)
  have e : ((⟨minit Unit, [], []⟩ : Reader Unit).read (R := ℤ) stackAlloc (stackMAlloc Unit) (.number (.random 1 1))).1 = streamReader := by
    simp [Reader.read, State.load, State.random, State.get, State.create, minit, init, stackAlloc, streamReader]
  rw [e] at r2
  refine ⟨_, _, _, _, streamReader, h4, r2, ?_, ?_⟩
  · simp [Reader.read, State.load, streamReader, List.lookup]
  · rintro ⟨q, h5, h6, h7⟩
    simp only [Reader.read, State.load, streamReader, List.lookup, beq_self_eq_true, Answer.number.injEq] at h5 h7
    subst h5
    simp [State.desc, State.live, State.atomDesc, streamState2, List.lookup, Finsupp.single_left_inj] at h7

/-! ### The theorem applies -/

/-- Addresses of modules that are not those of the first numbers. -/
def highMAlloc (P : Type) : MAlloc P := fun st => stackMAlloc P st + 100

theorem highMAlloc_valid (P : Type) : (highMAlloc P).Valid := by
  intro st m o h e
  have h1 : (st.mods.map fun x => x.2.addr).foldr max 0 + 1 + 100 = o.addr := e
  have h2 : ∀ l : List (Ptr × MObj P), (m, o) ∈ l → o.addr ≤ (l.map fun x => x.2.addr).foldr max 0 := by
    intro l
    induction l with
    | nil => intro h; cases h
    | cons x l ih =>
      intro h
      rw [List.map_cons, List.foldr_cons]
      rcases List.mem_cons.1 h with rfl | h
      · exact le_max_left _ _
      · exact (ih h).trans (le_max_right _ _)
  have h3 := h2 st.mods (@MState.mem_of_live P (Classical.decEq P) _ _ _ h)
  rw [← h1] at h3
  exact absurd h3 (by simp [Nat.add_assoc])

/-- Two random numbers and a module. -/
def streamState3 : MState Unit :=
  ⟨⟨2147483661, 2, [(1, ⟨2, 2147483660, .random 2⟩), (0, ⟨1, 2147483659, .random 1⟩)], [0, 1, 1, 0], [(.random 2, 1), (.random 1, 0)]⟩, 1,
    [(0, ⟨101, (), [0, 1]⟩)], [0], [(([2147483659, 2147483660], ()), 0)]⟩

theorem streamState3_run (gen : Generators) : mrun gen stackAlloc (highMAlloc Unit) (minit Unit)
    [.base (.random 1), .base (.random 2), .make () [1, 0]] = some streamState3 := by
  have h : (RN.atom 2147483659).deglex (RN.atom 2147483660) = Out.ok true := by decide +kernel
  simp [h, mrun, mstep, step, State.random, State.get, minit, init, State.create, stackAlloc, streamState3, highMAlloc, stackMAlloc, MState.make,
    MState.sort, MState.check, State.rn, State.live, List.lookup, List.insertionSort, List.orderedInsert, State.idOf, State.addrOf, RN.isRat,
    RN.rational?, RN.lt, Res.ofOut]

/-- An element, a number and another element of the same module are written. -/
def streamItems : List (Item Unit ℤ × Source Unit ℤ) :=
  [(.element (.module 1 [.random 2 1, .random 3 2] ()) [3, 4], .element streamState3 0 [3, 4]),
   (.number (.shared 3), .number streamState3.base 1)]

theorem stream_example (gen : Generators) : ∃ w : Writer Unit, (w.proc = streamState3 ∧ w.tab = [101, 1, 2]) ∧
    WritesTo gen true w (streamItems ++ [(.element (.shared 1) [5, 6], .element streamState3 0 [5, 6])]) := by
  have hsep : streamState3.Separate := by
    intro p o m o' h1 h2
    simp only [MState.live, streamState3, List.lookup] at h1 h2
    have : o'.addr = 101 := by grind
    have := mem_of_lookup h1
    simp at this
    grind
  have h1 : WritesTo (R := ℤ) gen true ⟨streamState3, [], [], []⟩ [] :=
    .start (mreach_mrun stackAlloc_valid (highMAlloc_valid Unit) MReach.init _ (streamState3_run gen))
  have h2 := h1.element (m := 0) (cs := [3, 4]) (w' := ⟨streamState3, [101, 1, 2], [1, 0], [0]⟩)
    (i := .element (.module 1 [.random 2 1, .random 3 2] ()) [3, 4]) hsep
    (by simp [Writer.writeElement, MState.live, State.saveBasis, State.save, State.live, streamState3, List.lookup, Writer.register])
  have h3 := h2.number (p := 1) (w' := ⟨streamState3, [101, 1, 2], [1, 0], [0]⟩) (i := .number (.shared 3)) hsep
    (by simp [Writer.writeNumber, State.save, State.live, streamState3, List.lookup, Writer.register, List.idxOf, List.findIdx, List.findIdx.go])
  have h4 := h3.element (m := 0) (cs := [5, 6]) (w' := ⟨streamState3, [101, 1, 2], [1, 0], [0]⟩) (i := .element (.shared 1) [5, 6]) hsep
    (by simp [Writer.writeElement, MState.live, streamState3, List.lookup, List.idxOf, List.findIdx, List.findIdx.go])
  exact ⟨_, ⟨rfl, rfl⟩, h4⟩

/-- The second element is read correctly after the other two. -/
example (gen : Generators) : ∃ r : Reader Unit, ReadsFrom gen r (streamItems.map Prod.fst) ∧
    Source.Same (R := ℤ) (.element streamState3 0 [5, 6]) (r.read stackAlloc (highMAlloc Unit) (.element (.shared 1) [5, 6])) := by
  obtain ⟨w, ⟨hw, -⟩, h⟩ := stream_example gen
  have r1 : ReadsFrom (P := Unit) (R := ℤ) gen ⟨minit Unit, [], []⟩ [] := .start MReach.init
  have r2 := r1.read (i := .element (.module 1 [.random 2 1, .random 3 2] ()) [3, 4]) stackAlloc_valid (highMAlloc_valid Unit)
  have r3 := r2.read (i := .number (.shared 3)) stackAlloc_valid (highMAlloc_valid Unit)
  refine ⟨_, r3, stream_read_partial h (by rw [hw]; decide) r3 stackAlloc_valid (highMAlloc_valid Unit) (by decide +kernel)⟩

end ExactReal.Props
