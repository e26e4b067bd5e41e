import Verif.Model.ArchiveStream
import Verif.Spec.ModuleHeap

/-! # Writing to and reading from an archive in the course of a program -/

namespace ExactReal.Heap
variable {P R : Type} [DecidableEq P]

/-- What has been written: a number `p` or an element with module `m` in the state of the process at that time. -/
inductive Source (P R : Type)
  | number (s : State) (p : Ptr)
  | element (st : MState P) (m : Ptr) (coefficients : List R)

/-- No number and module that are alive are at the same address. -/
def MState.Separate (st : MState P) : Prop :=
  ∀ p o m o', st.base.live p = some o → st.live m = some o' → o.addr ≠ o'.addr

/-- `WritesTo gen retain w l`: a process has written `l` to the archive in the course of its history.  Between two calls the program does anything,
but objects that the archive holds on to are not destroyed. -/
inductive WritesTo (gen : Generators) (retain : Bool) : Writer P → List (Item P R × Source P R) → Prop
  | start {st : MState P} : MReach gen st → WritesTo gen retain ⟨st, [], [], []⟩ []
  | progress {w : Writer P} {l : List (Item P R × Source P R)} {st : MState P} : WritesTo gen retain w l → MEvolves gen w.proc st →
      (∀ p ∈ w.kept, (st.base.live p).isSome) → (∀ m ∈ w.mkept, (st.live m).isSome) → WritesTo gen retain { w with proc := st } l
  | number {w w' : Writer P} {l : List (Item P R × Source P R)} {p : Ptr} {i : Item P R} : WritesTo gen retain w l → w.proc.Separate →
      w.writeNumber retain p = some (w', i) → WritesTo gen retain w' (l ++ [(i, .number w.proc.base p)])
  | element {w w' : Writer P} {l : List (Item P R × Source P R)} {m : Ptr} {cs : List R} {i : Item P R} : WritesTo gen retain w l → w.proc.Separate →
      w.writeElement retain m cs = some (w', i) → WritesTo gen retain w' (l ++ [(i, .element w.proc m cs)])

/-- `ReadsFrom gen r l`: a process (this one or another one) has read `l` from an archive in the course of its history.  Between two calls the program
does anything, but objects that the archive holds on to are not destroyed. -/
inductive ReadsFrom (gen : Generators) : Reader P → List (Item P R) → Prop
  | start {st : MState P} : MReach gen st → ReadsFrom gen ⟨st, [], []⟩ []
  | progress {r : Reader P} {l : List (Item P R)} {st : MState P} : ReadsFrom gen r l → MEvolves gen r.proc st →
      (∀ x ∈ r.numbers, (st.base.live x.2).isSome) → (∀ x ∈ r.modules, (st.live x.2).isSome) → ReadsFrom gen { r with proc := st } l
  | read {r : Reader P} {l : List (Item P R)} {alloc : Alloc} {malloc : MAlloc P} {i : Item P R} : ReadsFrom gen r l → alloc.Valid → malloc.Valid →
      ReadsFrom gen (r.read alloc malloc i).1 (l ++ [i])

/-- What has been read is what has been written: a number that was built in the same way, or an element over the same ring with the same generators
and coefficients. If the identities of the random numbers are in the same order in both processes, then the coefficients belong to the same
generators (C44). -/
def Source.Same : Source P R → Reader P × Answer R → Prop
  | .number s p, r => ∃ q, r.2 = .number q ∧ (r.1.proc.base.live q).isSome ∧ r.1.proc.base.desc q = s.desc p
  | .element st m cs, r => ∃ m' o o', r.2 = .element m' cs ∧ st.live m = some o ∧ r.1.proc.live m' = some o' ∧ o'.ring = o.ring ∧
      (o'.basis.map r.1.proc.base.desc).Perm (o.basis.map st.base.desc) ∧
      (SameOrder st.base r.1.proc.base → o'.basis.map r.1.proc.base.desc = o.basis.map st.base.desc)

end ExactReal.Heap
