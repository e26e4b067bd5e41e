import Verif.Spec.Archive
import Verif.Model.Module
import Verif.Spec.Heap

/-!
# Modules as objects, serialization of elements

Modules are created by a factory (`src/module.cc:68-120`) and hold strong references to their generators.  This file adds them to the histories
of `Verif/Model/Heap.lean`.  A module holds one strong reference per generator: these references are part of `roots` of the underlying state.
-/

namespace ExactReal.Heap

/-- A module, `src/module.cc:41-66`, with its address. -/
structure MObj (P : Type) where
  addr : Addr
  ring : P
  basis : List Ptr

/-- The state of the process with its modules over one kind of ring. `mroots` are the strong references to modules held by the user, by elements
and by `KeepSetAlive` (`src/module.cc:100`); `mcache` is the factory, its keys are the ids of the generators and the ring
(`src/module.cc:68-97`). -/
structure MState (P : Type) where
  base : State
  mcount : ℕ
  mods : List (Ptr × MObj P)
  mroots : List Ptr
  mcache : List ((List ℕ × P) × Ptr)

/-- The initial state. -/
def minit (P : Type) : MState P := ⟨init, 0, [], [], []⟩

/-- The address of the next module. -/
abbrev MAlloc (P : Type) := MState P → Addr

namespace MState
variable {P : Type} [DecidableEq P]

/-- The module that a pointer points to, if it is alive. -/
def live (st : MState P) (m : Ptr) : Option (MObj P) := st.mods.lookup m

/-- The number of references to a real number held by modules. -/
def held (st : MState P) (p : Ptr) : ℕ := (st.mods.map fun m => m.2.basis.count p).sum

/-- `std::sort` by `deglex`, `src/module.cc:116` (see `Mod.sort`). `deglex` only depends on the ids, exponents and values, i.e., on `rn`. -/
def sort (s : State) (basis : List Ptr) : List Ptr := basis.insertionSort fun p q => RN.lt (s.rn q) (s.rn p) = false

/-- The checks in the constructor, `src/module.cc:47-58`; `==` compares addresses. -/
def check (s : State) : List Ptr → Bool
  | [] => true
  | p :: ps => ps.all (fun q => !((s.rn p).isRat && (s.rn q).isRat) && !(s.addrOf p = s.addrOf q)) && check s ps

/-- `Module::make`, `src/module.cc:114-120`. -/
def make (malloc : MAlloc P) (st : MState P) (ring : P) (basis : List Ptr) : MState P × Out Ptr :=
  let sorted := sort st.base basis
  let key := (sorted.map st.base.idOf, ring)
  match st.mcache.find? fun e => e.1 = key && (st.live e.2).isSome with
  | some e => ({ st with mroots := e.2 :: st.mroots }, .ok e.2)
  | none =>
    if check st.base sorted then
      ({ base := { st.base with roots := sorted ++ st.base.roots }
         mcount := st.mcount + 1
         mods := (st.mcount, ⟨malloc st, ring, sorted⟩) :: st.mods
         mroots := st.mcount :: st.mroots
         mcache := (key, st.mcount) :: st.mcache }, .ok st.mcount)
    else (st, .throws .logicError)

end MState

/-- What can happen in a history with modules. -/
inductive MEvent (P : Type)
  /-- An event that involves real numbers only. -/
  | base (e : Event)
  | make (ring : P) (basis : List Ptr)
  /-- A reference to a module is copied (e.g. by an element) or destroyed. -/
  | copy (m : Ptr)
  | drop (m : Ptr)
  /-- A module without strong references is destroyed. -/
  | destroy (m : Ptr)
  /-- The factory removes an entry of a destroyed module. -/
  | forget (k : List ℕ × P) (m : Ptr)

/-- One event.  The references that modules hold to their generators cannot be dropped by anybody else. -/
def mstep {P : Type} [DecidableEq P] (gen : Generators) (alloc : Alloc) (malloc : MAlloc P) (st : MState P) : MEvent P → Option (MState P × Res)
  | .base (.drop p) =>
    if st.held p < st.base.roots.count p then
      (step gen alloc st.base (.drop p)).map fun x => ({ st with base := x.1 }, x.2)
    else none
  | .base e => (step gen alloc st.base e).map fun x => ({ st with base := x.1 }, x.2)
  | .make ring basis =>
    if basis.all fun p => st.base.roots.contains p then let (st, r) := st.make malloc ring basis; some (st, Res.ofOut r) else none
  | .copy m => if st.mroots.contains m then some ({ st with mroots := m :: st.mroots }, .unit) else none
  | .drop m => if st.mroots.contains m then some ({ st with mroots := st.mroots.erase m }, .unit) else none
  | .destroy m =>
    match st.live m with
    | some o =>
      if st.mroots.contains m then none
      else some ({ st with
        base := { st.base with roots := st.base.roots.diff o.basis }
        mods := st.mods.filter fun x => x.1 ≠ m }, .unit)
    | none => none
  | .forget k m => if (st.live m).isNone then some ({ st with mcache := st.mcache.erase (k, m) }, .unit) else none

/-- A valid allocator never returns the address of a live module. -/
def MAlloc.Valid {P : Type} (malloc : MAlloc P) : Prop := ∀ st m o, MState.live st m = some o → malloc st ≠ o.addr

/-! ### Archives -/

namespace State

/-- Write a vector of real numbers, `exact-real/cereal.hpp:293`. -/
def saveBasis (s : State) : List Addr → List Ptr → Option (List Addr × List Tree)
  | tab, [] => some (tab, [])
  | tab, p :: ps =>
    match s.save 3 tab p with
    | none => none
    | some (tab, t) =>
      match saveBasis s tab ps with
      | none => none
      | some (tab, ts) => some (tab, t :: ts)

/-- Read a vector of real numbers, `exact-real/cereal.hpp:310-311`. -/
def loadBasis (alloc : Alloc) (s : State) (tab : List (ℕ × Ptr)) : List Tree → State × List (ℕ × Ptr) × Option (List Ptr)
  | [] => (s, tab, some [])
  | t :: ts =>
    match load alloc s tab t with
    | (s, tab, some p) =>
      match loadBasis alloc s tab ts with
      | (s, tab, some ps) => (s, tab, some (p :: ps))
      | (s, tab, none) => (s, tab, none)
    | (s, tab, none) => (s, tab, none)

end State

/-- What is written for an element: the module (generators and ring) and the coefficients, `exact-real/cereal.hpp:187-195,283-296`. (The
numbering of shared objects also counts modules; one element has one module, so this does not matter here.) -/
structure EltArchive (P R : Type) where
  basis : List Tree
  ring : P
  coefficients : List R

namespace MState
variable {P : Type} [DecidableEq P] {R : Type}

/-- `save` for an element with the module `m`, `exact-real/cereal.hpp:187-195,283-296`. -/
def saveElement (st : MState P) (m : Ptr) (coefficients : List R) : Option (EltArchive P R) :=
  match st.live m with
  | none => none
  | some o =>
    match st.base.saveBasis [] o.basis with
    | none => none
    | some (_, ts) => some ⟨ts, o.ring, coefficients⟩

/-- `load` for an element, `exact-real/cereal.hpp:197-210,298-319`: the result is the module and the coefficients as they were written. -/
def loadElement (alloc : Alloc) (malloc : MAlloc P) (st : MState P) (a : EltArchive P R) : MState P × Option (Out (Ptr × List R)) :=
  match st.base.loadBasis alloc [] a.basis with
  | (s, _, some basis) =>
    match ({ st with base := s } : MState P).make malloc a.ring basis with
    | (st, .ok m) => (st, some (.ok (m, a.coefficients)))
    | (st, .throws e) => (st, some (.throws e))
    | (st, _) => (st, none)
  | (s, _, none) => ({ st with base := s }, none)

end MState

/-- The states that a history with modules can lead to; elements are loaded from archives that have been written by such a process (`load`) or
whose generators describe numbers (`read`). -/
inductive MReach {P : Type} [DecidableEq P] (gen : Generators) : MState P → Prop
  | init : MReach gen (minit P)
  | step {st st' : MState P} {alloc : Alloc} {malloc : MAlloc P} {e : MEvent P} {r : Res} :
      MReach gen st → alloc.Valid → malloc.Valid → mstep gen alloc malloc st e = some (st', r) → MReach gen st'
  | load {st st₀ : MState P} {alloc : Alloc} {malloc : MAlloc P} {m₀ : Ptr} {R : Type} {cs : List R} {a : EltArchive P R} :
      MReach gen st → alloc.Valid → malloc.Valid → MReach gen st₀ → st₀.base.next ≤ 2 ^ 64 → st₀.saveElement m₀ cs = some a →
      MReach gen (st.loadElement alloc malloc a).1
  | read {st : MState P} {alloc : Alloc} {malloc : MAlloc P} {R : Type} {a : EltArchive P R} {tab : List (ℕ × Desc)} {ds : List Desc} :
      MReach gen st → alloc.Valid → malloc.Valid → BasisDenotes [] a.basis tab ds → MReach gen (st.loadElement alloc malloc a).1

/-- A history that leads from one state to another. -/
inductive MEvolves {P : Type} [DecidableEq P] (gen : Generators) (st : MState P) : MState P → Prop
  | refl : MEvolves gen st st
  | step {st₁ st₂ : MState P} {alloc : Alloc} {malloc : MAlloc P} {e : MEvent P} {r : Res} :
      MEvolves gen st st₁ → alloc.Valid → malloc.Valid → mstep gen alloc malloc st₁ e = some (st₂, r) → MEvolves gen st st₂
  | load {st₁ st₀ : MState P} {alloc : Alloc} {malloc : MAlloc P} {m₀ : Ptr} {R : Type} {cs : List R} {a : EltArchive P R} :
      MEvolves gen st st₁ → alloc.Valid → malloc.Valid → MReach gen st₀ → st₀.base.next ≤ 2 ^ 64 → st₀.saveElement m₀ cs = some a →
      MEvolves gen st (st₁.loadElement alloc malloc a).1
  | read {st₁ : MState P} {alloc : Alloc} {malloc : MAlloc P} {R : Type} {a : EltArchive P R} {tab : List (ℕ × Desc)} {ds : List Desc} :
      MEvolves gen st st₁ → alloc.Valid → malloc.Valid → BasisDenotes [] a.basis tab ds → MEvolves gen st (st₁.loadElement alloc malloc a).1

end ExactReal.Heap
