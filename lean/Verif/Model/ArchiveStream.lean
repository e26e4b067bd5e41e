import Verif.Model.ModuleHeap

/-!
# An archive to which several things are written, and from which they are read

An archive numbers the objects (real numbers and modules) in the order in which their addresses appear for the first time; when an object is
written again, only its number is written (`exact-real/cereal.hpp:249-319`).  Between two calls of the archive the program goes on: it makes and
destroys numbers and modules.

Which objects the archive keeps alive depends on the version of `cereal` (`exact-real/cereal.hpp:256-260,285-289`): since 1.3.1 the archive gets the
shared pointer and holds on to it, older versions get the address only.  When reading, the archive holds on to everything in all versions.
-/

namespace ExactReal.Heap

/-- What is written for a module, `exact-real/cereal.hpp:283-296`. -/
inductive MTree (P : Type)
  /-- A module that has been written before. -/
  | shared (id : ℕ)
  | module (id : ℕ) (basis : List Tree) (ring : P)

/-- What is written by one call of the archive, for a real number (`exact-real/cereal.hpp:249-267`) or an element (lines 187-195). -/
inductive Item (P R : Type)
  | number (t : Tree)
  | element (parent : MTree P) (coefficients : List R)

/-- An archive that is being written, and the process that writes it.  `tab` are the addresses that have been written, the `i`-th has been given
the number `i + 1`; `kept` and `mkept` are the shared pointers to numbers and modules that the archive holds. -/
structure Writer (P : Type) where
  proc : MState P
  tab : List Addr
  kept : List Ptr
  mkept : List Ptr

namespace Writer
variable {P R : Type} [DecidableEq P]

/-- The archive has registered the addresses `tab`. If it keeps objects alive (`retain`, `cereal` 1.3.1 and later) then it has got shared pointers
to the objects at the new addresses, `exact-real/cereal.hpp:256-260,285-289`. -/
def register (retain : Bool) (w : Writer P) (tab : List Addr) : Writer P :=
  { proc := w.proc
    tab := tab
    kept := if retain then w.kept ++ ((w.proc.base.heap.filter fun x => x.2.addr ∈ tab ∧ x.2.addr ∉ w.tab).map Prod.fst) else w.kept
    mkept := if retain then w.mkept ++ ((w.proc.mods.filter fun x => x.2.addr ∈ tab ∧ x.2.addr ∉ w.tab).map Prod.fst) else w.mkept }

/-- `archive(number)`, `exact-real/cereal.hpp:249-267`. -/
def writeNumber (retain : Bool) (w : Writer P) (p : Ptr) : Option (Writer P × Item P R) :=
  match w.proc.base.save 3 w.tab p with
  | none => none
  | some (tab, t) => some (w.register retain tab, .number t)

/-- `archive(element)` for an element with the module `m`, `exact-real/cereal.hpp:187-195,283-296`. -/
def writeElement (retain : Bool) (w : Writer P) (m : Ptr) (coefficients : List R) : Option (Writer P × Item P R) :=
  match w.proc.live m with
  | none => none
  | some o =>
    if o.addr ∈ w.tab then some (w, .element (.shared (w.tab.idxOf o.addr + 1)) coefficients)
    else
      match w.proc.base.saveBasis (w.tab ++ [o.addr]) o.basis with
      | none => none
      | some (tab, ts) => some (w.register retain tab, .element (.module (w.tab.length + 1) ts o.ring) coefficients)

end Writer

/-- An archive that is being read, and the process that reads it: the shared pointers that have been registered with their numbers.  (The code has
one table for numbers and modules; they have different numbers.) -/
structure Reader (P : Type) where
  proc : MState P
  numbers : List (ℕ × Ptr)
  modules : List (ℕ × Ptr)

/-- What the caller gets. -/
inductive Answer (R : Type)
  | number (p : Ptr)
  | element (m : Ptr) (coefficients : List R)
  | throws (e : Exc)
  /-- A number that is not in the table: `cereal` throws. -/
  | unknown

namespace Reader
variable {P R : Type} [DecidableEq P]

/-- `archive(number)` and `archive(element)` for an archive that is read, `exact-real/cereal.hpp:197-210,269-281,298-319`.  The caller gets a shared
pointer to what has been read. -/
def read (alloc : Alloc) (malloc : MAlloc P) (r : Reader P) : Item P R → Reader P × Answer R
  | .number t =>
    match r.proc.base.load alloc r.numbers t with
    | (s, tab, some p) => ({ r with proc := { r.proc with base := { s with roots := p :: s.roots } }, numbers := tab }, .number p)
    | (s, tab, none) => ({ r with proc := { r.proc with base := s }, numbers := tab }, .unknown)
  | .element (.shared id) cs =>
    match r.modules.lookup id with
    | some m => ({ r with proc := { r.proc with mroots := m :: r.proc.mroots } }, .element m cs)
    | none => (r, .unknown)
  | .element (.module id ts ring) cs =>
    match r.proc.base.loadBasis alloc r.numbers ts with
    | (s, tab, some basis) =>
      match ({ r.proc with base := s } : MState P).make malloc ring basis with
      | (st, .ok m) => ({ proc := st, numbers := tab, modules := (id, m) :: r.modules }, .element m cs)
      | (st, .throws e) => ({ proc := st, numbers := tab, modules := r.modules }, .throws e)
      | (st, _) => ({ proc := st, numbers := tab, modules := r.modules }, .unknown)
    | (s, tab, none) => ({ proc := { r.proc with base := s }, numbers := tab, modules := r.modules }, .unknown)

end Reader

end ExactReal.Heap
