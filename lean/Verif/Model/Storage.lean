import Verif.Model.Element

/-!
# Storage of numbers, balls and elements

`Arf`, `Arb` and `Element` own memory: a large mantissa, or the implementation of an element.  This file models which block of memory is owned by
which C++ object while objects are constructed, copied, moved, assigned, swapped and destroyed.

Undefined behaviour (reading a block that has been freed, freeing it twice, using an object that does not exist) is `none`.
-/

namespace ExactReal.Storage

/-- What an object consists of: a value stored in the object itself (a mantissa of at most two limbs), a pointer to a block that it owns, or a null
pointer. -/
inductive Slot (V : Type)
  | inline (v : V)
  | owner (p : ℕ)
  | null
  deriving DecidableEq

/-- The objects of a process, by name, and the blocks of memory that are allocated, by address. -/
structure Mem (V : Type) where
  objs : ℕ → Option (Slot V)
  blocks : ℕ → Option V

variable {V : Type}

namespace Mem

/-- The memory before anything is constructed. -/
def start : Mem V := ⟨fun _ => none, fun _ => none⟩

/-- Overwrites the bytes of an object; nothing is freed. -/
def setObj (m : Mem V) (o : ℕ) (s : Slot V) : Mem V := { m with objs := Function.update m.objs o (some s) }

/-- Writes to, or allocates, a block. -/
def setBlock (m : Mem V) (p : ℕ) (v : V) : Mem V := { m with blocks := Function.update m.blocks p (some v) }

/-- `free`: the block must be allocated. -/
def free (m : Mem V) (p : ℕ) : Option (Mem V) :=
  if (m.blocks p).isSome then some { m with blocks := Function.update m.blocks p none } else none

/-- The object ceases to exist; nothing is freed. -/
def remove (m : Mem V) (o : ℕ) : Mem V := { m with objs := Function.update m.objs o none }

/-- The value of an object. -/
def read (m : Mem V) (o : ℕ) : Option V :=
  match m.objs o with
  | some (.inline v) => some v
  | some (.owner p) => m.blocks p
  | _ => none

/-! ### Floating point numbers and balls -/

/-- `arf_init`, `arb_init`: the bytes of the object become those of zero. -/
def init (zero : V) (m : Mem V) (o : ℕ) : Mem V := m.setObj o (.inline zero)

/-- `arf_clear`, `arb_clear`: frees the block of the object if it has one. -/
def clear (m : Mem V) (o : ℕ) : Option (Mem V) :=
  match m.objs o with
  | some (.inline _) => some m
  | some (.owner p) => m.free p
  | _ => none

/-- Storing a result in an object, the last step of `arf_set`, `arf_set_si`, `arb_add`, ….  A `small` value is stored in the object and a block it
had is freed; any other value goes into the block of the object, or into a new block at the address `fresh`.  Simplification: the midpoint, the
radius and the exponents of a ball are one value. -/
def store (small : V → Bool) (fresh : ℕ) (m : Mem V) (o : ℕ) (v : V) : Option (Mem V) :=
  match m.objs o with
  | some (.inline _) => if small v then some (m.setObj o (.inline v)) else some ((m.setBlock fresh v).setObj o (.owner fresh))
  | some (.owner p) =>
    if small v then do let m ← m.free p; some (m.setObj o (.inline v))
    else if (m.blocks p).isSome then some (m.setBlock p v) else none
  | _ => none

/-- `arf_swap`, `arb_swap`: exchanges the bytes of two objects. -/
def swap (m : Mem V) (a b : ℕ) : Option (Mem V) :=
  match m.objs a, m.objs b with
  | some x, some y => some ((m.setObj a y).setObj b x)
  | _, _ => none

end Mem

/-- What a program can do with objects of the classes `Arf` and `Arb`. -/
inductive NumEvent (V : Type)
  /-- `Arf x;` -/
  | construct (d : ℕ)
  /-- `Arf x(value);` -/
  | constructFrom (d : ℕ) (v : V)
  /-- `Arf x(y);` -/
  | copyConstruct (d s : ℕ)
  /-- `Arf x(std::move(y));` -/
  | moveConstruct (d s : ℕ)
  /-- `x = y;` -/
  | copyAssign (d s : ℕ)
  /-- `x = std::move(y);` -/
  | moveAssign (d s : ℕ)
  /-- `x = value;` -/
  | assign (d : ℕ) (v : V)
  /-- `swap(x, y);` -/
  | swap (a b : ℕ)
  /-- `x = (a op b)(prec, round);`, `x <<= n`, … -/
  | operate (d a b : ℕ) (f : V → V → V)
  /-- The end of the lifetime of `x`. -/
  | destroy (d : ℕ)

/-- The two classes differ in the move constructor. -/
inductive NumClass
  | arf
  | arb

/-- One event; `fresh` is the address that `malloc` returns if it is called. `src/arf.cc:60-126`, `src/arb.cc:61-110,284-315,329-331`; the operation is the
evaluation of a `yap` expression into its target (`exact-real/yap/arf.hpp`, `exact-real/yap/arb.hpp`), where the functions of FLINT accept that
operands and target are the same object. -/
def numStep (cls : NumClass) (small : V → Bool) (zero : V) (fresh : ℕ) (m : Mem V) : NumEvent V → Option (Mem V)
  | .construct d => some (m.init zero d)
  | .constructFrom d v => (m.init zero d).store small fresh d v
  | .copyConstruct d s => do
    let m := m.init zero d
    let v ← m.read s
    m.store small fresh d v
  | .moveConstruct d s =>
    match cls with
    | .arf => (m.init zero d).swap d s
    | .arb => match m.objs s with
      | some x => some ((m.setObj d x).init zero s)
      | none => none
  | .copyAssign d s =>
    if d = s then some m
    else do
      let v ← m.read s
      m.store small fresh d v
  | .moveAssign d s => m.swap d s
  | .assign d v => m.store small fresh d v
  | .swap a b => m.swap a b
  | .operate d a b f => do
    let x ← m.read a
    let y ← m.read b
    m.store small fresh d (f x y)
  | .destroy d => do
    let m ← m.clear d
    some (m.remove d)

/-! ### Elements -/

variable {P : Type} [DecidableEq P] {R : Type} [CommRing R] [DecidableEq R] [CRing P R]

/-- The loop of `operator+=`, `src/element.cc:214-217`, for implementations at `p` and `q`, which can be the same: `n` coefficients from the `i`-th on
are read and written one after the other. -/
def addLoop (p q : ℕ) : (n i : ℕ) → Mem (Elt P R) → Option (Mem (Elt P R))
  | 0, _, m => some m
  | n + 1, i, m => do
    let x ← m.blocks p
    let y ← m.blocks q
    let a ← x.coeffs[i]?
    let b ← y.coeffs[i]?
    addLoop p q n (i + 1) (m.setBlock p ⟨x.mod, x.coeffs.set i (a + b)⟩)

/-- What a program can do with objects of the class `Element`. -/
inductive EltEvent (P R : Type)
  | construct (d : ℕ) (v : Elt P R)
  | copyConstruct (d s : ℕ)
  | moveConstruct (d s : ℕ)
  | copyAssign (d s : ℕ)
  | moveAssign (d s : ℕ)
  /-- `std::swap(x, y)`; `tmp` names the temporary object. -/
  | swap (a b tmp : ℕ)
  /-- `x += y;` -/
  | add (d s : ℕ)
  /-- Any other operation that replaces the module and the coefficients of `x`, such as `x *= y`, after it has computed them from `x` and `y`. -/
  | operate (d s : ℕ) (f : Elt P R → Elt P R → Elt P R)
  | destroy (d : ℕ)

namespace Mem
variable (m : Mem V)

/-- The destructor of a smart pointer: `delete` of what it points to. -/
def delete (m : Mem V) (o : ℕ) : Option (Mem V) :=
  match m.objs o with
  | some (.owner p) => m.free p
  | some .null => some m
  | _ => none

/-- `Element(const Element&)` is the copy constructor of `spimpl::impl_ptr` (`exact-real/element.hpp:687`), which copies what it points to.  Simplification:
copying a null pointer is undefined. -/
def eltCopyConstruct (fresh : ℕ) (m : Mem V) (d s : ℕ) : Option (Mem V) :=
  match m.objs s with
  | some (.owner p) => do
    let v ← m.blocks p
    some ((m.setBlock fresh v).setObj d (.owner fresh))
  | _ => none

/-- `Element(Element&&)`: the pointer moves and the source becomes null. -/
def eltMoveConstruct (m : Mem V) (d s : ℕ) : Option (Mem V) :=
  match m.objs s with
  | some x => some ((m.setObj s .null).setObj d x)
  | none => none

/-- `operator=(Element&&)`: the pointer moves, the source becomes null, what the target pointed to is deleted. -/
def eltMoveAssign (m : Mem V) (d s : ℕ) : Option (Mem V) :=
  if d = s then some m
  else match m.objs s with
    | some x => do
      let m ← m.delete d
      some ((m.setObj s .null).setObj d x)
    | none => none

/-- `operator=(const Element&)`: a copy of what the source points to is moved into the target. -/
def eltCopyAssign (fresh : ℕ) (m : Mem V) (d s : ℕ) : Option (Mem V) :=
  if d = s then some m
  else match m.objs s with
    | some (.owner p) => do
      let v ← m.blocks p
      let m ← (m.setBlock fresh v).delete d
      some (m.setObj d (.owner fresh))
    | _ => none

end Mem

/-- One event; `fresh` is the address that `new` returns if it is called. `exact-real/element.hpp:687` (the special member functions of `Element` are those
of its only member), `src/element.cc:60-85,208-221`. -/
def eltStep [Build] (fresh : ℕ) (m : Mem (Elt P R)) : EltEvent P R → Option (Mem (Elt P R))
  | .construct d v => some ((m.setBlock fresh v).setObj d (.owner fresh))
  | .copyConstruct d s => m.eltCopyConstruct fresh d s
  | .moveConstruct d s => m.eltMoveConstruct d s
  | .copyAssign d s => m.eltCopyAssign fresh d s
  | .moveAssign d s => m.eltMoveAssign d s
  | .swap a b tmp => do
    let m ← m.eltMoveConstruct tmp a
    let m ← m.eltMoveAssign a b
    let m ← m.eltMoveAssign b tmp
    let m ← m.delete tmp
    some (m.remove tmp)
  | .add d s =>
    match m.objs d, m.objs s with
    | some (.owner p), some (.owner q) => do
      let x ← m.blocks p
      let y ← m.blocks q
      if x.mod = y.mod then addLoop p q x.mod.basis.length 0 m
      else some (m.setBlock p (x.addAssign y).self)
    | _, _ => none
  | .operate d s f =>
    match m.objs d, m.objs s with
    | some (.owner p), some (.owner q) => do
      let x ← m.blocks p
      let y ← m.blocks q
      some (m.setBlock p (f x y))
    | _, _ => none
  | .destroy d => do
    let m ← m.delete d
    some (m.remove d)

end ExactReal.Storage
