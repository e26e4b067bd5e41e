import Verif.Model.Random

/-!
# Objects, factories and identities

The model of the exact layer (`Verif/Model/RealNumber.lean`) identifies real numbers with the data that determines them.  This file models
how the code gets there: objects live at memory addresses, are reference counted and destroyed, addresses are reused, each object gets an
identity from a global counter, and factories with weak references return an existing object when there is one.

`UniqueFactory` (the submodule `src/external/unique-factory` is not part of the repository) is modelled by its contract: `get` returns the
object of an entry with an equal key if that object is still alive and otherwise creates an object and enters it.  Entries are removed only
after their object has been destroyed.

A history is a sequence of events, see `step`.  An object *may* be destroyed as soon as there is no strong reference to it; the C++ program
destroys it immediately, which is one of the histories considered.
-/

namespace ExactReal.Heap

/-- A memory address. -/
abbrev Addr := ℕ

/-- A (strong or weak) smart pointer.  It names a control block, not an address: when the object has been destroyed, a weak pointer to it is
expired even if something else lives at the address.  Control blocks are numbered in the order of creation of the objects. -/
abbrev Ptr := ℕ

/-- The members of the four classes of real numbers: `src/rational_real_number.cc:78`, `src/random_real_number.cc:114`,
`src/constrained_random_real_number.cc:130-133`, `src/real_number_product.cc:58-59` (the vectors `monomials` and `exponents` as a list of
pairs; `int` exponents are unbounded here, see `Verif/Model/Overflow.lean`). -/
inductive Data
  | rational (value : ℚ)
  | random (seed : UInt32)
  | constrained (initial : ℚ) (e : ℤ) (inner : Ptr)
  | product (factors : List (Ptr × ℕ)) (hash : UInt64)
  deriving DecidableEq

/-- An object with its address and its `uniqueId` (`src/impl/real_number_base.hpp:48`). -/
structure Obj where
  addr : Addr
  id : ℕ
  data : Data

/-- The keys stored in the four factories (the constructor tells which): `src/rational_real_number.cc:85-88`,
`src/random_real_number.cc:53-56`, `src/constrained_random_real_number.cc:58-66`, `src/real_number_product.cc:71-107`. The key of a
constrained number holds a strong reference to `inner`; the key of a product holds ids. -/
inductive Key
  | rational (value : ℚ)
  | random (seed : UInt32)
  | constrained (initial : ℚ) (e : ℤ) (inner : Ptr)
  | product (m : Mono) (hash : UInt64)
  deriving DecidableEq

/-- The global state of the process. `roots` are the strong references held outside of the objects and factories: by the user, by modules
and by `KeepSetAlive`. -/
structure State where
  next : ℕ
  count : ℕ
  heap : List (Ptr × Obj)
  roots : List Ptr
  cache : List (Key × Ptr)

/-- The initial state, `src/real_number_base.cc:26`. (The static initializers at `src/real_number.cc:236-240` are ordinary events.) -/
def init : State := ⟨2147483659, 0, [], [], []⟩

/-- The memory allocator: the address of the next object. -/
abbrev Alloc := State → Addr

namespace State

/-- The object that a pointer points to, `none` if it has expired. -/
def live (s : State) (p : Ptr) : Option Obj := s.heap.lookup p

/-- The address stored in a pointer. -/
def addrOf (s : State) (p : Ptr) : Option Addr := (s.live p).map Obj.addr

/-- `RealNumberBase::id`, `src/real_number_base.cc:30`. -/
def idOf (s : State) (p : Ptr) : ℕ := match s.live p with | some o => o.id | none => 0

/-- Creation of an object: the constructor takes the next id (`src/real_number_base.cc:28`; `size_t` is 64 bits wide and wraps), the
factory remembers it and hands out a strong reference. -/
def create (s : State) (alloc : Alloc) (k : Key) (d : Data) : State × Ptr :=
  ({ next := s.next + 1
     count := s.count + 1
     heap := (s.count, ⟨alloc s, s.next % 2 ^ 64, d⟩) :: s.heap
     roots := s.count :: s.roots
     cache := (k, s.count) :: s.cache }, s.count)

/-- `UniqueFactory::get`: `isKey` compares with the keys in the cache, `k` is the key that is stored for the new object `d`. -/
def get (s : State) (alloc : Alloc) (isKey : Key → Bool) (k : Key) (d : Data) : State × Ptr :=
  match s.cache.find? fun e => isKey e.1 && (s.live e.2).isSome with
  | some e => ({ s with roots := e.2 :: s.roots }, e.2)
  | none => s.create alloc k d

/-- `RealNumber::rational`, `src/rational_real_number.cc:84-91`.  (Simplification: `mpq_class` values are assumed to be canonical.) -/
def rational (s : State) (alloc : Alloc) (q : ℚ) : State × Ptr :=
  s.get alloc (fun k => match k with | .rational r => r = q | _ => false) (.rational q) (.rational q)

/-- `RealNumber::random(seed)`, `src/random_real_number.cc:131-133`. -/
def random (s : State) (alloc : Alloc) (seed : UInt32) : State × Ptr :=
  s.get alloc (fun k => match k with | .random t => t = seed | _ => false) (.random seed) (.random seed)

/-- The call of the factory in `src/constrained_random_real_number.cc:194-196`: tuples are compared componentwise, shared pointers by their
address. -/
def constrained (s : State) (alloc : Alloc) (initial : ℚ) (e : ℤ) (inner : Ptr) : State × Ptr :=
  s.get alloc
    (fun k => match k with | .constrained i f n => i = initial && f = e && s.addrOf n = s.addrOf inner | _ => false)
    (.constrained initial e inner) (.constrained initial e inner)

/-- `RealNumber::random(lower, upper, seed)`, `src/constrained_random_real_number.cc:143-198`; the computation of `initial` and `e` is
`ExactReal.randomIn`.  The local variable `inner` is destroyed on return. -/
def randomIn (gen : Generators) (s : State) (alloc : Alloc) (lower upper : ℚ) (seed : UInt32) : State × Out Ptr :=
  match ExactReal.randomIn gen lower upper seed with
  | .ok (.random _) => let (s, p) := s.random alloc seed; (s, .ok p)
  | .ok (.constrained m e _) =>
    let (s, inner) := s.random alloc seed
    let (s, p) := s.constrained alloc (Arf.ofMantissaExponent m e) e inner
    ({ s with roots := s.roots.erase inner }, .ok p)
  | .throws e => (s, .throws e)
  | .abort => (s, .abort)
  | .ub => (s, .ub)
  | .pending => (s, .pending)

/-- The monomials and exponents of a factor, `src/real_number_product.cc:229-256,362-387`. -/
def factorsOf (s : State) (p : Ptr) : List (Ptr × ℕ) :=
  match s.live p with
  | some ⟨_, _, .product f _⟩ => f
  | _ => [(p, 1)]

/-- Ids and exponents. -/
def toMono (s : State) (f : List (Ptr × ℕ)) : Mono := f.map fun x => (s.idOf x.1, x.2)

/-- The hash of a factor, `src/real_number_product.cc:121-127`. -/
def hashOf (s : State) (p : Ptr) : UInt64 :=
  match s.live p with
  | some ⟨_, _, .product _ h⟩ => h
  | _ => UInt64.ofNat (s.idOf p)

/-- The merge loop of `Key::persist` on pointers, `src/real_number_product.cc:274-330`. -/
def merge (s : State) : List (Ptr × ℕ) → List (Ptr × ℕ) → List (Ptr × ℕ)
  | [], rhs => rhs
  | lhs, [] => lhs
  | (i, a) :: lhs, (j, b) :: rhs =>
    if s.idOf i < s.idOf j then (i, a) :: merge s lhs ((j, b) :: rhs)
    else if s.idOf i = s.idOf j then (i, a + b) :: merge s lhs rhs
    else (j, b) :: merge s ((i, a) :: lhs) rhs
  termination_by lhs rhs => lhs.length + rhs.length

/-- `Key::persist`, `src/real_number_product.cc:270-390`: the monomials, exponents and hash of the new object.  The factors are the same
object iff their addresses are equal (line 339). -/
def persist (s : State) (p q : Ptr) : List (Ptr × ℕ) × UInt64 :=
  if s.addrOf p = s.addrOf q then
    match s.live p with
    | some ⟨_, _, .product f h⟩ => (f.map fun x => (x.1, x.2 * 2), h * h)
    | _ => ([(p, 2)], UInt64.ofNat (s.idOf p) * UInt64.ofNat (s.idOf p))
  else (s.merge (s.factorsOf p) (s.factorsOf q), s.hashOf p * s.hashOf q)

/-- The call of the factory in `RealNumber::operator*`, `src/real_number_product.cc:599-601`: the lookup compares the pair of factors with the
stored keys (`src/real_number_product.cc:119-130,149-264`).  (Keys in the same bucket of the hash table might be compared although their hashes
are different; the model only compares keys with the same hash.) -/
def mulFactory (s : State) (alloc : Alloc) (p q : Ptr) : State × Ptr :=
  let (f, h) := s.persist p q
  s.get alloc
    (fun k => match k with
      | .product m h' => h' = s.hashOf p * s.hashOf q && Mono.keyEq (s.toMono (s.factorsOf p)) (s.toMono (s.factorsOf q)) m
      | _ => false)
    (.product (s.toMono f) h) (.product f h)

/-- `RationalRealNumber::operator*`, `src/rational_real_number.cc:57-65`. -/
def ratMul (s : State) (alloc : Alloc) (value : ℚ) (q : Ptr) : State × Out Ptr :=
  if value = 1 then ({ s with roots := q :: s.roots }, .ok q)
  else match s.live q with
    | some ⟨_, _, .rational r⟩ => let (s, p) := s.rational alloc (value * r); (s, .ok p)
    | _ => (s, .throws .logicError)

/-- `RealNumber::operator*`, `src/real_number_product.cc:594-602` and `src/rational_real_number.cc:57-65`. -/
def mul (s : State) (alloc : Alloc) (p q : Ptr) : State × Out Ptr :=
  match s.live p with
  | some ⟨_, _, .rational x⟩ => s.ratMul alloc x q
  | _ => match s.live q with
    | some ⟨_, _, .rational y⟩ => s.ratMul alloc y p
    | _ => let (s, r) := s.mulFactory alloc p q; (s, .ok r)

/-- The loop of `RealNumberProduct::operator/`, `src/real_number_product.cc:453-486`, on pointers. -/
def divLoop (s : State) : List (Ptr × ℕ) → List (Ptr × ℕ) → Option (List (Ptr × ℕ))
  | lhs, [] => some lhs
  | [], _ :: _ => none
  | (i, a) :: lhs, (j, b) :: rhs =>
    if s.idOf i < s.idOf j then (divLoop s lhs ((j, b) :: rhs)).map ((i, a) :: ·)
    else if s.idOf i > s.idOf j then none
    else if b > a then none
    else (divLoop s lhs rhs).map ((i, a - b) :: ·)
  termination_by lhs rhs => lhs.length + rhs.length

/-- The loop of `RealNumberProduct::operator/` for a divisor that is an atom, `src/real_number_product.cc:488-498`; atoms are compared by
their address. -/
def divAtom (s : State) (j : Ptr) : List (Ptr × ℕ) → Option (List (Ptr × ℕ))
  | [] => none
  | (i, a) :: lhs =>
    if s.addrOf i = s.addrOf j then some ((i, a - 1) :: lhs) else (divAtom s j lhs).map ((i, a) :: ·)

/-- The call of the factory in `src/real_number_product.cc:516,590`. -/
def productFactory (s : State) (alloc : Alloc) (f : List (Ptr × ℕ)) : State × Ptr :=
  let m := s.toMono f
  s.get alloc (fun k => match k with | .product n h => h = m.hash && n = m | _ => false) (.product m m.hash) (.product f m.hash)

/-- The end of `RealNumberProduct::operator/`, `src/real_number_product.cc:500-516`. -/
def rebuild (s : State) (alloc : Alloc) (quotient : List (Ptr × ℕ)) : State × Ptr :=
  match quotient.filter fun x => x.2 ≠ 0 with
  | [] => s.rational alloc 1
  | [(i, 1)] => ({ s with roots := i :: s.roots }, i)
  | f => s.productFactory alloc f

/-- `operator/`: `src/real_number.cc:85-97` and `src/real_number_product.cc:441-517`. -/
def div (s : State) (alloc : Alloc) (p q : Ptr) : State × Out (Option Ptr) :=
  match s.live p with
  | some ⟨_, _, .product f _⟩ =>
    match s.live q with
    | some ⟨_, _, .rational r⟩ => if r = 1 then ({ s with roots := p :: s.roots }, .ok (some p)) else (s, .throws .logicError)
    | some ⟨_, _, .product g _⟩ =>
      match s.divLoop f g with
      | some x => let (s, r) := s.rebuild alloc x; (s, .ok (some r))
      | none => (s, .ok none)
    | _ =>
      match s.divAtom q f with
      | some x => let (s, r) := s.rebuild alloc x; (s, .ok (some r))
      | none => (s, .ok none)
  | _ =>
    if s.addrOf p = s.addrOf q then let (s, r) := s.rational alloc 1; (s, .ok (some r))
    else match s.live q with
      | some ⟨_, _, .rational r⟩ => if r = 1 then ({ s with roots := p :: s.roots }, .ok (some p)) else (s, .throws .logicError)
      | _ => (s, .ok none)

end State

/-- What can happen in a history. -/
inductive Event
  /-- Calls of the API. -/
  | rational (q : ℚ)
  | random (seed : UInt32)
  | randomIn (lower upper : ℚ) (seed : UInt32)
  | mul (p q : Ptr)
  | div (p q : Ptr)
  /-- A `shared_ptr` is copied (by the user, a module, a factory that keeps objects alive). -/
  | copy (p : Ptr)
  /-- A `shared_ptr` is destroyed. -/
  | drop (p : Ptr)
  /-- An object without strong references is destroyed and its memory is free again. -/
  | destroy (p : Ptr)
  /-- A factory removes an entry of an object that has been destroyed. -/
  | forget (k : Key) (p : Ptr)

/-- What the caller sees. -/
inductive Res
  | ptr (p : Ptr)
  | none
  | unit
  | throws (e : Exc)
  | other
  deriving DecidableEq

/-- The result of an operation that returns a pointer. -/
def Res.ofOut : Out Ptr → Res
  | .ok p => .ptr p
  | .throws e => .throws e
  | _ => .other

/-- The result of an operation that returns an optional pointer. -/
def Res.ofOutOption : Out (Option Ptr) → Res
  | .ok (some p) => .ptr p
  | .ok Option.none => .none
  | .throws e => .throws e
  | _ => .other

namespace Data

/-- The strong references held by an object. -/
def refs : Data → List Ptr
  | rational _ => []
  | random _ => []
  | constrained _ _ inner => [inner]
  | product f _ => f.map Prod.fst

end Data

namespace Key

/-- The strong references held by a key in a factory. -/
def refs : Key → List Ptr
  | constrained _ _ inner => [inner]
  | _ => []

end Key

/-- Is there a strong reference to `p`? -/
def State.referenced (s : State) (p : Ptr) : Bool :=
  s.roots.contains p || s.heap.any (fun x => x.2.data.refs.contains p) || s.cache.any (fun e => e.1.refs.contains p)

/-- One event; `none` if it cannot happen: arguments of calls must be held by the caller, only unreferenced objects are destroyed and only
entries of destroyed objects are forgotten. -/
def step (gen : Generators) (alloc : Alloc) (s : State) : Event → Option (State × Res)
  | .rational q => let (s, p) := s.rational alloc q; some (s, .ptr p)
  | .random seed => let (s, p) := s.random alloc seed; some (s, .ptr p)
  | .randomIn l u seed => let (s, r) := s.randomIn gen alloc l u seed; some (s, Res.ofOut r)
  | .mul p q =>
    if s.roots.contains p && s.roots.contains q then let (s, r) := s.mul alloc p q; some (s, Res.ofOut r) else none
  | .div p q =>
    if s.roots.contains p && s.roots.contains q then let (s, r) := s.div alloc p q; some (s, Res.ofOutOption r) else none
  | .copy p => if s.roots.contains p then some ({ s with roots := p :: s.roots }, .unit) else none
  | .drop p => if s.roots.contains p then some ({ s with roots := s.roots.erase p }, .unit) else none
  | .destroy p =>
    if (s.live p).isSome && !s.referenced p then some ({ s with heap := s.heap.filter fun x => x.1 ≠ p }, .unit) else none
  | .forget k p => if (s.live p).isNone then some ({ s with cache := s.cache.erase (k, p) }, .unit) else none

/-- An allocator never returns the address of a live object. -/
def Alloc.Valid (alloc : Alloc) : Prop := ∀ s p o, s.live p = some o → alloc s ≠ o.addr

end ExactReal.Heap
