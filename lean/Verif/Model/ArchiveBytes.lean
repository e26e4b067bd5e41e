import Verif.Model.ArchiveStream
import Verif.Model.Text

/-!
# Archives as bytes

What `cereal::BinaryOutputArchive` puts into a file for real numbers and elements, and how `cereal::BinaryInputArchive` gets it back from the bytes of
a file, which might end at any point because the program that wrote it was killed or the disk was full.

The format of `cereal` (contract): numbers are written as they are in memory, that is little endian with 4 bytes for `unsigned int`, `int` and 8 bytes
for `long`, `double` and sizes; strings, vectors and maps are preceded by their size; names are not written.  When fewer bytes are left than are to be
read, then `cereal::Exception` is thrown.
-/

namespace ExactReal.Heap
open Text

abbrev Bytes := List UInt8

/-! ### Writing -/

/-- A number with `k` bytes, least significant byte first. -/
def bytesOf : ℕ → ℕ → Bytes
  | 0, _ => []
  | k + 1, n => UInt8.ofNat n :: bytesOf k (n / 256)

/-- A `std::string`. -/
def bytesOfStr (s : Str) : Bytes := bytesOf 8 s.length ++ s.map fun c => UInt8.ofNat c.toNat

/-- `uint32_t id`; the most significant bit says that the object follows, `exact-real/cereal.hpp:262-263,291-292`. -/
def bytesOfId (first : Bool) (id : ℕ) : Bytes := bytesOf 4 (if first then 2 ^ 31 + id else id)

/-- The names of the kinds of numbers, `src/real_number.cc:248-260`. -/
def kindRational : Str := "rational".toList
def kindRandom : Str := "random".toList
def kindConstrained : Str := "constrained".toList
def kindProduct : Str := "product".toList

/-- `std::map::size`. -/
def Trees.size : Trees → ℕ
  | .nil => 0
  | .cons _ _ rest => rest.size + 1

mutual
/-- The bytes of a real number, `exact-real/cereal.hpp:249-267`, `src/real_number.cc:247-263`, `src/rational_real_number.cc:67-69`,
`src/random_real_number.cc:103-105`, `src/constrained_random_real_number.cc:113-117`, `src/real_number_product.cc:562-569`; `approx` are the bits of
the `double` that follows an `Arf`, `exact-real/cereal.hpp:167-174`. -/
def Tree.bytes (approx : ℚ → UInt64) : Tree → Bytes
  | .shared id => bytesOfId false id
  | .rational id q => bytesOfId true id ++ (bytesOfStr kindRational ++ bytesOfStr (saveMpq q))
  | .random id seed => bytesOfId true id ++ (bytesOfStr kindRandom ++ bytesOf 4 seed.toNat)
  | .constrained id i e t => bytesOfId true id ++ (bytesOfStr kindConstrained ++ (bytesOfStr (saveArf (.fin i)) ++ (bytesOf 8 (approx i).toNat ++
      (bytesOf 8 (e % 2 ^ 64).toNat ++ t.bytes approx))))
  | .product id ts => bytesOfId true id ++ (bytesOfStr kindProduct ++ (bytesOf 8 ts.size ++ ts.bytes approx))
/-- The entries of a `std::map`: keys and exponents (`int`). -/
def Trees.bytes (approx : ℚ → UInt64) : Trees → Bytes
  | .nil => []
  | .cons t e rest => t.bytes approx ++ (bytesOf 4 e ++ rest.bytes approx)
end

/-- What has been read from a file so far. -/
inductive Fetched (α : Type)
  | ok (a : α) (rest : Bytes)
  /-- `cereal::Exception` -/
  | cereal
  /-- Another exception. -/
  | throws (e : Exc)
  /-- The file cannot have been written by this library; what happens is not modelled (undefined behaviour for some files). -/
  | malformed

/-- How rings and coefficients are written and read (`exact-real/cereal.hpp:212-246`; number fields and their elements: `e-antic/cereal.hpp`). -/
structure Codec (A : Type) where
  bytes : A → Bytes
  fetch : Bytes → Fetched A

/-- The bytes of a module, `exact-real/cereal.hpp:283-296`. -/
def MTree.bytes {P : Type} (approx : ℚ → UInt64) (ring : Codec P) : MTree P → Bytes
  | .shared id => bytesOfId false id
  | .module id ts r => bytesOfId true id ++ (bytesOf 8 ts.length ++ ((ts.map fun t => t.bytes approx).flatten ++ ring.bytes r))

/-- The bytes of what is written by one call, `exact-real/cereal.hpp:187-195,249-267`. -/
def Item.bytes {P R : Type} (approx : ℚ → UInt64) (ring : Codec P) (coefficient : Codec R) : Item P R → Bytes
  | .number t => t.bytes approx
  | .element m cs => m.bytes approx ring ++ (bytesOf 8 cs.length ++ (cs.map coefficient.bytes).flatten)

/-! ### Reading -/

/-- A function that reads from a file and changes the state of a process. -/
def Fetch (σ α : Type) : Type := σ → Bytes → σ × Fetched α

namespace Fetch
variable {σ α β : Type}

def pure (a : α) : Fetch σ α := fun s b => (s, .ok a b)

/-- Exceptions are propagated. -/
def bind (x : Fetch σ α) (f : α → Fetch σ β) : Fetch σ β := fun s b =>
  match x s b with
  | (s, .ok a b) => f a s b
  | (s, .cereal) => (s, .cereal)
  | (s, .throws e) => (s, .throws e)
  | (s, .malformed) => (s, .malformed)

instance : Monad (Fetch σ) where
  pure := Fetch.pure
  bind := Fetch.bind

/-- A call that does not read anything. -/
def act (f : σ → σ × α) : Fetch σ α := fun s b => ((f s).1, .ok (f s).2 b)

/-- The current state. -/
def get : Fetch σ σ := act fun s => (s, s)

def cereal : Fetch σ α := fun s _ => (s, .cereal)
def throws (e : Exc) : Fetch σ α := fun s _ => (s, .throws e)
def malformed : Fetch σ α := fun s _ => (s, .malformed)

/-- Something that reads but does not change the process. -/
def read (f : Bytes → Fetched α) : Fetch σ α := fun s b => (s, f b)

/-- `BinaryInputArchive::loadBinary`. -/
def take (n : ℕ) : Fetch σ Bytes := read fun b => if n ≤ b.length then .ok (b.take n) (b.drop n) else .cereal

/-- The number with these bytes. -/
def natOf : Bytes → ℕ
  | [] => 0
  | b :: bs => b.toNat + 256 * natOf bs

/-- A number with `k` bytes. -/
def nat (k : ℕ) : Fetch σ ℕ := do
  let b ← take k
  Pure.pure (natOf b)

/-- A `std::string`. (There is enough memory for a string of the size that is claimed.) -/
def str : Fetch σ Str := do
  let n ← nat 8
  let b ← take n
  Pure.pure (b.map fun c => Char.ofNat c.toNat)

/-- A function of this library that has been called with what has been read. -/
def call (x : Out α) : Fetch σ α :=
  match x with
  | .ok a => Pure.pure a
  | .throws e => throws e
  | _ => malformed

/-- `mpq_class` from a string, `exact-real/cereal.hpp:118-122,232-235`. -/
def mpq : Fetch σ ℚ := do
  let s ← str
  let x ← call (loadMpq s)
  if 0 < x.2 ∧ x.1.natAbs.Coprime x.2.natAbs then Pure.pure ((x.1 : ℚ) / x.2) else malformed

/-- `mpz_class` from a string, `exact-real/cereal.hpp:242-245`. -/
def mpz : Fetch σ ℤ := do
  let s ← str
  call (loadMpz s)

/-- `Arf`, `exact-real/cereal.hpp:176-185`: the approximation is ignored. -/
def arf : Fetch σ ℚ := do
  let s ← str
  let _ ← nat 8
  let x ← call (loadArf s)
  match x with
  | .fin q => Pure.pure q
  | _ => malformed

/-- `long`, two's complement. -/
def long : Fetch σ ℤ := do
  let n ← nat 8
  Pure.pure (if n < 2 ^ 63 then (n : ℤ) else (n : ℤ) - 2 ^ 64)

/-- Read `n` things, `std::vector`. -/
def times (x : Fetch σ α) : ℕ → Fetch σ (List α)
  | 0 => Pure.pure []
  | n + 1 => do
    let a ← x
    let as ← times x n
    Pure.pure (a :: as)

end Fetch

/-- Integers, `exact-real/cereal.hpp:237-245`. -/
def Codec.integer : Codec ℤ := ⟨fun z => bytesOfStr (saveMpz z), fun b => (Fetch.mpz () b).2⟩

/-- Rationals, `exact-real/cereal.hpp:227-235`. -/
def Codec.rational : Codec ℚ := ⟨fun q => bytesOfStr (saveMpq q), fun b => (Fetch.mpq () b).2⟩

/-- The rings `IntegerRing` and `RationalField`: nothing is written, `exact-real/cereal.hpp:212-220`. -/
def Codec.unit : Codec Unit := ⟨fun _ => [], fun b => .ok () b⟩

namespace Reader
open Fetch
variable {P R : Type} [DecidableEq P]

/-- A function that makes a number. -/
def onBase {α : Type} (f : State → State × α) : Fetch (Reader P) α :=
  act fun r => ({ r with proc := { r.proc with base := (f r.proc.base).1 } }, (f r.proc.base).2)

/-- `registerSharedPointer`, `exact-real/cereal.hpp:277`. -/
def register (id : ℕ) (p : Ptr) : Fetch (Reader P) Ptr := act fun r => ({ r with numbers := (id, p) :: r.numbers }, p)

/-- `getSharedPointer` for a number, `exact-real/cereal.hpp:279`: `cereal` throws if the number is not known.  A null pointer or a module instead of
a number do not occur in archives written by this library. -/
def known (id : ℕ) : Fetch (Reader P) Ptr := do
  let r ← get
  match r.numbers.lookup id with
  | some p => Pure.pure p
  | none => if id = 0 ∨ (r.modules.lookup id).isSome then malformed else cereal

/-- The entries of a map, `src/real_number_product.cc:572-574`; `number` reads a key, `f` has been read. -/
def fetchEntries (number : Fetch (Reader P) Ptr) : ℕ → List (Ptr × ℕ) → Fetch (Reader P) (List (Ptr × ℕ))
  | 0, f => Pure.pure f
  | k + 1, f => do
    let p ← number
    let e ← nat 4
    if e < 2 ^ 31 then
      let r ← get
      fetchEntries number k (r.proc.base.insertKey f p e)
    else malformed

/-- `archive(number)`: `exact-real/cereal.hpp:269-281`, `src/real_number.cc:270-284`, `src/rational_real_number.cc:71-75`,
`src/random_real_number.cc:107-111`, `src/constrained_random_real_number.cc:119-128`, `src/real_number_product.cc:571-591`.  The first argument bounds the
recursion depth; three levels suffice for archives written by this library. -/
def fetchNumber (alloc : Alloc) : ℕ → Fetch (Reader P) Ptr
  | 0 => malformed
  | n + 1 => do
    let id ← nat 4
    if id < 2 ^ 31 then known id
    else
      let kind ← str
      if kind = kindRational then
        let q ← mpq
        let p ← onBase fun s => s.rational alloc q
        register (id - 2 ^ 31) p
      else if kind = kindRandom then
        let seed ← nat 4
        let p ← onBase fun s => s.random alloc (UInt32.ofNat seed)
        register (id - 2 ^ 31) p
      else if kind = kindConstrained then
        let i ← arf
        let e ← long
        let inner ← fetchNumber alloc n
        let p ← onBase fun s => s.constrained alloc i e inner
        register (id - 2 ^ 31) p
      else if kind = kindProduct then
        let k ← nat 8
        let f ← fetchEntries (fetchNumber alloc n) k []
        let p ← onBase fun s => s.productFactory alloc (s.byId f)
        register (id - 2 ^ 31) p
      else throws .logicError

/-- `archive(module)`, `exact-real/cereal.hpp:298-319`. The second part of the result says whether the module was known. -/
def fetchModule (alloc : Alloc) (malloc : MAlloc P) (n : ℕ) (ring : Codec P) : Fetch (Reader P) (Ptr × Bool) := do
  let id ← nat 4
  if id < 2 ^ 31 then
    let r ← get
    match r.modules.lookup id with
    | some m => Pure.pure (m, true)
    | none => if id = 0 ∨ (r.numbers.lookup id).isSome then malformed else cereal
  else
    let k ← nat 8
    let basis ← times (fetchNumber alloc n) k
    let x ← Fetch.read ring.fetch
    let m ← act fun r => ({ r with proc := (r.proc.make malloc x basis).1 }, (r.proc.make malloc x basis).2)
    match m with
    | .ok m => act fun r => ({ r with modules := (id - 2 ^ 31, m) :: r.modules }, (m, false))
    | .throws e => throws e
    | _ => malformed

/-- What is to be read. -/
inductive Wanted
  | number
  | element

/-- `archive(number)`, and `archive(element)`, `exact-real/cereal.hpp:197-210`.  The caller gets a shared pointer to what has been read. (As in
`Reader.read`, the number of coefficients is not checked here.) -/
def fetch (alloc : Alloc) (malloc : MAlloc P) (n : ℕ) (ring : Codec P) (coefficient : Codec R) : Wanted → Fetch (Reader P) (Answer R)
  | .number => do
    let p ← fetchNumber alloc n
    onBase fun s => ({ s with roots := p :: s.roots }, ())
    Pure.pure (.number p)
  | .element => do
    let m ← fetchModule alloc malloc n ring
    let k ← nat 8
    let cs ← times (Fetch.read coefficient.fetch) k
    if m.2 then
      act fun r => ({ r with proc := { r.proc with mroots := m.1 :: r.proc.mroots } }, ())
    Pure.pure (.element m.1 cs)

end Reader

/-- What the caller asks for when this is to be read. -/
def Item.wanted {P R : Type} : Item P R → Reader.Wanted
  | .number _ => .number
  | .element _ _ => .element

end ExactReal.Heap
