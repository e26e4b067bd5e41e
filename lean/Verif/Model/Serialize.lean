import Verif.Model.Heap
import Mathlib.Data.List.Sort

/-!
# Serialization of real numbers

An archive is modelled by its tree of named values.  Every real number is preceded by a number that `cereal` assigns to its address when it is
first written; if it has been written before, only that number is written (`exact-real/cereal.hpp:249-281`).  Writing and parsing of
numbers as text is not modelled.  `cereal`'s numbers have 31 bits; they are unbounded here.
-/

namespace ExactReal.Heap

mutual
/-- What is written for a real number, `exact-real/cereal.hpp:249-281`, `src/real_number.cc:247-284`. -/
inductive Tree
  /-- A number that has been written before. -/
  | shared (id : ℕ)
  /-- `src/rational_real_number.cc:67-75` -/
  | rational (id : ℕ) (value : ℚ)
  /-- `src/random_real_number.cc:103-111` -/
  | random (id : ℕ) (seed : UInt32)
  /-- `src/constrained_random_real_number.cc:113-128` -/
  | constrained (id : ℕ) (initial : ℚ) (e : ℤ) (inner : Tree)
  /-- `src/real_number_product.cc:562-591`: a `std::map` from numbers to exponents. -/
  | product (id : ℕ) (factors : Trees)
/-- The entries of a `std::map`, in the order in which they are written. -/
inductive Trees
  | nil
  | cons (key : Tree) (exponent : ℕ) (rest : Trees)
end

namespace State

/-- A `std::map` with `std::shared_ptr`s as keys is ordered by address, `src/real_number_product.cc:563-566`. -/
def byAddr (s : State) (f : List (Ptr × ℕ)) : List (Ptr × ℕ) :=
  f.insertionSort fun x y => (s.addrOf x.1).getD 0 ≤ (s.addrOf y.1).getD 0

/-- `std::sort` by id, `src/real_number_product.cc:581-583`. -/
def byId (s : State) (f : List (Ptr × ℕ)) : List (Ptr × ℕ) := f.insertionSort fun x y => s.idOf x.1 ≤ s.idOf y.1

/-- Write the entries of a map one after the other; `write` writes one number. -/
def saveAll (write : List Addr → Ptr → Option (List Addr × Tree)) : List Addr → List (Ptr × ℕ) → Option (List Addr × Trees)
  | tab, [] => some (tab, .nil)
  | tab, (p, e) :: rest =>
    match write tab p with
    | none => none
    | some (tab, t) =>
      match saveAll write tab rest with
      | none => none
      | some (tab, ts) => some (tab, .cons t e ts)

/-- `save` for a `shared_ptr<const RealNumber>`, `exact-real/cereal.hpp:249-267` and `src/real_number.cc:247-263`. `tab` are the addresses
that have been written, the `i`-th has been given the number `i + 1`.  The first argument bounds the recursion depth; three levels suffice
(`Props.save_total`). -/
def save (s : State) : ℕ → List Addr → Ptr → Option (List Addr × Tree)
  | 0, _, _ => none
  | n + 1, tab, p =>
    match s.live p with
    | none => none
    | some o =>
      if o.addr ∈ tab then some (tab, .shared (tab.idxOf o.addr + 1))
      else
        let tab' := tab ++ [o.addr]
        let id := tab'.length
        match o.data with
        | .rational q => some (tab', .rational id q)
        | .random seed => some (tab', .random id seed)
        | .constrained i e inner =>
          match save s n tab' inner with
          | none => none
          | some (tab'', t) => some (tab'', .constrained id i e t)
        | .product f _ =>
          match saveAll (save s n) tab' (s.byAddr f) with
          | none => none
          | some (tab'', ts) => some (tab'', .product id ts)

/-- Insert into a `std::map` unless there is such a key (an address) already. -/
def insertKey (s : State) (f : List (Ptr × ℕ)) (p : Ptr) (e : ℕ) : List (Ptr × ℕ) :=
  if f.any fun x => s.addrOf x.1 = s.addrOf p then f else f ++ [(p, e)]

mutual
/-- `load` for a `shared_ptr<const RealNumber>`, `exact-real/cereal.hpp:269-281` and `src/real_number.cc:270-284`.  `tab` are the numbers that
have been read before.  An unknown number does not occur in an archive written by `save`. -/
def load (alloc : Alloc) (s : State) (tab : List (ℕ × Ptr)) : Tree → State × List (ℕ × Ptr) × Option Ptr
  | .shared id => (s, tab, tab.lookup id)
  | .rational id q => let (s, p) := s.rational alloc q; (s, (id, p) :: tab, some p)
  | .random id seed => let (s, p) := s.random alloc seed; (s, (id, p) :: tab, some p)
  | .constrained id i e t =>
    match load alloc s tab t with
    | (s, tab, some inner) => let (s, p) := s.constrained alloc i e inner; (s, (id, p) :: tab, some p)
    | (s, tab, none) => (s, tab, none)
  | .product id ts =>
    match loadAll alloc s tab [] ts with
    | (s, tab, some f) => let (s, p) := s.productFactory alloc (s.byId f); (s, (id, p) :: tab, some p)
    | (s, tab, none) => (s, tab, none)
/-- Read the entries of a map. -/
def loadAll (alloc : Alloc) (s : State) (tab : List (ℕ × Ptr)) (f : List (Ptr × ℕ)) :
    Trees → State × List (ℕ × Ptr) × Option (List (Ptr × ℕ))
  | .nil => (s, tab, some f)
  | .cons t e rest =>
    match load alloc s tab t with
    | (s, tab, some p) => loadAll alloc s tab (s.insertKey f p e) rest
    | (s, tab, none) => (s, tab, none)
end

end State

end ExactReal.Heap
