import Verif.Model.ArfThreads

/-!
# Data races
-/

namespace ExactReal.Spec

/-- The accesses that count as modifications according to the C++ standard. -/
def Standard (k : Kind) : Prop := k ≠ .read

/-- The accesses that count as modifications when `operator[]` of an `unordered_map` is taken to be a read. -/
def Lenient (k : Kind) : Prop := k = .write

/-- A data race: two different threads access the same member of the same number, and at least one of them modifies it. (There is no synchronisation
between any two accesses.) -/
def Race (modifies : Kind → Prop) (tr : List (ℕ × Access)) : Prop :=
  ∃ e ∈ tr, ∃ e' ∈ tr, e.1 ≠ e'.1 ∧ e.2.obj = e'.2.obj ∧ e.2.field = e'.2.field ∧ (modifies e.2.kind ∨ modifies e'.2.kind)

/-- A thread has returned. -/
def Returned {α : Type} (s : Threads α) (t : ℕ) (v : α) : Prop := s.rest t = .ret v

/-- The numbers whose approximations are asked for, directly or not, when a number is asked for an approximation: the number, the factors of a product,
and the random numbers that random numbers in an interval refer to. -/
def Involved {atoms : Atoms} (I : Inner atoms) (x : RN) (y : RN) : Prop :=
  y = x ∨ ∃ i, (x = .atom i ∨ ∃ m, x = .prod m ∧ i ∈ m.map Prod.fst) ∧ (y = .atom i ∨ y = .atom (I.inner i))

/-- The member where the approximation with a certain precision is kept. -/
def fieldOf (prec : ℤ) : Field := if prec = 54 then .arf54 else if prec = 64 then .arf64 else .large

/-- The approximation with a certain precision is in the cache. -/
def IsCached (σ : Caches) (x : RN) (prec : ℤ) : Prop :=
  if prec = 54 then (σ x).arf54 ≠ none
  else if prec = 64 then (σ x).arf64 ≠ none
  else ((σ x).large.lookup prec.toNat) ≠ none

end ExactReal.Spec
