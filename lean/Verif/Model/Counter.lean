import Mathlib.Data.List.Nodup

/-!
# The global counters for identities and seeds

Identities come from a `std::atomic<size_t>` (`src/real_number_base.cc:26-28`), seeds from a plain `unsigned int` (`src/seed.cc:24-26`).  This
file models both under arbitrary interleavings of threads.
-/

namespace ExactReal.Counter

/-- The identities: the counter and the identities that have been handed out, latest first, with the thread that got them. -/
structure Ids where
  next : UInt64
  given : List (ℕ × UInt64)

/-- `src/real_number_base.cc:26` -/
def Ids.init : Ids := ⟨2147483659, []⟩

/-- The constructor of a real number in a thread, `src/real_number_base.cc:28`: `next++` is one atomic operation that returns the old value. -/
def Ids.create (s : Ids) (thread : ℕ) : Ids := ⟨s.next + 1, (thread, s.next) :: s.given⟩

/-- All threads together; the list says which thread creates the next number. -/
def Ids.run (schedule : List ℕ) : Ids := schedule.foldl Ids.create Ids.init

/-- The seeds: the counter, what the threads have read but not yet written back, and the seeds that have been handed out, latest first. -/
structure Seeds where
  nextSeed : UInt32
  loaded : ℕ → Option UInt32
  given : List (ℕ × UInt32)

/-- `src/seed.cc:24` -/
def Seeds.init : Seeds := ⟨1337, fun _ => none, []⟩

/-- The two memory accesses of `nextSeed++`, and the constructor with an explicit seed. -/
inductive SeedStep
  /-- Read `nextSeed`. -/
  | load (thread : ℕ)
  /-- Write `nextSeed`; `Seed()` returns the value that has been read. -/
  | store (thread : ℕ)
  /-- `Seed(seed)`, `src/seed.cc:28` -/
  | explicit (seed : UInt32)

/-- `Seed::Seed()`, `src/seed.cc:26`: `nextSeed++` is not atomic. (In C++ a data race is undefined behaviour; this is the most benign reading of
it.) -/
def Seeds.step (s : Seeds) : SeedStep → Option Seeds
  | .load t => match s.loaded t with
    | none => some { s with loaded := fun u => if u = t then some s.nextSeed else s.loaded u }
    | some _ => none
  | .store t => match s.loaded t with
    | some v => some ⟨v + 1, fun u => if u = t then none else s.loaded u, (t, v) :: s.given⟩
    | none => none
  | .explicit _ => some s

/-- A sequence of steps of all threads. -/
def Seeds.run (s : Seeds) : List SeedStep → Option Seeds
  | [] => some s
  | e :: es => match s.step e with
    | some s => s.run es
    | none => none

/-- What a program with one thread does. -/
inductive SeedCall
  /-- `Seed()` -/
  | default
  /-- `Seed(seed)` -/
  | explicit (seed : UInt32)

/-- The steps of a call. -/
def SeedCall.steps : SeedCall → List SeedStep
  | default => [.load 0, .store 0]
  | explicit seed => [.explicit seed]

end ExactReal.Counter
