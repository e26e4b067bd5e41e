import Verif.Model.ModuleHeap

/-!
# Reclaiming memory

What a process still needs, and the events that free memory.
-/

namespace ExactReal.Heap

/-- The references that a call gives to the caller: one to the number or module that it returns. -/
def Res.given : Res → List Ptr
  | .ptr p => [p]
  | _ => []

namespace MState
variable {P : Type} [DecidableEq P]

/-- The references that users hold to a number: all but those held by modules. -/
def users (st : MState P) (p : Ptr) : ℕ := st.base.roots.count p - st.held p

/-- The numbers that are still needed: those to which somebody holds a reference (other than the references that modules hold), the generators
of the modules to which somebody holds a reference, and everything that such numbers are made of. -/
inductive Needs (st : MState P) : Ptr → Prop
  | held {p : Ptr} : 0 < st.users p → Needs st p
  | generator {m : Ptr} {o : MObj P} {p : Ptr} : m ∈ st.mroots → st.live m = some o → p ∈ o.basis → Needs st p
  | part {p q : Ptr} {o : Obj} : Needs st q → st.base.live q = some o → p ∈ o.data.refs → Needs st p

/-- The number of objects and of entries in the factories. -/
def memory (st : MState P) : ℕ := st.base.heap.length + st.mods.length + st.base.cache.length + st.mcache.length

end MState

/-- The events that free memory: an object is destroyed or an entry is removed from a factory. -/
def MEvent.Frees {P : Type} (st : MState P) : MEvent P → Prop
  | .base (.destroy _) => True
  | .base (.forget k p) => (k, p) ∈ st.base.cache
  | .destroy _ => True
  | .forget k m => (k, m) ∈ st.mcache
  | _ => False

/-- Memory is freed by one event. -/
def FreesOne {P : Type} [DecidableEq P] (gen : Generators) (st st' : MState P) : Prop :=
  ∃ (alloc : Alloc) (malloc : MAlloc P) (e : MEvent P) (r : Res),
    alloc.Valid ∧ malloc.Valid ∧ e.Frees st ∧ mstep gen alloc malloc st e = some (st', r)

/-- Memory is freed by the given number of events, in some order. -/
inductive FreesN {P : Type} [DecidableEq P] (gen : Generators) (st : MState P) : ℕ → MState P → Prop
  | refl : FreesN gen st 0 st
  | step {n : ℕ} {st₁ st₂ : MState P} : FreesN gen st n st₁ → FreesOne gen st₁ st₂ → FreesN gen st (n + 1) st₂

/-- Nothing more can be freed. -/
def Settled {P : Type} [DecidableEq P] (gen : Generators) (st : MState P) : Prop := ∀ st', ¬ FreesOne gen st st'

end ExactReal.Heap
