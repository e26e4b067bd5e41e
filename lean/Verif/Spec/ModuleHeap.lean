import Verif.Model.ModuleHeap

/-!
# What an element stands for, independently of objects and identities
-/

namespace ExactReal.Heap

/-- The linear combination `∑ cᵢ·bᵢ` of the numbers that the generators stand for, as a formal sum. -/
noncomputable def State.combination {R : Type} [AddCommMonoid R] (s : State) (basis : List Ptr) (cs : List R) : Desc →₀ R :=
  (List.zipWith (fun p c => Finsupp.single (s.desc p) c) basis cs).sum

/-- Is this a random number (an atom)? -/
def State.IsAtom (s : State) (p : Ptr) : Prop := ∃ o, s.live p = some o ∧
  ((∃ seed, o.data = .random seed) ∨ ∃ i e n, o.data = .constrained i e n)

/-- The identities of random numbers that are alive in both processes are in the same order. -/
def SameOrder (s₀ s : State) : Prop :=
  ∀ p p' q q', s₀.IsAtom p → s₀.IsAtom p' → s.IsAtom q → s.IsAtom q' → s.desc q = s₀.desc p → s.desc q' = s₀.desc p' →
    s₀.idOf p < s₀.idOf p' → s.idOf q < s.idOf q'

end ExactReal.Heap
