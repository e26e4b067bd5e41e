import Verif.Model.Heap
import Mathlib.Data.Finsupp.Basic
import Mathlib.Algebra.BigOperators.Finsupp.Basic

/-!
# What a real number object stands for

`desc s p` is how the number was built, independently of objects, addresses and identities: a rational, or a product of powers of random
numbers, where a random number is given by its seed and (for numbers in an interval) its leading digits.
-/

namespace ExactReal.Heap

/-- A random number, up to identity of objects. -/
inductive AtomDesc
  | random (seed : UInt32)
  | constrained (initial : ℚ) (e : ℤ) (seed : UInt32)
  deriving DecidableEq

/-- A real number, up to identity of objects: a rational number or a product of powers of random numbers. -/
inductive Desc
  | rational (q : ℚ)
  | monomial (f : AtomDesc →₀ ℕ)

namespace Desc

/-- The product of two numbers as far as it is again a rational or a product of random numbers. -/
noncomputable def mul : Desc → Desc → Option Desc
  | rational x, rational y => some (rational (x * y))
  | rational x, monomial g => if x = 1 then some (monomial g) else none
  | monomial f, rational y => if y = 1 then some (monomial f) else none
  | monomial f, monomial g => some (monomial (f + g))

end Desc

namespace State

/-- The seed of a random number. -/
def seedOf (s : State) (p : Ptr) : UInt32 :=
  match s.live p with
  | some ⟨_, _, .random seed⟩ => seed
  | _ => 0

/-- How an atom was built. -/
def atomDesc (s : State) (p : Ptr) : AtomDesc :=
  match s.live p with
  | some ⟨_, _, .random seed⟩ => .random seed
  | some ⟨_, _, .constrained initial e inner⟩ => .constrained initial e (s.seedOf inner)
  | _ => .random 0

/-- How a number was built. -/
noncomputable def desc (s : State) (p : Ptr) : Desc :=
  match s.live p with
  | some ⟨_, _, .rational q⟩ => .rational q
  | some ⟨_, _, .product f _⟩ => .monomial (f.map fun x => Finsupp.single (s.atomDesc x.1) x.2).sum
  | _ => .monomial (Finsupp.single (s.atomDesc p) 1)

/-- The abstract number of `Verif/Model/RealNumber.lean` that an object represents. -/
def rn (s : State) (p : Ptr) : RN :=
  match s.live p with
  | some ⟨_, _, .rational q⟩ => .rat q
  | some ⟨_, _, .product f _⟩ => .prod (s.toMono f)
  | _ => .atom (s.idOf p)

/-- The digits of the atom `p`, as used for its approximations (`Verif/Model/Approx.lean`); the constrained atom with `initial = m·2^e`. -/
def atomAt (gen : Generators) (s : State) (p : Ptr) : Option Atom :=
  match s.live p with
  | some ⟨_, _, .random seed⟩ => some (.random (gen.digits seed))
  | some ⟨_, _, .constrained initial e inner⟩ =>
    some (.constrained (initial / 2 ^ e).num e (gen.digits (s.seedOf inner)))
  | _ => none

end State

end ExactReal.Heap
