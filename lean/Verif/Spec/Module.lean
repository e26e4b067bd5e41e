import Verif.Model.Module
import Verif.Spec.RealNumber

/-! # Specification vocabulary for modules -/

namespace ExactReal.Mod
variable {P : Type}

/-- Representation invariant of a module: generators are well-formed and strictly increasing in deglex. -/
structure WF (m : Mod P) : Prop where
  gens : ∀ g ∈ m.basis, g.WF
  sorted : m.basis.Pairwise fun g h => Precedes g.mult h.mult

end ExactReal.Mod
