import Verif.Spec.Program
import Verif.Model.ElementApprox

/-!
# Which random numbers occur where

The random numbers from which the contents of variables of a client program have been computed: a call makes what it assigns depend on its operands, and
on nothing else.
-/

namespace ExactReal

/-- The random numbers that occur in a real number. -/
def RN.involved (x : RN) : Set ℕ := {i | x.mult i ≠ 0}

/-- The random numbers that occur in the generators of an element (also in generators whose coefficient is zero). -/
def Elt.involved {P R : Type} (x : Elt P R) : Set ℕ := {i | ∃ g ∈ x.mod.basis, i ∈ g.involved}

/-- Sets of random numbers, for each variable of a client. -/
structure Sources where
  num : ℕ → Set ℕ
  elt : ℕ → Set ℕ

namespace Sources
/-- In the beginning. -/
def init : Sources := ⟨fun _ => ∅, fun _ => ∅⟩
def setNum (τ : Sources) (d : ℕ) (s : Set ℕ) : Sources := ⟨Function.update τ.num d s, τ.elt⟩
def setElt (τ : Sources) (d : ℕ) (s : Set ℕ) : Sources := ⟨τ.num, Function.update τ.elt d s⟩
end Sources

variable {P : Type} [DecidableEq P] {R : Type} [CommRing R] [DecidableEq R] [CRing P R]

/-- What a call that assigns makes its variable depend on: the operands, for an operation in place together with the old content. -/
def Cmd.flow (τ : Sources) : Cmd P R → Sources
  | rational d _ => τ.setNum d ∅
  | random d i => τ.setNum d {i}
  | numMul d a b => τ.setNum d (τ.num a ∪ τ.num b)
  | numDiv d a _ => τ.setNum d (τ.num a)
  | gen d _ gens _ => τ.setElt d {i | ∃ g ∈ gens, i ∈ τ.num g}
  | linear d _ terms => τ.setElt d {i | ∃ t ∈ terms, i ∈ τ.num t.1}
  | scalar d _ _ => τ.setElt d ∅
  | copy d a | zero d a | one d a | neg d a | promote d a => τ.setElt d (τ.elt a)
  | add d a | sub d a | mul d a => τ.setElt d (τ.elt d ∪ τ.elt a)
  | mulNum d r => τ.setElt d (τ.elt d ∪ τ.num r)
  | mulZ _ _ | mulQ _ _ | mulR _ _ | divZ _ _ | divQ _ _ | divR _ _ | simplify _ => τ
  | truediv d a b _ => τ.setElt d (τ.elt a ∪ τ.elt b)

/-- What the variables depend on after a run of a program (the last call comes first): calls that do not assign change nothing. -/
def flow : List (Cmd P R × Out Bool) → Sources
  | [] => Sources.init
  | (c, .ok true) :: l => c.flow (flow l)
  | _ :: l => flow l

/-- The same random numbers (the same random digits, i.e., the same seeds), as far as those in a set are concerned. -/
def Atoms.AgreeOn (S : Set ℕ) (atoms atoms' : Atoms) : Prop := ∀ i ∈ S, atoms i = atoms' i

end ExactReal
