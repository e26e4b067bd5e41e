import Verif.Model.Program
import Verif.Spec.Element

/-!
# Specification of client programs

What the calls of a program mean for the real numbers that the variables stand for.
-/

namespace ExactReal

variable {P : Type} [DecidableEq P] {R : Type} [CommRing R] [DecidableEq R] [CRing P R] [LawfulCRing P]

/-- The real numbers that the variables of a client stand for. -/
structure Reals where
  num : ℕ → ℝ
  elt : ℕ → ℝ

namespace Reals
noncomputable def init : Reals := ⟨fun _ => 1, fun _ => 0⟩
noncomputable def setNum (σ : Reals) (d : ℕ) (x : ℝ) : Reals := ⟨Function.update σ.num d x, σ.elt⟩
noncomputable def setElt (σ : Reals) (d : ℕ) (x : ℝ) : Reals := ⟨σ.num, Function.update σ.elt d x⟩
end Reals

/-- What a call that assigns to its variable does to the real numbers: `v` are the values of the random numbers.  The quotient of two numbers or
elements is a number that gives the dividend when multiplied with the divisor (the division throws if the divisor is zero).  Division by the scalar zero
throws unless the element is in a module without generators, i.e. is zero; here, as in Lean, `0 / 0 = 0`. -/
def Cmd.Means (v : ℕ → ℝ) (σ σ' : Reals) : Cmd P R → Prop
  | rational d q => σ' = σ.setNum d q
  | random d i => σ' = σ.setNum d (v i)
  | numMul d a b => σ' = σ.setNum d (σ.num a * σ.num b)
  | numDiv d a b => ∃ r, r * σ.num b = σ.num a ∧ σ' = σ.setNum d r
  | gen d _ _ g => σ' = σ.setElt d (σ.num g)
  | linear d _ terms => σ' = σ.setElt d ((terms.map fun t => Elt.num P t.2 * σ.num t.1).sum)
  | scalar d _ c => σ' = σ.setElt d (Elt.num P c)
  | copy d a => σ' = σ.setElt d (σ.elt a)
  | zero d _ => σ' = σ.setElt d 0
  | one d _ => σ' = σ.setElt d 1
  | neg d a => σ' = σ.setElt d (-σ.elt a)
  | add d a => σ' = σ.setElt d (σ.elt d + σ.elt a)
  | sub d a => σ' = σ.setElt d (σ.elt d - σ.elt a)
  | mul d a => σ' = σ.setElt d (σ.elt d * σ.elt a)
  | mulNum d r => σ' = σ.setElt d (σ.elt d * σ.num r)
  | mulZ d n => σ' = σ.setElt d (σ.elt d * n)
  | mulQ d q => σ' = σ.setElt d (σ.elt d * q)
  | mulR d c => σ' = σ.setElt d (σ.elt d * Elt.num P c)
  | divZ d n => σ' = σ.setElt d (σ.elt d / n)
  | divQ d q => σ' = σ.setElt d (σ.elt d / q)
  | divR d c => σ' = σ.setElt d (σ.elt d / Elt.num P c)
  | promote _ _ => σ' = σ
  | simplify _ => σ' = σ
  | truediv d a b _ => ∃ r, r * σ.elt b = σ.elt a ∧ σ' = σ.setElt d r

/-- What a call that throws does to the real numbers: nothing, except for a multiplication or division by a scalar, which may change the element
it has been called on (finding F7). -/
def Cmd.Failed (σ σ' : Reals) : Cmd P R → Prop
  | mulQ d _ | divZ d _ | divQ d _ | divR d _ => ∃ r, σ' = σ.setElt d r
  | _ => σ' = σ

/-- The real numbers that variables stand for after a run. -/
inductive ProgramComputes (v : ℕ → ℝ) : List (Cmd P R × Out Bool) → Reals → Prop
  | init : ProgramComputes v [] Reals.init
  | assigned {l c σ σ'} (h : ProgramComputes v l σ) (hc : c.Means v σ σ') : ProgramComputes v ((c, .ok true) :: l) σ'
  | skipped {l c σ} (h : ProgramComputes v l σ) : ProgramComputes v ((c, .ok false) :: l) σ
  | failed {l c e σ σ'} (h : ProgramComputes v l σ) (hc : c.Failed σ σ') : ProgramComputes v ((c, .throws e) :: l) σ'

/-- As `ProgramComputes`, but calls that throw change nothing. -/
inductive ProgramComputesStrictly (v : ℕ → ℝ) : List (Cmd P R × Out Bool) → Reals → Prop
  | init : ProgramComputesStrictly v [] Reals.init
  | assigned {l c σ σ'} (h : ProgramComputesStrictly v l σ) (hc : c.Means v σ σ') : ProgramComputesStrictly v ((c, .ok true) :: l) σ'
  | skipped {l c σ} (h : ProgramComputesStrictly v l σ) : ProgramComputesStrictly v ((c, .ok false) :: l) σ
  | failed {l c e σ} (h : ProgramComputesStrictly v l σ) : ProgramComputesStrictly v ((c, .throws e) :: l) σ

/-- The preconditions of calls that the library does not check: the generator asked for is one of those of the module, and coefficients belong to the ring of the module. -/
def Cmd.Pre (s : Vars P R) : Cmd P R → Prop
  | gen _ _ gens g => g ∈ gens
  | linear _ ring terms => ∀ t ∈ terms, t.2 ∈ LawfulCRing.mem ring
  | scalar _ ring c => c ∈ LawfulCRing.mem (CRing.ofValue ring c)
  | mulR d c | divR d c => c ∈ LawfulCRing.mem (s.elt d).mod.par
  | _ => True

/-- A run of a program: the calls made so far with their outcomes (the last one first), and the variables after them.  Calls return or throw;
a program whose call has undefined behaviour or does not return does not get any further.
The client respects the preconditions. -/
inductive Run [Build] : List (Cmd P R × Out Bool) → Vars P R → Prop
  | init : Run [] Vars.init
  | step {l : List (Cmd P R × Out Bool)} {s : Vars P R} (h : Run l s) (c : Cmd P R) (hp : c.Pre s) {s' : Vars P R} {o : Out Bool} (hc : c.exec s = (o, s'))
      (ho : (∃ b, o = .ok b) ∨ ∃ e, o = .throws e) : Run ((c, o) :: l) s'

end ExactReal
