import Verif.Model.ElementHeap
import Verif.Spec.Program
import Verif.Spec.Heap
import Verif.Spec.Approx

/-!
# Specification of programs in a running process

A program of `Verif/Spec/Program.lean` is run by a thread of a process in which other threads do what they want.  The random numbers have arbitrary
values `val`, given for each seed (and for the leading digits of a number in an interval), or the values of their digits (`AtomDesc.value`).
-/

namespace ExactReal.Heap

/-- How the random number is built whose digits `RealNumber::random(lower, upper, seed)` returns. -/
def AtomDesc.of (seed : UInt32) : Atom → AtomDesc
  | .random _ => .random seed
  | .constrained m e _ => .constrained (Arf.ofMantissaExponent m e) e seed

/-- The value of a random number, from the digits of the generator. -/
noncomputable def AtomDesc.value (gen : Generators) : AtomDesc → ℝ
  | .random seed => (gen.digits seed).value
  | .constrained initial e seed => initial + (gen.digits seed).value * 2 ^ (e - 1)

/-- The value of a number. -/
noncomputable def Desc.value (val : AtomDesc → ℝ) : Desc → ℝ
  | .rational q => q
  | .monomial f => f.prod fun a n => val a ^ n

variable {P : Type} [DecidableEq P] {R : Type} [CommRing R] [DecidableEq R] [CRing P R] [LawfulCRing P]

/-- The value of an element: the sum of its coefficients times the values of the generators. -/
noncomputable def HElt.value (val : AtomDesc → ℝ) (st : MState P) (x : HElt R) : ℝ :=
  match st.live x.mod with
  | some o => ((o.basis.zip x.coeffs).map fun t => Elt.num P t.2 * (st.base.desc t.1).value val).sum
  | none => 0

/-- The values of the variables. -/
noncomputable def HVars.value (val : AtomDesc → ℝ) (st : MState P) (s : HVars R) : Reals :=
  ⟨fun d => (st.base.desc (s.num d)).value val, fun d => (s.elt d).value val st⟩

/-- The preconditions that the library does not check, see `Cmd.Pre`.  Coefficients belong to the ring of the module that the element is in. -/
def HCmd.Pre (st : MState P) (s : HVars R) : HCmd P R → Prop
  | call (.gen _ _ gens g) => g ∈ gens
  | call (.linear _ ring terms) => ∀ t ∈ terms, t.2 ∈ LawfulCRing.mem ring
  | call (.scalar _ ring c) => c ∈ LawfulCRing.mem (CRing.ofValue ring c)
  | call (.mulR d c) | call (.divR d c) => ∀ o, st.live (s.elt d).mod = some o → c ∈ LawfulCRing.mem o.ring
  | call (.random _ _) => False
  | _ => True

/-- What a call that assigns to its variable does to the real numbers. -/
def HCmd.Means (gen : Generators) (val : AtomDesc → ℝ) (σ σ' : Reals) : HCmd P R → Prop
  | random d seed => σ' = σ.setNum d (val (.random seed))
  | randomIn d lower upper seed => ∃ a, ExactReal.randomIn gen lower upper seed = .ok a ∧ σ' = σ.setNum d (val (.of seed a))
  | call c => c.Means (fun _ => 0) σ σ'

/-- What a call that throws does to the real numbers. -/
def HCmd.Failed (σ σ' : Reals) : HCmd P R → Prop
  | call c => c.Failed σ σ'
  | _ => σ' = σ

/-- The real numbers that variables stand for after some calls with their outcomes (the last one first). -/
inductive HComputes (gen : Generators) (val : AtomDesc → ℝ) : List (HCmd P R × Out Bool) → Reals → Prop
  | init : HComputes gen val [] Reals.init
  | assigned {l c σ σ'} (h : HComputes gen val l σ) (hc : c.Means gen val σ σ') : HComputes gen val ((c, .ok true) :: l) σ'
  | skipped {l c σ} (h : HComputes gen val l σ) : HComputes gen val ((c, .ok false) :: l) σ
  | failed {l c e σ σ'} (h : HComputes gen val l σ) (hc : c.Failed σ σ') : HComputes gen val ((c, .throws e) :: l) σ'

/-- The world of a thread between two calls: it refers to the objects of its variables. -/
def HVars.world (s : HVars R) (st : MState P) : World P := ⟨st, s.numSet, s.modSet⟩

/-- A run of a program in a process: the calls that the thread has made, its variables, and the process.  The process may have been running before.
Between calls, and between the steps of a call, anything may happen in the process.  Calls return or throw; a program whose call has undefined
behaviour or does not return does not get any further. -/
inductive HRun [Build] (gen : Generators) : List (HCmd P R × Out Bool) → HVars R → MState P → Prop
  | start {st : MState P} {w : World P} {s : HVars R} (h : MReach gen st) (hs : Exec gen ⟨st, ∅, ∅⟩ HVars.start w (.ok s)) : HRun gen [] s w.st
  | wait {l : List (HCmd P R × Out Bool)} {s : HVars R} {st : MState P} {w : World P} (h : HRun gen l s st) (hw : Waits gen (s.world st) w) : HRun gen l s w.st
  | step {l : List (HCmd P R × Out Bool)} {s s' : HVars R} {st : MState P} {w : World P} {c : HCmd P R} {o : Out Bool} (h : HRun gen l s st)
      (hp : c.Pre st s) (hc : Exec gen (s.world st) (c.exec s) w (.ok (o, s'))) (ho : (∃ b, o = .ok b) ∨ ∃ e, o = .throws e) : HRun gen ((c, o) :: l) s' w.st

end ExactReal.Heap
