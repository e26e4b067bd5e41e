import Verif.Model.Element

/-!
# Client programs

A client of the library holds real numbers (`std::shared_ptr<const RealNumber>`) and elements (`Element<Ring>`) in variables and calls the
library.  Here is one call per command; exceptions are caught and the program goes on.  Elements have value semantics (`spimpl::impl_ptr` copies
deeply, `exact-real/element.hpp`, `impl`): a command writes to at most one variable.  The operands of a command may be the variable it
writes to, e.g. `x += x`: `operator+=` reads `rhs.coefficients[i]` before it writes `coefficients[i]` (`src/element.cc:215-217`), `operator-=`
negates a copy (`src/element.cc:224`), `operator*=` writes after everything has been read (`src/element.cc:261-262`).

Simplifications: variables of real numbers start as `rational(1)` instead of null pointers; there is one kind of ring per program.
-/

namespace ExactReal

variable {P : Type} [DecidableEq P] {R : Type} [CommRing R] [DecidableEq R] [CRing P R]

/-- The variables of a client. -/
structure Vars (P R : Type) where
  num : ℕ → RN
  elt : ℕ → Elt P R

namespace Vars

/-- Before the first call. -/
def init : Vars P R := ⟨fun _ => .rat 1, fun _ => Elt.default⟩

def setNum (s : Vars P R) (d : ℕ) (x : RN) : Vars P R := ⟨Function.update s.num d x, s.elt⟩
def setElt (s : Vars P R) (d : ℕ) (x : Elt P R) : Vars P R := ⟨s.num, Function.update s.elt d x⟩

/-- `num[d] = …`; nothing is assigned if the right hand side throws. -/
def assignNum (s : Vars P R) (d : ℕ) (x : Out RN) : Out Bool × Vars P R :=
  match x with
  | .ok x => (.ok true, s.setNum d x)
  | e => (e >>= fun _ => .ok false, s)

/-- `if (auto x = …) num[d] = *x` -/
def assignNum? (s : Vars P R) (d : ℕ) (x : Out (Option RN)) : Out Bool × Vars P R :=
  match x with
  | .ok (some x) => (.ok true, s.setNum d x)
  | e => (e >>= fun _ => .ok false, s)

/-- `elt[d] = …`; nothing is assigned if the right hand side throws. -/
def assign (s : Vars P R) (d : ℕ) (x : Out (Elt P R)) : Out Bool × Vars P R :=
  match x with
  | .ok x => (.ok true, s.setElt d x)
  | e => (e >>= fun _ => .ok false, s)

/-- `if (auto x = …) elt[d] = *x` -/
def assign? (s : Vars P R) (d : ℕ) (x : Out (Option (Elt P R))) : Out Bool × Vars P R :=
  match x with
  | .ok (some x) => (.ok true, s.setElt d x)
  | e => (e >>= fun _ => .ok false, s)

/-- An in-place operation on `elt[d]`. -/
def inplace (s : Vars P R) (d : ℕ) (x : Step (Elt P R)) : Out Bool × Vars P R := (x.out >>= fun _ => .ok true, s.setElt d x.self)

end Vars

/-- Calls of a client.  `d` is the variable that is written, other numbers are variables that are read. -/
inductive Cmd (P R : Type)
  /-- `num[d] = RealNumber::rational(q)` -/
  | rational (d : ℕ) (q : ℚ)
  /-- `num[d] = ` the random number with identity `i` -/
  | random (d i : ℕ)
  /-- `num[d] = *num[a] * *num[b]` -/
  | numMul (d a b : ℕ)
  /-- `if (auto q = *num[a] / *num[b]) num[d] = *q` -/
  | numDiv (d a b : ℕ)
  /-- `elt[d] = M->gen(j)` for `M = Module<Ring>::make({num[h] for h in gens}, ring)` where `j` is the position of `num[g]` in `M->basis()` -/
  | gen (d : ℕ) (ring : P) (gens : List ℕ) (g : ℕ)
  /-- `elt[d] = Element(M, cs)` for `M = Module<Ring>::make({num[g] for (g, c) in terms}, ring)` where `cs` has the coefficient `c` for the generator `num[g]` for
  each `(g, c)` of `terms`, in the order of `M->basis()` -/
  | linear (d : ℕ) (ring : P) (terms : List (ℕ × R))
  /-- `elt[d] = Element(c)` where the coefficient `c` carries the ring object `ring` -/
  | scalar (d : ℕ) (ring : P) (c : R)
  /-- `elt[d] = elt[a]` -/
  | copy (d a : ℕ)
  /-- `elt[d] = elt[a].module()->zero()` -/
  | zero (d a : ℕ)
  /-- `elt[d] = elt[a].module()->one()` -/
  | one (d a : ℕ)
  /-- `elt[d] = -elt[a]` -/
  | neg (d a : ℕ)
  /-- `elt[d] += elt[a]` -/
  | add (d a : ℕ)
  /-- `elt[d] -= elt[a]` -/
  | sub (d a : ℕ)
  /-- `elt[d] *= elt[a]` -/
  | mul (d a : ℕ)
  /-- `elt[d] *= *num[r]` -/
  | mulNum (d r : ℕ)
  /-- `elt[d] *= n` for an integer -/
  | mulZ (d : ℕ) (n : ℤ)
  /-- `elt[d] *= q` for an `mpq_class` -/
  | mulQ (d : ℕ) (q : ℚ)
  /-- `elt[d] *= c` for a coefficient -/
  | mulR (d : ℕ) (c : R)
  /-- `elt[d] /= n` for an integer -/
  | divZ (d : ℕ) (n : ℤ)
  /-- `elt[d] /= q` for an `mpq_class` -/
  | divQ (d : ℕ) (q : ℚ)
  /-- `elt[d] /= c` for a coefficient -/
  | divR (d : ℕ) (c : R)
  /-- `if (elt[d].module()->submodule(*elt[a].module())) elt[d].promote(elt[a].module())` -/
  | promote (d a : ℕ)
  /-- `elt[d].simplify()` -/
  | simplify (d : ℕ)
  /-- `if (auto q = elt[a].truediv(elt[b])) elt[d] = *q`, with at most `fuel` iterations of its loop -/
  | truediv (d a b fuel : ℕ)

/-- The effect of a call: its outcome (`ok false` if nothing has been assigned) and the variables afterwards. -/
def Cmd.exec [Build] (s : Vars P R) : Cmd P R → Out Bool × Vars P R
  | rational d q => (.ok true, s.setNum d (.rat q))
  | random d i => (.ok true, s.setNum d (.atom i))
  | numMul d a b => s.assignNum d ((s.num a).mul (s.num b))
  | numDiv d a b => s.assignNum? d ((s.num a).div (s.num b))
  | gen d ring gens g => s.assign d (do let m ← Mod.make ring (gens.map s.num); m.gen (m.basis.idxOf (s.num g)))
  | linear d ring terms => s.assign d (do
      let m ← Mod.make ring (terms.map fun t => s.num t.1)
      Elt.ofCoefficients m (m.basis.map fun g => ((terms.find? fun t => s.num t.1 = g).map Prod.snd).getD 0))
  | scalar d ring c => s.assign d (Elt.ofScalar ring c)
  | copy d a => (.ok true, s.setElt d (s.elt a))
  | zero d a => (.ok true, s.setElt d (s.elt a).mod.zero)
  | one d a => s.assign d (s.elt a).mod.one
  | neg d a => (.ok true, s.setElt d (s.elt a).neg)
  | add d a => s.inplace d ((s.elt d).addAssign (s.elt a))
  | sub d a => s.inplace d ((s.elt d).subAssign (s.elt a))
  | mul d a => s.inplace d ((s.elt d).mulAssign (s.elt a))
  | mulNum d r => s.inplace d ((s.elt d).mulRNAssign (s.num r))
  | mulZ d n => s.inplace d ((s.elt d).imulZ n)
  | mulQ d q => s.inplace d ((s.elt d).imulQ q)
  | mulR d c => s.inplace d ((s.elt d).imulR c)
  | divZ d n => s.inplace d ((s.elt d).idivZ n)
  | divQ d q => s.inplace d ((s.elt d).idivQ q)
  | divR d c => s.inplace d ((s.elt d).idivR c)
  | promote d a =>
    if (s.elt d).mod.submodule (s.elt a).mod then s.assign d ((s.elt d).promote (s.elt a).mod) else (.ok false, s)
  | simplify d => s.assign d (s.elt d).simplify
  | truediv d a b fuel => s.assign? d (Elt.truediv fuel (s.elt a) (s.elt b))

end ExactReal
