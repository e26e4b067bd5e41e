import Verif.Model.Ring
import Mathlib.Data.List.Sort

/-!
# Modules

A `Module<Ring>` is a unique object determined by its ring and its list of generators (`src/module.cc:68-97,114-120`), so pointer equality of
modules is modelled by structural equality.
-/

namespace ExactReal

/-- `Module<Ring>::Implementation`, `src/module.cc:41-66`. -/
structure Mod (P : Type) where
  par : P
  basis : List RN
  deriving DecidableEq

namespace Mod
variable {P : Type}

/-- The checks in the constructor for a pair of generators, `src/module.cc:50-55`. -/
def compatible (x y : RN) : Bool := !(x.isRat && y.isRat) && !(x = y)

/-- The double loop of the constructor, `src/module.cc:47-58`: do all pairs pass? -/
def check : List RN → Bool
  | [] => true
  | x :: xs => xs.all (compatible x) && check xs

/-- `std::sort` by `deglex`, `src/module.cc:116`.  `std::sort` is not specified to be stable; `Props.make_any_sort` shows that every
sorted permutation leads to the same result. -/
def sort (basis : List RN) : List RN := basis.insertionSort fun x y => (RN.lt y x) = false

/-- `Module::make(basis, ring)`, `src/module.cc:114-120` with the constructor `47-58`. -/
def make (ring : P) (basis : List RN) : Out (Mod P) :=
  let basis := sort basis
  if check basis then .ok ⟨ring, basis⟩ else .throws .logicError

/-- `Module::submodule`, `src/module.cc:177-185`. -/
def submodule (self supermodule : Mod P) : Bool := self.basis.all fun gen => supermodule.basis.any fun sgen => gen = sgen

/-- The loop of `span` that appends the missing generators, `src/module.cc:166-171`. -/
def extend (basis : List RN) : List RN → List RN
  | [] => basis
  | ngen :: rest => extend (if basis.any fun gen => gen = ngen then basis else basis ++ [ngen]) rest

variable [DecidableEq P] {R : Type} [CommRing R] [DecidableEq R] [CRing P R]

/-- `Module::span` for nontrivial modules over the same ring, `src/module.cc:158-173`. -/
def spanSame (m n : Mod P) : Out (Mod P) :=
  if n.submodule m then .ok m
  else if m.submodule n then .ok n
  else make m.par (extend m.basis n.basis)

/-- `Module::span`, `src/module.cc:144-174`; the recursive call in line 155 has modules over the same ring and with non-empty bases, i.e.,
it continues in line 158. -/
def span (m n : Mod P) : Out (Mod P) :=
  if m.basis = [] then .ok n
  else if n.basis = [] then .ok m
  else if m.par ≠ n.par then do
    let parameters ← CRing.compositum m.par n.par
    let m' ← make parameters m.basis
    let n' ← make parameters n.basis
    spanSame m' n'
  else spanSame m n

end Mod

end ExactReal
