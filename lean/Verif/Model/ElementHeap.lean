import Verif.Model.ModuleHeap
import Verif.Model.Program
import Mathlib.Data.Set.Insert

/-!
# Elements and programs in a running process

`Verif/Model/Element.lean` computes with modules as values.  In the process there are objects: an element holds a shared pointer to its module, a
module holds shared pointers to its generators, modules and generators are compared by their address.  This file models the same functions on
objects.  What a thread does is a tree of atomic steps (`Act`): it reads immutable objects, and calls factories that return shared pointers.  Between
two such steps anything can happen in the process (`Waits`): other threads create numbers and modules, load archives, drop references;
objects without references are destroyed and their addresses are used again.  Only the objects that the thread refers to are safe.

Simplifications: each factory call is one atomic step; a thread keeps the references that it has obtained during a call of the library until that
call returns (C++ destroys some temporaries earlier).
-/

namespace ExactReal.Heap

/-- The factory calls that return a real number. -/
inductive NumOp
  | rational (q : ℚ)
  | random (seed : UInt32)
  | randomIn (lower upper : ℚ) (seed : UInt32)
  | mul (p q : Ptr)

/-- `src/rational_real_number.cc:84-91`, `src/random_real_number.cc:131-133`, `src/constrained_random_real_number.cc:143-198`,
`src/real_number_product.cc:594-602`. -/
def NumOp.run (gen : Generators) (alloc : Alloc) (s : State) : NumOp → State × Out Ptr
  | rational q => let (s, p) := s.rational alloc q; (s, .ok p)
  | random seed => let (s, p) := s.random alloc seed; (s, .ok p)
  | randomIn lower upper seed => s.randomIn gen alloc lower upper seed
  | mul p q => s.mul alloc p q

/-- The numbers that a factory call refers to. -/
def NumOp.args : NumOp → List Ptr
  | mul p q => [p, q]
  | _ => []

/-- What a thread is going to do. -/
inductive Act (P α : Type) : Type
  /-- It is done. -/
  | ret (x : Out α)
  /-- It reads objects. -/
  | read (k : MState P → Act P α)
  /-- It calls a factory for numbers, divides numbers, calls the factory for modules; it goes on depending on the result. -/
  | num (op : NumOp) (k : Out Ptr → Act P α)
  | div (p q : Ptr) (k : Out (Option Ptr) → Act P α)
  | make (ring : P) (basis : List Ptr) (k : Out Ptr → Act P α)

namespace Act
variable {P α β : Type}

/-- Do something and go on, also if there has been an exception. -/
def andThen : Act P α → (Out α → Act P β) → Act P β
  | ret x, f => f x
  | read k, f => .read fun st => (k st).andThen f
  | num op k, f => .num op fun r => (k r).andThen f
  | div p q k, f => .div p q fun r => (k r).andThen f
  | make ring basis k, f => .make ring basis fun r => (k r).andThen f

/-- Do something and go on if it has returned. -/
def bind (x : Act P α) (f : α → Act P β) : Act P β :=
  x.andThen fun
    | .ok a => f a
    | .throws e => .ret (.throws e)
    | .abort => .ret .abort
    | .ub => .ret .ub
    | .pending => .ret .pending

instance : Monad (Act P) where
  pure a := .ret (.ok a)
  bind := bind

/-- A computation that reads objects. -/
def look (f : MState P → Out α) : Act P α := .read fun st => .ret (f st)

/-- `*m` for a module; a dangling reference is undefined behaviour. -/
def deref (m : Ptr) : Act P (MObj P) := look fun st => match st.live m with | some o => .ok o | none => .ub

/-- `*p * *q` etc. -/
def call (op : NumOp) : Act P Ptr := .num op .ret

/-- `*p / *q` -/
def quotient (p q : Ptr) : Act P (Option Ptr) := .div p q .ret

/-- `Module::make`, `src/module.cc:114-120`. -/
def makeModule (ring : P) (basis : List Ptr) : Act P Ptr := .make ring basis .ret

end Act

/-- The process together with the real numbers and modules that the thread refers to. -/
structure World (P : Type) where
  st : MState P
  nums : Set Ptr
  mods : Set Ptr

/-- A number that the thread refers to, itself or by means of a module. -/
def Held {P : Type} (w : World P) (p : Ptr) : Prop := p ∈ w.nums ∨ ∃ m ∈ w.mods, ∃ o, w.st.live m = some o ∧ p ∈ o.basis

namespace World
variable {P : Type}

/-- The thread has got a reference to a number. -/
def addNum (w : World P) (s : State) (p : Ptr) : World P := ⟨{ w.st with base := s }, insert p w.nums, w.mods⟩

/-- A factory has returned. -/
def afterNum (w : World P) : State × Out Ptr → World P
  | (s, .ok p) => w.addNum s p
  | (s, _) => ⟨{ w.st with base := s }, w.nums, w.mods⟩

/-- `operator/` has returned. -/
def afterDiv (w : World P) : State × Out (Option Ptr) → World P
  | (s, .ok (some p)) => w.addNum s p
  | (s, _) => ⟨{ w.st with base := s }, w.nums, w.mods⟩

/-- The factory of modules has returned. -/
def afterMake (w : World P) : MState P × Out Ptr → World P
  | (st, .ok m) => ⟨st, w.nums, insert m w.mods⟩
  | (st, _) => ⟨st, w.nums, w.mods⟩

end World

/-- Time passes: anything may happen in the process, except that the references of the thread persist. -/
def Waits {P : Type} [DecidableEq P] (gen : Generators) (w w' : World P) : Prop :=
  MEvolves gen w.st w'.st ∧ w'.nums = w.nums ∧ w'.mods = w.mods ∧ (∀ p ∈ w.nums, p ∈ w'.st.base.roots) ∧ ∀ m ∈ w.mods, m ∈ w'.st.mroots

/-- A thread runs until it is done.  A call with a number that the thread does not refer to is undefined, even if the number happens to exist. -/
inductive Exec {P : Type} [DecidableEq P] (gen : Generators) {α : Type} : World P → Act P α → World P → Out α → Prop
  | ret {w : World P} {x : Out α} : Exec gen w (.ret x) w x
  | read {w w₁ w' : World P} {k : MState P → Act P α} {x : Out α} : Waits gen w w₁ → Exec gen w₁ (k w₁.st) w' x → Exec gen w (.read k) w' x
  | num {w w₁ w' : World P} {op : NumOp} {k : Out Ptr → Act P α} {x : Out α} {alloc : Alloc} : Waits gen w w₁ → alloc.Valid → (∀ p ∈ op.args, Held w₁ p) →
      Exec gen (w₁.afterNum (op.run gen alloc w₁.st.base)) (k (op.run gen alloc w₁.st.base).2) w' x → Exec gen w (.num op k) w' x
  | div {w w₁ w' : World P} {p q : Ptr} {k : Out (Option Ptr) → Act P α} {x : Out α} {alloc : Alloc} : Waits gen w w₁ → alloc.Valid → (Held w₁ p ∧ Held w₁ q) →
      Exec gen (w₁.afterDiv (w₁.st.base.div alloc p q)) (k (w₁.st.base.div alloc p q).2) w' x → Exec gen w (.div p q k) w' x
  | make {w w₁ w' : World P} {ring : P} {basis : List Ptr} {k : Out Ptr → Act P α} {x : Out α} {malloc : MAlloc P} : Waits gen w w₁ → malloc.Valid →
      (∀ p ∈ basis, Held w₁ p) →
      Exec gen (w₁.afterMake (w₁.st.make malloc ring basis)) (k (w₁.st.make malloc ring basis).2) w' x → Exec gen w (.make ring basis k) w' x
  | numUndefined {w w₁ w' : World P} {op : NumOp} {k : Out Ptr → Act P α} {x : Out α} : Waits gen w w₁ → ¬ (∀ p ∈ op.args, Held w₁ p) →
      Exec gen w₁ (k .ub) w' x → Exec gen w (.num op k) w' x
  | divUndefined {w w₁ w' : World P} {p q : Ptr} {k : Out (Option Ptr) → Act P α} {x : Out α} : Waits gen w w₁ → ¬ (Held w₁ p ∧ Held w₁ q) →
      Exec gen w₁ (k .ub) w' x → Exec gen w (.div p q k) w' x
  | makeUndefined {w w₁ w' : World P} {ring : P} {basis : List Ptr} {k : Out Ptr → Act P α} {x : Out α} : Waits gen w w₁ → ¬ (∀ p ∈ basis, Held w₁ p) →
      Exec gen w₁ (k .ub) w' x → Exec gen w (.make ring basis k) w' x

/-! ### Modules -/

/-- Are two shared pointers, or two real numbers (`src/real_number.cc:79-83`), the same? -/
def State.same (s : State) (p q : Ptr) : Bool := s.addrOf p = s.addrOf q

namespace MState
variable {P : Type}

/-- Are two shared pointers to modules the same? -/
def sameModule (st : MState P) (m n : Ptr) : Bool := (st.live m).map MObj.addr = (st.live n).map MObj.addr

end MState

/-- The loop of `Module::submodule`, `src/module.cc:177-185`. -/
def submodule (s : State) (self super : List Ptr) : Bool := self.all fun gen => super.any fun sgen => s.same gen sgen

/-- The loop of `span` that appends the missing generators, `src/module.cc:166-171`. -/
def extend (s : State) (basis : List Ptr) : List Ptr → List Ptr
  | [] => basis
  | ngen :: rest => extend s (if basis.any fun gen => s.same gen ngen then basis else basis ++ [ngen]) rest

variable {P : Type} [DecidableEq P] {R : Type} [CommRing R] [DecidableEq R] [CRing P R]

/-- `Module::span` for nontrivial modules over the same ring, `src/module.cc:158-173`. -/
def spanSame (m n : Ptr) : Act P Ptr := do
  let a ← Act.deref m
  let b ← Act.deref n
  let nm ← Act.look fun st => .ok (submodule st.base b.basis a.basis)
  if nm then return m
  else do
    let mn ← Act.look fun st => .ok (submodule st.base a.basis b.basis)
    if mn then return n
    else do
      let basis ← Act.look fun st => .ok (extend st.base a.basis b.basis)
      Act.makeModule a.ring basis

/-- `Module::span`, `src/module.cc:144-174`. -/
def span (m n : Ptr) : Act P Ptr := do
  let a ← Act.deref m
  let b ← Act.deref n
  if a.basis = [] then return n
  else if b.basis = [] then return m
  else if a.ring ≠ b.ring then do
    let parameters ← Act.ret (CRing.compositum a.ring b.ring)
    let m' ← Act.makeModule parameters a.basis
    let n' ← Act.makeModule parameters b.basis
    spanSame m' n'
  else spanSame m n

/-! ### Elements -/

/-- `ElementImplementation`, `src/element.cc:54-85`: a shared pointer to the module, and the coefficients. -/
structure HElt (R : Type) where
  mod : Ptr
  coeffs : List R

namespace HElt

/-- `operator bool`, `src/element.cc:803-806`. -/
def toBool (x : HElt R) : Bool := x.coeffs.any fun c => c ≠ 0

/-- Construct an element, `src/element.cc:62-65,124-126`. -/
def ofCoefficients [Build] (m : Ptr) (coefficients : List R) : Act P (HElt R) := do
  let o ← Act.deref m
  let _ ← Act.ret (assertThat (coefficients.length = o.basis.length))
  return ⟨m, coefficients⟩

/-- `Module::zero`, `src/module.cc:194-197`. -/
def zero (m : Ptr) : Act P (HElt R) := do
  let o ← Act.deref m
  return ⟨m, List.replicate o.basis.length 0⟩

/-- `Module::gen`, `src/module.cc:187-192`. -/
def gen (m : Ptr) (j : ℕ) : Act P (HElt R) := do
  let o ← Act.deref m
  if j < o.basis.length then return ⟨m, (List.replicate o.basis.length 0).set j 1⟩ else Act.ret .ub

/-- `Element(const Ring::ElementClass&)`, `src/element.cc:146-148`. -/
def ofScalar [Build] (parent : P) (value : R) : Act P (HElt R) := do
  let g ← Act.call (.rational 1)
  let m ← Act.makeModule (CRing.ofValue parent value) [g]
  ofCoefficients m [value]

/-- The loop of `promote`, `src/element.cc:869-894`. -/
def promoteLoop [Build] (s : State) (ring src : P) : List (Ptr × R) → List Ptr → Out (List R)
  | [], [] => .ok []
  | [], _ :: theirs => do
    let rest ← promoteLoop s ring src [] theirs
    .ok (0 :: rest)
  | (_, c) :: ours, [] => do
    assertThat (c = 0)
    promoteLoop s ring src ours []
  | (g, c) :: ours, t :: theirs =>
    if s.same g t then do
      let c' ← CRing.coerce ring src c
      let rest ← promoteLoop s ring src ours theirs
      .ok (c' :: rest)
    else if RN.lt (s.rn g) (s.rn t) then promoteLoop s ring src ours (t :: theirs)
    else do
      let rest ← promoteLoop s ring src ((g, c) :: ours) theirs
      .ok (0 :: rest)
termination_by ours theirs => ours.length + theirs.length

/-- `promote`, `src/element.cc:854-897`. -/
def promote [Build] (x : HElt R) (parent : Ptr) : Act P (HElt R) := do
  let same ← Act.look fun st => .ok (st.sameModule x.mod parent)
  if same then return x
  else if !x.toBool then zero parent
  else do
    let their ← Act.deref parent
    let our ← Act.deref x.mod
    let coefficients ← Act.look fun st => promoteLoop st.base their.ring our.ring (our.basis.zip x.coeffs) their.basis
    ofCoefficients parent coefficients

/-- Go on after an in-place operation on `x` has been computed up to `a`; `x` is unchanged if that throws. -/
def inplace (x : HElt R) (a : Act P α) (f : α → Act P (Step (HElt R))) : Act P (Step (HElt R)) :=
  a.andThen fun
    | .ok z => f z
    | e => .ret (.ok ⟨e >>= fun _ => .ok (), x⟩)

/-- `operator+=`, `src/element.cc:209-220`. -/
def addAssign [Build] (x y : HElt R) : Act P (Step (HElt R)) := do
  let same ← Act.look fun st => .ok (st.sameModule x.mod y.mod)
  if same then return .done ⟨x.mod, List.zipWith (· + ·) x.coeffs y.coeffs⟩
  else x.inplace (do
    let parent ← span (P := P) x.mod y.mod
    let y' ← y.promote parent
    let x' ← x.promote parent
    return (⟨x'.mod, List.zipWith (· + ·) x'.coeffs y'.coeffs⟩ : HElt R)) fun z => return .done z

/-- `operator-`, `src/element.cc:274-282`. -/
def neg (x : HElt R) : HElt R := ⟨x.mod, x.coeffs.map fun c => -c⟩

/-- `operator-=`, `src/element.cc:222-225`. -/
def subAssign [Build] (x y : HElt R) : Act P (Step (HElt R)) := x.addAssign y.neg

/-- `products[gen] += value`, `src/element.cc:247`; the map is keyed by shared pointers. -/
def accumulate (s : State) (gen : Ptr) (value : R) : List (Ptr × R) → List (Ptr × R)
  | [] => [(gen, value)]
  | (g, c) :: rest => if s.same g gen then (g, c + value) :: rest else (g, c) :: accumulate s gen value rest

/-- The inner loop over the terms of `rhs`, `src/element.cc:243-248`. -/
def mulRow (g : Ptr) (c : R) : List (Ptr × R) → List (Ptr × R) → Act P (List (Ptr × R))
  | [], products => return products
  | (h, d) :: rest, products => do
    let gen ← Act.call (.mul g h)
    let products ← Act.look fun st => .ok (accumulate st.base gen (c * d) products)
    mulRow g c rest products

/-- The outer loop over the terms of `this`, `src/element.cc:242-249`. -/
def mulRows : List (Ptr × R) → List (Ptr × R) → List (Ptr × R) → Act P (List (Ptr × R))
  | [], _, products => return products
  | (g, c) :: rest, rhs, products => do
    let products ← mulRow g c rhs products
    mulRows rest rhs products

/-- The end of `operator*=`, `src/element.cc:251-266`: `products` is the list of terms of the product, not yet sorted. -/
def assemble [Build] (x : HElt R) (ring : P) (products : List (Ptr × R)) : Act P (Step (HElt R)) := do
  let sorted ← Act.look fun st => .ok (products.insertionSort fun a b => RN.lt (st.base.rn b.1) (st.base.rn a.1) = false)
  x.inplace (Act.makeModule ring (sorted.map Prod.fst)) fun parent => do
    let o ← Act.deref parent
    let same ← Act.look fun st => .ok (o.basis.map st.base.addrOf = (sorted.map Prod.fst).map st.base.addrOf : Bool)
    return ⟨assertThat same, ⟨parent, sorted.map Prod.snd⟩⟩

/-- `operator*=` for elements over the same ring, `src/element.cc:240-266`. -/
def mulSame [Build] (x y : HElt R) : Act P (Step (HElt R)) := do
  let a ← Act.deref x.mod
  let b ← Act.deref y.mod
  x.inplace (mulRows (a.basis.zip x.coeffs) (b.basis.zip y.coeffs) []) fun products => x.assemble a.ring products

/-- `operator*=`, `src/element.cc:227-267`. -/
def mulAssign [Build] (x y : HElt R) : Act P (Step (HElt R)) :=
  if !x.toBool then return .done x
  else if !y.toBool then return .done y
  else do
    let a ← Act.deref x.mod
    let b ← Act.deref y.mod
    if a.ring ≠ b.ring then
      x.inplace (do
        let compositum ← Act.ret (CRing.compositum a.ring b.ring)
        let my ← Act.makeModule compositum b.basis
        let y' ← y.promote my
        let mx ← Act.makeModule compositum a.basis
        let x' ← x.promote mx
        return (x', y')) fun xy => mulSame xy.1 xy.2
    else mulSame x y

/-- `operator*=(const RealNumber&)`, `src/element.cc:269-272`. -/
def mulRNAssign [Build] (x : HElt R) (r : Ptr) : Act P (Step (HElt R)) := do
  let a ← Act.deref x.mod
  x.inplace (do
    let m ← Act.makeModule a.ring [r]
    gen (P := P) m 0) fun y => x.mulAssign y

/-- Apply an in-place operation to all coefficients, `src/element.cc:67-81,284-416`. -/
def scale (f : R → Step R) (x : HElt R) : Step (HElt R) := let r := Elt.scaleLoop f x.coeffs; ⟨r.out, ⟨x.mod, r.self⟩⟩

/-- The result of an in-place operation. -/
def result (a : Act P (Step (HElt R))) : Act P (HElt R) := do
  let x ← a
  Act.ret x.result

/-- `operator==(mpq_class)`, `src/element.cc:728-764`, for an element of the module `o`. -/
def eqQ (s : State) (o : MObj P) (cs : List R) (q : ℚ) : Bool := Elt.rationalLoop P 0 ((o.basis.map s.rn).zip cs) = some q

/-- `operator==(const Element&)`, `src/element.cc:766-774`. -/
def eq [Build] (x y : HElt R) : Act P Bool := do
  let same ← Act.look fun st => .ok (st.sameModule x.mod y.mod)
  if same then return (x.coeffs = y.coeffs : Bool)
  else do
    let parent ← span (P := P) x.mod y.mod
    let x' ← x.promote (P := P) parent
    let y' ← y.promote (P := P) parent
    return (x'.coeffs = y'.coeffs : Bool)

/-- `simplify`, `src/element.cc:899-918`. -/
def simplify [Build] (x : HElt R) : Act P (HElt R) :=
  if x.coeffs.all fun c => c ≠ 0 then return x
  else do
    let o ← Act.deref x.mod
    let gens := ((o.basis.zip x.coeffs).filter fun t => t.2 ≠ 0).map Prod.fst
    if gens.length = o.basis.length then return x
    else do
      let parent ← Act.makeModule o.ring gens
      x.promote parent

/-- The lambda `leading` of `truediv`, `src/element.cc:434-441`. -/
def leading (x : HElt R) : Act P (R × Ptr) := do
  let o ← Act.deref x.mod
  match (o.basis.zip x.coeffs).reverse.find? fun t => t.2 ≠ 0 with
  | some (g, c) => return (c, g)
  | none => Act.ret (.throws .logicError)

/-- The loop of `truediv`, `src/element.cc:443-462`, run for at most `fuel` iterations. -/
def truedivLoop [Build] (ring : P) (rhs : HElt R) : ℕ → (remainder quotient : HElt R) → Act P (Option (HElt R))
  | 0, _, _ => .ret .pending
  | fuel + 1, remainder, quotient =>
    if !remainder.toBool then return some quotient
    else do
      let (a, g) ← remainder.leading (P := P)
      let (b, h) ← rhs.leading (P := P)
      let generatorQuotient ← Act.quotient g h
      match generatorQuotient with
      | none => return none
      | some gq =>
        let coefficientQuotient := CRing.quo P a b
        if coefficientQuotient * b ≠ a then do
          let _ ← Act.ret (assertThat (!CRing.isField P))
          return none
        else do
          let m ← Act.makeModule ring [gq]
          let g0 ← gen (P := P) m 0
          let partialQuotient ← Act.ret (g0.scale fun c => CRing.imulR P c coefficientQuotient).result
          let quotient ← result (P := P) (quotient.addAssign partialQuotient)
          let product ← result (P := P) (partialQuotient.mulAssign rhs)
          let remainder ← result (P := P) (remainder.subAssign product)
          truedivLoop ring rhs fuel remainder quotient

/-- `truediv` for operands in the same module, `src/element.cc:419-424,430-465`. -/
def truedivSame [Build] (fuel : ℕ) (x rhs : HElt R) : Act P (Option (HElt R)) := do
  let b ← Act.deref rhs.mod
  let isZero ← Act.look fun st => .ok (eqQ st.base b rhs.coeffs 0)
  let _ ← Act.ret (checkArgument (!isZero))
  let isOne ← Act.look fun st => .ok (eqQ st.base b rhs.coeffs 1)
  if isOne then return some x
  else do
    let a ← Act.deref x.mod
    let z ← zero (P := P) x.mod
    truedivLoop a.ring rhs fuel x z

/-- `truediv`, `src/element.cc:418-465`, with at most `fuel` iterations of its loop. -/
def truediv [Build] (fuel : ℕ) (x rhs : HElt R) : Act P (Option (HElt R)) := do
  let b ← Act.deref rhs.mod
  let isZero ← Act.look fun st => .ok (eqQ st.base b rhs.coeffs 0)
  let _ ← Act.ret (checkArgument (!isZero))
  let isOne ← Act.look fun st => .ok (eqQ st.base b rhs.coeffs 1)
  if isOne then return some x
  else do
    let same ← Act.look fun st => .ok (st.sameModule x.mod rhs.mod)
    if same then do
      let a ← Act.deref x.mod
      let z ← zero (P := P) x.mod
      truedivLoop a.ring rhs fuel x z
    else do
      let parent ← span (P := P) x.mod rhs.mod
      let x' ← x.promote (P := P) parent
      let rhs' ← rhs.promote (P := P) parent
      truedivSame fuel x' rhs'

/-- `Module::one`, `src/module.cc:199-214`, see `Mod.one`. -/
def one (m : Ptr) : Act P (HElt R) := do
  let o ← Act.deref m
  let found ← Act.look fun st => .ok ((o.basis.map st.base.rn).findIdx? RN.isRat)
  match found with
  | none => Act.ret (.throws .logicError)
  | some g => do
    let value ← Act.look fun st => .ok (((o.basis.map st.base.rn)[g]?).bind RN.rational?)
    match value with
    | none => Act.ret (.throws .logicError) -- not reachable
    | some rational =>
      if CRing.isIntegers P then
        if rational.num = 1 then do
          let x ← gen (P := P) m g
          Act.ret (x.scale fun c => CRing.imulZ P c rational.den).result
        else Act.ret (.throws .logicError)
      else if rational.num ≤ 0 then Act.ret .ub
      else do
        let x ← gen (P := P) m g
        Act.ret (x.scale fun c => CRing.imulQ P c (rational.den / rational.num)).result

end HElt

/-! ### Programs -/

/-- The variables of a client. -/
structure HVars (R : Type) where
  num : ℕ → Ptr
  elt : ℕ → HElt R

namespace HVars
def setNum (s : HVars R) (d : ℕ) (x : Ptr) : HVars R := ⟨Function.update s.num d x, s.elt⟩
def setElt (s : HVars R) (d : ℕ) (x : HElt R) : HVars R := ⟨s.num, Function.update s.elt d x⟩

/-- `num[d] = …`; nothing is assigned if the right hand side throws. -/
def assignNum (s : HVars R) (d : ℕ) (x : Act P Ptr) : Act P (Out Bool × HVars R) :=
  x.andThen fun
    | .ok x => return (.ok true, s.setNum d x)
    | e => return (e >>= fun _ => .ok false, s)

/-- `if (auto x = …) num[d] = *x` -/
def assignNum? (s : HVars R) (d : ℕ) (x : Act P (Option Ptr)) : Act P (Out Bool × HVars R) :=
  x.andThen fun
    | .ok (some x) => return (.ok true, s.setNum d x)
    | e => return (e >>= fun _ => .ok false, s)

/-- `elt[d] = …`; nothing is assigned if the right hand side throws. -/
def assign (s : HVars R) (d : ℕ) (x : Act P (HElt R)) : Act P (Out Bool × HVars R) :=
  x.andThen fun
    | .ok x => return (.ok true, s.setElt d x)
    | e => return (e >>= fun _ => .ok false, s)

/-- `if (auto x = …) elt[d] = *x` -/
def assign? (s : HVars R) (d : ℕ) (x : Act P (Option (HElt R))) : Act P (Out Bool × HVars R) :=
  x.andThen fun
    | .ok (some x) => return (.ok true, s.setElt d x)
    | e => return (e >>= fun _ => .ok false, s)

/-- An in-place operation on `elt[d]`. -/
def inplace (s : HVars R) (d : ℕ) (x : Act P (Step (HElt R))) : Act P (Out Bool × HVars R) := do
  let x ← x
  return (x.out >>= fun _ => .ok true, s.setElt d x.self)

/-- In-place operations that only compute with coefficients. -/
def scale (s : HVars R) (d : ℕ) (x : Step (HElt R)) : Act P (Out Bool × HVars R) := return (x.out >>= fun _ => .ok true, s.setElt d x.self)

/-- Does the thread refer to all the objects of the variables? -/
def numSet (s : HVars R) : Set Ptr := Set.range s.num
def modSet (s : HVars R) : Set Ptr := Set.range fun d => (s.elt d).mod

end HVars

/-- Calls of a client. -/
inductive HCmd (P R : Type)
  /-- `num[d] = RealNumber::random(seed)` -/
  | random (d : ℕ) (seed : UInt32)
  /-- `num[d] = RealNumber::random(lower, upper, seed)` -/
  | randomIn (d : ℕ) (lower upper : ℚ) (seed : UInt32)
  /-- Any of the calls of `Verif/Model/Program.lean`, except for `Cmd.random` which is not a function of the library. -/
  | call (c : Cmd P R)

/-- The effect of a call of the program on the objects. -/
def HCmd.exec [Build] (s : HVars R) : HCmd P R → Act P (Out Bool × HVars R)
  | random d seed => s.assignNum d (Act.call (.random seed))
  | randomIn d lower upper seed => s.assignNum d (Act.call (.randomIn lower upper seed))
  | call (.random _ _) => Act.ret .ub
  | call (.rational d q) => s.assignNum d (Act.call (.rational q))
  | call (.numMul d a b) => s.assignNum d (Act.call (.mul (s.num a) (s.num b)))
  | call (.numDiv d a b) => s.assignNum? d (Act.quotient (s.num a) (s.num b))
  | call (.gen d ring gens g) => s.assign d (do
      let m ← Act.makeModule ring (gens.map s.num)
      let o ← Act.deref m
      let j ← Act.look fun st => .ok (o.basis.findIdx fun p => st.base.same p (s.num g))
      HElt.gen (P := P) m j)
  | call (.linear d ring terms) => s.assign d (do
      let m ← Act.makeModule ring (terms.map fun t => s.num t.1)
      let o ← Act.deref m
      let cs ← Act.look fun st => .ok (o.basis.map fun p => ((terms.find? fun t => st.base.same (s.num t.1) p).map Prod.snd).getD 0)
      HElt.ofCoefficients (P := P) m cs)
  | call (.scalar d ring c) => s.assign d (HElt.ofScalar ring c)
  | call (.copy d a) => return (.ok true, s.setElt d (s.elt a))
  | call (.zero d a) => s.assign d (HElt.zero (s.elt a).mod)
  | call (.one d a) => s.assign d (HElt.one (s.elt a).mod)
  | call (.neg d a) => return (.ok true, s.setElt d (s.elt a).neg)
  | call (.add d a) => s.inplace d ((s.elt d).addAssign (s.elt a))
  | call (.sub d a) => s.inplace d ((s.elt d).subAssign (s.elt a))
  | call (.mul d a) => s.inplace d ((s.elt d).mulAssign (s.elt a))
  | call (.mulNum d r) => s.inplace d ((s.elt d).mulRNAssign (s.num r))
  | call (.mulZ d n) => s.scale d ((s.elt d).scale fun c => CRing.imulZ P c n)
  | call (.mulQ d q) => s.scale d ((s.elt d).scale fun c => CRing.imulQ P c q)
  | call (.mulR d c) => s.scale d ((s.elt d).scale fun a => CRing.imulR P a c)
  | call (.divZ d n) => s.scale d ((s.elt d).scale fun c => CRing.idivZ P c n)
  | call (.divQ d q) => s.scale d ((s.elt d).scale fun c => CRing.idivQ P c q)
  | call (.divR d c) => s.scale d ((s.elt d).scale fun a => CRing.idivR P a c)
  | call (.promote d a) => do
      let our ← Act.deref (s.elt d).mod
      let their ← Act.deref (s.elt a).mod
      let sub ← Act.look fun st => .ok (submodule st.base our.basis their.basis)
      if sub then s.assign d ((s.elt d).promote (s.elt a).mod) else return (.ok false, s)
  | call (.simplify d) => s.assign d (s.elt d).simplify
  | call (.truediv d a b fuel) => s.assign? d (HElt.truediv fuel (s.elt a) (s.elt b))

/-- Before the first call: `RealNumber::rational(1)` and the default element, see `Vars.init`. -/
def HVars.start : Act P (HVars R) := do
  let p ← Act.call (.rational 1)
  let m ← Act.makeModule (CRing.default : P) []
  return ⟨fun _ => p, fun _ => ⟨m, []⟩⟩

end ExactReal.Heap
