import Verif.Model.ArfCache

/-!
# The cache of approximations when several threads use it

`RealNumberBase::arf` is a `const` function that changes `mutable` members without any synchronisation (`src/real_number.cc:195-219`,
`src/impl/real_number_base.hpp:50-52`).  Here it is written as a program of single accesses to these members, and any number of threads run such
programs with their accesses interleaved in any order.

In C++ two accesses of different threads to the same object, at least one of which changes it, that are not ordered by any synchronisation are a data
race, and then the behaviour is undefined.  `arf` has no synchronisation, so the accesses of different threads are never ordered.
-/

namespace ExactReal

/-- The three mutable members, `src/impl/real_number_base.hpp:50-52`. -/
inductive Field
  | arf54
  | arf64
  | large
  deriving DecidableEq

/-- The content of a member. -/
abbrev Field.Content : Field → Type
  | .arf54 => Option ℚ
  | .arf64 => Option ℚ
  | .large => List (ℕ × ℚ)

namespace ArfCache

/-- Read a member. -/
def get (c : ArfCache) : (f : Field) → f.Content
  | .arf54 => c.arf54
  | .arf64 => c.arf64
  | .large => c.large

/-- Replace a member. -/
def put (c : ArfCache) : (f : Field) → f.Content → ArfCache
  | .arf54, v => { c with arf54 := v }
  | .arf64, v => { c with arf64 := v }
  | .large, v => { c with large := v }

end ArfCache

/-- How a member is accessed. `bracket` is `operator[]` of an `unordered_map`: the C++ standard counts it as a modification for the purpose of data
races ([container.requirements.dataraces] exempts `operator[]` for containers other than the associative and unordered associative ones); in practice
it does not modify the map when the key is present. -/
inductive Kind
  | read
  | bracket
  | write
  deriving DecidableEq

/-- An access to a member of a number. -/
structure Access where
  obj : RN
  field : Field
  kind : Kind

/-- A program that accesses the members one at a time. -/
inductive Prog (α : Type)
  /-- Return a result. -/
  | ret (a : α)
  /-- Access a member of a number; the content is changed by `g` and then given to the rest of the program. -/
  | access (x : RN) (f : Field) (kind : Kind) (g : f.Content → f.Content) (k : f.Content → Prog α)

namespace Prog

/-- Run a program and continue with its result. -/
def bind {α β : Type} : Prog α → (α → Prog β) → Prog β
  | ret a, h => h a
  | access x f kind g k, h => access x f kind g fun c => (k c).bind h

/-- The content of a member after an access; a read does not change it. -/
def effect (kind : Kind) {f : Field} (g : f.Content → f.Content) (c : f.Content) : f.Content :=
  match kind with
  | .read => c
  | .bracket => g c
  | .write => g c

/-- The memory after an access. -/
def touch (σ : Caches) (x : RN) (f : Field) (kind : Kind) (g : f.Content → f.Content) : Caches :=
  σ.set x ((σ x).put f (effect kind g ((σ x).get f)))

/-- Run a program alone. -/
def run {α : Type} : Prog α → Cached α
  | ret a, σ => (σ, a)
  | access x f kind g k, σ => (k (effect kind g ((σ x).get f))).run (touch σ x f kind g)

/-- Read a member. -/
def read {α : Type} (x : RN) (f : Field) (k : f.Content → Prog α) : Prog α := access x f .read id k

/-- Assign to a member. -/
def write {α : Type} (x : RN) (f : Field) (v : f.Content) (k : Prog α) : Prog α := access x f .write (fun _ => v) fun _ => k

end Prog

/-- `large[prec] = v` -/
def insertLarge (prec : ℕ) (v : ℚ) (l : List (ℕ × ℚ)) : List (ℕ × ℚ) := (prec, v) :: l.filter fun p => p.1 != prec

/-- `large[prec]`: `operator[]` inserts a default `Arf`, i.e., zero, when the key is missing. -/
def bracketLarge (prec : ℕ) (l : List (ℕ × ℚ)) : List (ℕ × ℚ) :=
  match l.lookup prec with
  | some _ => l
  | none => (prec, 0) :: l

/-- The part of `RealNumberBase::arf` for precision 54, `src/real_number.cc:199-203`. (The optional is never empty in the last access; if it was, then
`*arf54` would be undefined.) -/
def arf54Prog (x : RN) (compute : Prog ℚ) : Prog ℚ :=
  .read x .arf54 fun c => (match c with
    | some _ => Prog.ret ()
    | none => compute.bind fun v => .write x .arf54 (some v) (.ret ())).bind fun _ =>
  .read x .arf54 fun c => .ret (c.getD 0)

/-- The part of `RealNumberBase::arf` for precision 64, `src/real_number.cc:205-209`. -/
def arf64Prog (x : RN) (compute : Prog ℚ) : Prog ℚ :=
  .read x .arf64 fun c => (match c with
    | some _ => Prog.ret ()
    | none => compute.bind fun v => .write x .arf64 (some v) (.ret ())).bind fun _ =>
  .read x .arf64 fun c => .ret (c.getD 0)

/-- The part of `RealNumberBase::arf` for any other precision, `src/real_number.cc:211-218`: `find`, `size`, maybe `clear`, the virtual call,
`large[prec] =` and the final `large[prec]`. -/
def largeProg (x : RN) (prec : ℕ) (compute : Prog ℚ) : Prog ℚ :=
  .read x .large fun l => (match l.lookup prec with
    | some _ => Prog.ret ()
    | none => .read x .large fun l =>
      (if l.length ≥ 128 then Prog.write x .large [] (.ret ()) else .ret ()).bind fun _ =>
      compute.bind fun v => .access x .large .write (insertLarge prec v) fun _ => .ret ()).bind fun _ =>
  .access x .large .bracket (bracketLarge prec) fun l => .ret ((l.lookup prec).getD 0)

/-- `RealNumberBase::arf`, `src/real_number.cc:195-219`. -/
def arfProg (x : RN) (prec : ℕ) (compute : Prog ℚ) : Prog ℚ :=
  if prec = 54 then arf54Prog x compute else if prec = 64 then arf64Prog x compute else largeProg x prec compute

namespace Inner
variable {atoms : Atoms} (I : Inner atoms)

/-- `arf` of an atom: `src/random_real_number.cc:66-92`, `src/constrained_random_real_number.cc:75-99` (which calls `arf` of `inner`, line 92). -/
def atomProg (i : ℕ) (prec : ℕ) : Prog ℚ := arfProg (.atom i) prec <|
  match atoms i with
  | .random d => .ret (d.arf prec)
  | .constrained m e _ =>
    let initial := Arf.ofMantissaExponent m e
    let missing : ℤ := ((prec : ℤ) + 1) - Arf.bits initial
    if 0 < missing then
      (arfProg (.atom (I.inner i)) (missing - 1).toNat (.ret ((atoms (I.inner i)).arf (missing - 1).toNat))).bind fun additional =>
      .ret (Arf.round .near (prec + 1) (Arf.round .near (prec + 1) (initial + Arf.shiftLeft additional (e - 1))))
    else .ret (Arf.round .near (prec + 1) initial)

/-- The inner loop of `RealNumberProduct::arf_`, `src/real_number_product.cc:536-537`. -/
def mulProg (w i : ℕ) : ℕ → ℚ → Prog ℚ
  | 0, ret => .ret ret
  | j + 1, ret => (I.atomProg i w).bind fun a => mulProg w i j (Arf.round .near w (ret * a))

/-- The outer loop of `RealNumberProduct::arf_`, `src/real_number_product.cc:535`. -/
def prodProg (w : ℕ) : Mono → ℚ → Prog ℚ
  | [], ret => .ret ret
  | (i, e) :: m, ret => (I.mulProg w i e ret).bind fun ret => prodProg w m ret

/-- A call of `arf` for any number. -/
def prog (x : RN) (prec : ℤ) : Prog ℚ :=
  match x with
  | .rat q => arfProg (.rat q) prec.toNat (.ret ((RN.rat q).arf_ atoms prec.toNat))
  | .atom i => I.atomProg i prec.toNat
  | .prod m => arfProg (.prod m) prec.toNat <|
    (I.prodProg (workingPrec prec.toNat (m.map Prod.snd).sum) m 1).bind fun ret => .ret (Arf.round .near (prec.toNat + 1) ret)

/-- A thread: a sequence of calls of `arf`. -/
def thread : List (RN × ℤ) → Prog (List ℚ)
  | [] => .ret []
  | (x, prec) :: rest => (I.prog x prec).bind fun v => (thread rest).bind fun vs => .ret (v :: vs)

end Inner

/-- What the threads have still to do, and the caches. -/
structure Threads (α : Type) where
  rest : ℕ → Prog α
  caches : Caches

/-- The executions: at each step, one of the threads makes its next access. The trace says which thread made which access. -/
inductive Threads.Exec {α : Type} : Threads α → List (ℕ × Access) → Threads α → Prop
  | refl (s) : Exec s [] s
  | step {s tr s'} (t : ℕ) {x f kind g k} (h : s.rest t = .access x f kind g k)
      (rest : Exec ⟨Function.update s.rest t (k (Prog.effect kind g ((s.caches x).get f))), Prog.touch s.caches x f kind g⟩ tr s') :
      Exec s ((t, ⟨x, f, kind⟩) :: tr) s'

/-- The threads that call `arf`, from given caches. -/
def Inner.threads {atoms : Atoms} (I : Inner atoms) (calls : ℕ → List (RN × ℤ)) (σ : Caches) : Threads (List ℚ) :=
  ⟨fun t => I.thread (calls t), σ⟩

end ExactReal
