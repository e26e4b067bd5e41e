import Verif.Model.Approx

/-!
# The cache of approximations

Every real number keeps approximations that have been computed: `RealNumberBase::arf`, `src/real_number.cc:195-219`.  Computing an approximation
of a product or of a random number in an interval asks other numbers for approximations and so changes their caches, too.
-/

namespace ExactReal

/-- The mutable members of a number, `src/impl/real_number_base.hpp:50-52`. The `unordered_map` is a list without repeated keys. -/
structure ArfCache where
  arf54 : Option ℚ
  arf64 : Option ℚ
  large : List (ℕ × ℚ)

/-- The members after construction. -/
def ArfCache.empty : ArfCache := ⟨none, none, []⟩

/-- The caches of all the numbers. -/
abbrev Caches := RN → ArfCache

/-- A computation that uses the caches: the new caches and the result. -/
abbrev Cached (α : Type) := Caches → Caches × α

namespace Caches

/-- Change the cache of one number. -/
def set (σ : Caches) (x : RN) (c : ArfCache) : Caches := fun y => if y = x then c else σ y

/-- The number of approximations kept for a number. -/
def kept (σ : Caches) (x : RN) : ℕ := (σ x).arf54.toList.length + (σ x).arf64.toList.length + (σ x).large.length

end Caches

/-- `RealNumberBase::arf`, `src/real_number.cc:195-219`; `prec` has already been replaced by zero when it is negative. `compute` is the virtual
function `arf_`. -/
def arfCached (x : RN) (prec : ℕ) (compute : Cached ℚ) : Cached ℚ := fun σ =>
  if prec = 54 then
    match (σ x).arf54 with
    | some v => (σ, v)
    | none =>
      let (σ, v) := compute σ
      (σ.set x { σ x with arf54 := some v }, v)
  else if prec = 64 then
    match (σ x).arf64 with
    | some v => (σ, v)
    | none =>
      let (σ, v) := compute σ
      (σ.set x { σ x with arf64 := some v }, v)
  else
    match (σ x).large.lookup prec with
    | some v => (σ, v)
    | none =>
      let σ := if (σ x).large.length ≥ 128 then σ.set x { σ x with large := [] } else σ
      let (σ, v) := compute σ
      (σ.set x { σ x with large := (prec, v) :: (σ x).large }, v)

/-- The numbers behind the atoms: `inner i` is the identity of the random number that the `ConstrainedRandomRealNumber` `i` refers to
(`src/constrained_random_real_number.cc:133`). -/
structure Inner (atoms : Atoms) where
  inner : ℕ → ℕ
  spec : ∀ i m e d, atoms i = .constrained m e d → atoms (inner i) = .random d

namespace Inner
variable {atoms : Atoms} (I : Inner atoms)

/-- `arf` of an atom with caches: `src/random_real_number.cc:66-92`, `src/constrained_random_real_number.cc:75-99` (which calls `arf` of
`inner`, line 92). -/
def atomArf (i : ℕ) (prec : ℕ) : Cached ℚ := arfCached (.atom i) prec fun σ =>
  match atoms i with
  | .random d => (σ, d.arf prec)
  | .constrained m e _ =>
    let initial := Arf.ofMantissaExponent m e
    let missing : ℤ := ((prec : ℤ) + 1) - Arf.bits initial
    if 0 < missing then
      let (σ, additional) := arfCached (.atom (I.inner i)) (missing - 1).toNat
        (fun σ => (σ, (atoms (I.inner i)).arf (missing - 1).toNat)) σ
      (σ, Arf.round .near (prec + 1) (Arf.round .near (prec + 1) (initial + Arf.shiftLeft additional (e - 1))))
    else (σ, Arf.round .near (prec + 1) initial)

/-- The inner loop of `RealNumberProduct::arf_`, `src/real_number_product.cc:536-537`. -/
def mulLoop (w i : ℕ) : ℕ → ℚ → Cached ℚ
  | 0, ret => fun σ => (σ, ret)
  | j + 1, ret => fun σ =>
    let (σ, a) := I.atomArf i w σ
    mulLoop w i j (Arf.round .near w (ret * a)) σ

/-- The outer loop of `RealNumberProduct::arf_`, `src/real_number_product.cc:535`. -/
def prodLoop (w : ℕ) : Mono → ℚ → Cached ℚ
  | [], ret => fun σ => (σ, ret)
  | (i, e) :: m, ret => fun σ =>
    let (σ, ret) := I.mulLoop w i e ret σ
    prodLoop w m ret σ

/-- `RealNumberBase::arf` of any number with all the caches. -/
def arf (x : RN) (prec : ℤ) : Cached ℚ :=
  match x with
  | .rat q => arfCached (.rat q) prec.toNat fun σ => (σ, (RN.rat q).arf_ atoms prec.toNat)
  | .atom i => I.atomArf i prec.toNat
  | .prod m => arfCached (.prod m) prec.toNat fun σ =>
    let (σ, ret) := I.prodLoop (workingPrec prec.toNat (m.map Prod.snd).sum) m 1 σ
    (σ, Arf.round .near (prec.toNat + 1) ret)

/-- A sequence of calls of `arf` for any numbers. -/
def calls : List (RN × ℤ) → Cached (List ℚ)
  | [] => fun σ => (σ, [])
  | (x, prec) :: rest => fun σ =>
    let (σ, v) := I.arf x prec σ
    let (σ, vs) := calls rest σ
    (σ, v :: vs)

end Inner

end ExactReal
