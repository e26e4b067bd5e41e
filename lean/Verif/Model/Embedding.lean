import Verif.Model.ElementApprox

/-!
# Approximations over number fields, with the state of the embedding

`Arb(const renf_elem_class&, prec)` (`src/arb.cc:103-107`) first calls `renf_refine_embedding`, which *changes* the number field that all coefficients
share: it computes more digits of the generator of the field if there are fewer than `prec`.  So the ball of a coefficient depends on what has been
approximated before.  Here that state is modelled as the *level* of the field, the number of digits of the generator known so far: refining raises the
level to `prec` if it is lower.  `coeff level prec c` is the ball of the coefficient `c` (`renf_elem_set_evaluation`) when the level is `level`.

All the functions of `Model/ElementApprox.lean` that approximate coefficients are modelled again, with the level passed along.  (Exact operations on
coefficients can also raise the level; the level at the start of a call is arbitrary.)
-/

namespace ExactReal

variable {P : Type} [DecidableEq P] {R : Type} [CommRing R] [DecidableEq R] [CRing P R]

/-- `Arb::Arb(const renf_elem_class&, prec)`, `src/arb.cc:103-107` (`NumberField::arb`, `src/number_field.cc`): refines the embedding, then evaluates. -/
def embed (coeff : ℕ → ℕ → R → Ball) (prec : ℕ) (c : R) (level : ℕ) : Ball × ℕ :=
  let level := max level prec
  (coeff level prec c, level)

namespace Elt
variable (atoms : Atoms) (F : Arith) (coeff : ℕ → ℕ → R → Ball)

/-- The sum over the generators, `src/element.cc:199-201`. -/
def arbSumE (prec : ℕ) : Ball → List (RN × R) → ℕ → Ball × ℕ
  | ret, [], level => (ret, level)
  | ret, (g, c) :: rest, level =>
    let (b, level) := embed coeff prec c level
    arbSumE prec (F.add prec ret (F.mul prec (g.arb atoms prec) b)) rest level

/-- The loop of `Element::arb`, `src/element.cc:197-206`. -/
def arbLoopE (accuracy : ℕ) (ts : List (RN × R)) : (fuel prec level : ℕ) → Out (Ball × ℕ)
  | 0, _, _ => .pending
  | fuel + 1, prec, level =>
    let (ret, level) := arbSumE atoms F coeff prec (Ball.exact 0) ts level
    if ret.hasAccuracy accuracy then .ok (ret, level) else arbLoopE accuracy ts fuel (prec * 2) level

/-- `Element::arb`, `src/element.cc:189-207`. -/
def arbE (fuel accuracy : ℕ) (x : Elt P R) (level : ℕ) : Out (Ball × ℕ) :=
  if !x.toBool then .ok (Ball.exact 0, level)
  else arbLoopE atoms F coeff accuracy x.terms fuel (accuracy + Nat.clog 2 x.mod.basis.length) level

/-- The loop of `lt`, `src/element.cc:90-103`. -/
def ltLoopE (op : ℕ → Ball → ℕ → Out (Option Bool × ℕ)) (self : ℕ → ℕ → Out (Ball × ℕ)) : (fuel prec level : ℕ) → Out (Bool × ℕ)
  | 0, _, _ => .pending
  | fuel + 1, prec, level => do
    let (self', level) ← self prec level
    let (lt, level) ← op prec self' level
    match lt with
    | some r => .ok (r, level)
    | none => ltLoopE op self fuel (prec * 2) level

/-- `Element < Element`, `src/element.cc:87-104,568-571`. -/
def ltE [Build] (fuel : ℕ) (x y : Elt P R) (level : ℕ) : Out (Bool × ℕ) := do
  if (← x.eq y) then .ok (false, level)
  else ltLoopE (fun prec self level => do
    let (other, level) ← y.arbE atoms F coeff fuel prec level
    .ok (self.lt other, level)) (fun prec level => x.arbE atoms F coeff fuel prec level) fuel 64 level

/-- `Element < RealNumber`, `src/element.cc:87-104`. -/
def ltRNE [Build] (fuel : ℕ) (x : Elt P R) (y : RN) (level : ℕ) : Out (Bool × ℕ) := do
  if (← x.eqRN y) then .ok (false, level)
  else ltLoopE (fun prec self level => .ok (self.lt (y.arb atoms prec), level)) (fun prec level => x.arbE atoms F coeff fuel prec level) fuel 64 level

/-- `Element < mpq_class`, `src/element.cc:87-104`. -/
def ltQE (fuel : ℕ) (x : Elt P R) (q : ℚ) (level : ℕ) : Out (Bool × ℕ) :=
  if x.eqQ q then .ok (false, level)
  else ltLoopE (fun _ self level => .ok (self.ltQ F q, level)) (fun prec level => x.arbE atoms F coeff fuel prec level) fuel 64 level

/-- `Element < n` for `mpz_class` and the integer types, `src/element.cc:87-104`. -/
def ltZE (fuel : ℕ) (x : Elt P R) (n : ℤ) (level : ℕ) : Out (Bool × ℕ) :=
  if x.eqZ n then .ok (false, level)
  else ltLoopE (fun _ self level => .ok (self.lt (Ball.exact n), level)) (fun prec level => x.arbE atoms F coeff fuel prec level) fuel 64 level

/-- The loops of `floor` and `ceil`, `src/element.cc:545-551,559-565`; `round` is `Arf::floor` or `Arf::ceil`. -/
def roundLoopE (round : ℚ → ℤ) (self : ℕ → ℕ → Out (Ball × ℕ)) : (fuel prec level : ℕ) → Out (ℤ × ℕ)
  | 0, _, _ => .pending
  | fuel + 1, prec, level => do
    let (approximation, level) ← self prec level
    let (lower, upper) ← approximation.interval
    if round lower = round upper then .ok (round lower, level) else roundLoopE round self fuel (prec * 2) level

/-- `Element::floor`, `src/element.cc:540-552`. -/
def floorE (fuel : ℕ) (x : Elt P R) (level : ℕ) : Out (ℤ × ℕ) :=
  match x.integer? with
  | some n => .ok (n, level)
  | none => roundLoopE Arf.floor (fun prec level => x.arbE atoms F coeff fuel prec level) fuel 64 level

/-- `Element::ceil`, `src/element.cc:554-566`. -/
def ceilE (fuel : ℕ) (x : Elt P R) (level : ℕ) : Out (ℤ × ℕ) :=
  match x.integer? with
  | some n => .ok (n, level)
  | none => roundLoopE Arf.ceil (fun prec level => x.arbE atoms F coeff fuel prec level) fuel 64 level

/-- The loop of `operator double`, `src/element.cc:837-846`. -/
def doubleLoopE (self : ℕ → ℕ → Out (Ball × ℕ)) : (fuel prec level : ℕ) → Out (Double × ℕ)
  | 0, _, _ => .pending
  | fuel + 1, prec, level => do
    let (a, level) ← self prec level
    let (lower, upper) ← a.interval
    if Double.ofArf lower = Double.ofArf upper then .ok (Double.ofArf lower, level) else doubleLoopE self fuel (prec * 2) level

/-- `Element::operator double`, `src/element.cc:808-847`. -/
def toDoubleE (fuel : ℕ) (x : Elt P R) (level : ℕ) : Out (Double × ℕ) :=
  match x.rational? with
  | some q => .ok (Double.ofArf (Arf.round .near 53 q), level)
  | none => doubleLoopE (fun prec level => x.arbE atoms F coeff fuel prec level) fuel 55 level

/-- `std::hash<Element>`, `src/element.cc:972-975`, for a given hash function of doubles. -/
def hashE (hashDouble : Double → UInt64) (fuel : ℕ) (x : Elt P R) (level : ℕ) : Out (UInt64 × ℕ) := do
  let (d, level) ← toDoubleE atoms F coeff fuel x level
  .ok (hashDouble d, level)

/-- The loop of `floordiv`, `src/element.cc:507-519`, see `floordivLoop`. -/
def floordivLoopE (self rhs : ℕ → ℕ → Out (Ball × ℕ)) : (fuel prec level : ℕ) → Out (ℤ × ℕ)
  | 0, _, _ => .pending
  | fuel + 1, prec, level => do
    let (div, level) ← rhs prec level
    match div.ne (Ball.exact 0) with
    | none => floordivLoopE self rhs fuel (prec * 2) level
    | some false => .ub
    | some true => do
      let (dividend, level) ← self prec level
      let (lower, upper) ← (F.div prec dividend div).interval
      if Arf.floor lower = Arf.floor upper then .ok (Arf.floor lower, level) else floordivLoopE self rhs fuel (prec * 2) level

/-- `floordiv` for elements of the same module, `src/element.cc:469-470,477-520`. -/
def floordivSameE (fuel : ℕ) (x rhs : Elt P R) (level : ℕ) : Out (ℤ × ℕ) :=
  if !x.toBool then .ok (0, level)
  else match exactLoop P none (x.coeffs.zip rhs.coeffs) with
    | some n => .ok (n, level)
    | none => floordivLoopE F (fun prec level => x.arbE atoms F coeff fuel prec level) (fun prec level => rhs.arbE atoms F coeff fuel prec level) fuel 64 level

/-- `Element::floordiv`, `src/element.cc:467-520`. -/
def floordivE [Build] (fuel : ℕ) (x rhs : Elt P R) (level : ℕ) : Out (ℤ × ℕ) :=
  if !x.toBool then .ok (0, level)
  else if x.mod ≠ rhs.mod then do
    let parent ← Mod.span x.mod rhs.mod
    let x' ← x.promote parent
    let rhs' ← rhs.promote parent
    floordivSameE atoms F coeff fuel x' rhs' level
  else floordivSameE atoms F coeff fuel x rhs level

end Elt

end ExactReal
