import Verif.Model.Ball
import Verif.Model.Element

/-!
# Elements, approximate operations

Comparisons, `floor`, `ceil`, `floordiv` and the conversion to `double` refine approximations in loops that need not end.  Each loop is
run for at most `fuel` iterations (nested loops get the same `fuel`); `pending` means that more are needed.
-/

namespace ExactReal

variable {P : Type} [DecidableEq P] {R : Type} [CommRing R] [DecidableEq R] [CRing P R]

/-- `IntegerRing::arb`, `src/integer_ring.cc:37-39`. -/
def IntegerRing.arb (_prec : ℕ) (c : ℤ) : Ball := Ball.exact c

/-- `RationalField::arb`, `src/rational_field.cc:37-39`, `src/arb.cc:85-90`. -/
def RationalField.arb (F : Arith) (prec : ℕ) (c : ℚ) : Ball := F.ofRat prec c

namespace Elt
variable (atoms : Atoms) (F : Arith) (coeff : ℕ → R → Ball)

/-- The sum over the generators, `src/element.cc:199-201`: products and sums are both computed with `prec` bits (`+=` takes the precision
of the expression on its right, `exact-real/arb.hpp`). -/
def arbSum (prec : ℕ) : Ball → List (RN × R) → Ball
  | ret, [] => ret
  | ret, (g, c) :: rest => arbSum prec (F.add prec ret (F.mul prec (g.arb atoms prec) (coeff prec c))) rest

/-- The loop of `Element::arb`, `src/element.cc:197-206`. -/
def arbLoop (accuracy : ℕ) (ts : List (RN × R)) : (fuel prec : ℕ) → Out Ball
  | 0, _ => .pending
  | fuel + 1, prec =>
    let ret := arbSum atoms F coeff prec (Ball.exact 0) ts
    if ret.hasAccuracy accuracy then .ok ret else arbLoop accuracy ts fuel (prec * 2)

/-- `Element::arb`, `src/element.cc:189-207`, for a non-negative accuracy. `coeff` is `Ring::arb`.  (`ceil(log2(rank))` is computed in
double precision, exactly for ranks below 2^53.) -/
def arb (fuel accuracy : ℕ) (x : Elt P R) : Out Ball :=
  if !x.toBool then .ok (Ball.exact 0)
  else arbLoop atoms F coeff accuracy x.terms fuel (accuracy + Nat.clog 2 x.mod.basis.length)

/-- The loop of `lt`, `src/element.cc:90-103`; `op prec self` compares with the right hand side. -/
def ltLoop (op : ℕ → Ball → Out (Option Bool)) (self : ℕ → Out Ball) : (fuel prec : ℕ) → Out Bool
  | 0, _ => .pending
  | fuel + 1, prec => do
    let self' ← self prec
    let lt ← op prec self'
    match lt with
    | some r => .ok r
    | none => ltLoop op self fuel (prec * 2)

/-- `Element < Element`, `src/element.cc:87-104,568-571`. -/
def lt [Build] (fuel : ℕ) (x y : Elt P R) : Out Bool := do
  if (← x.eq y) then .ok false
  else ltLoop (fun prec self => do
    let other ← y.arb atoms F coeff fuel prec
    .ok (self.lt other)) (fun prec => x.arb atoms F coeff fuel prec) fuel 64

/-- `Element < RealNumber`. -/
def ltRN [Build] (fuel : ℕ) (x : Elt P R) (y : RN) : Out Bool := do
  if (← x.eqRN y) then .ok false
  else ltLoop (fun prec self => .ok (self.lt (y.arb atoms prec))) (fun prec => x.arb atoms F coeff fuel prec) fuel 64

/-- `Element < mpq_class`. -/
def ltQ (fuel : ℕ) (x : Elt P R) (q : ℚ) : Out Bool :=
  if x.eqQ q then .ok false
  else ltLoop (fun _ self => .ok (self.ltQ F q)) (fun prec => x.arb atoms F coeff fuel prec) fuel 64

/-- `Element < n` for `mpz_class` and the integer types. -/
def ltZ (fuel : ℕ) (x : Elt P R) (n : ℤ) : Out Bool :=
  if x.eqZ n then .ok false
  else ltLoop (fun _ self => .ok (self.lt (Ball.exact n))) (fun prec => x.arb atoms F coeff fuel prec) fuel 64

/-- `gt`, `src/element.cc:106-111`, for a right hand side that is compared with `eq` and `lt`.  For two elements `>` is `rhs < lhs`
(`boost::less_than_comparable`). -/
def gtOf (eq lt : Out Bool) : Out Bool := do
  if (← eq) then .ok false
  else do
    let r ← lt
    .ok !r

/-- `Element > RealNumber` -/
def gtRN [Build] (fuel : ℕ) (x : Elt P R) (y : RN) : Out Bool := gtOf (x.eqRN y) (ltRN atoms F coeff fuel x y)
/-- `Element > mpq_class` -/
def gtQ (fuel : ℕ) (x : Elt P R) (q : ℚ) : Out Bool := gtOf (.ok (x.eqQ q)) (ltQ atoms F coeff fuel x q)
/-- `Element > n` for `mpz_class` and the integer types. -/
def gtZ (fuel : ℕ) (x : Elt P R) (n : ℤ) : Out Bool := gtOf (.ok (x.eqZ n)) (ltZ atoms F coeff fuel x n)

/-- The loops of `floor` and `ceil`, `src/element.cc:545-551,559-565`; `round` is `Arf::floor` or `Arf::ceil`. -/
def roundLoop (round : ℚ → ℤ) (self : ℕ → Out Ball) : (fuel prec : ℕ) → Out ℤ
  | 0, _ => .pending
  | fuel + 1, prec => do
    let approximation ← self prec
    let (lower, upper) ← approximation.interval
    if round lower = round upper then .ok (round lower) else roundLoop round self fuel (prec * 2)

/-- `Element::floor`, `src/element.cc:540-552`. -/
def floor (fuel : ℕ) (x : Elt P R) : Out ℤ :=
  match x.integer? with
  | some n => .ok n
  | none => roundLoop Arf.floor (fun prec => x.arb atoms F coeff fuel prec) fuel 64

/-- `Element::ceil`, `src/element.cc:554-566`. -/
def ceil (fuel : ℕ) (x : Elt P R) : Out ℤ :=
  match x.integer? with
  | some n => .ok n
  | none => roundLoop Arf.ceil (fun prec => x.arb atoms F coeff fuel prec) fuel 64

/-- The loop of the lambda `exact` of `floordiv`, `src/element.cc:482-501`, on pairs of coefficients. -/
def exactLoop (P : Type) [DecidableEq P] {R : Type} [CommRing R] [DecidableEq R] [CRing P R] :
    Option ℤ → List (R × R) → Option ℤ
  | floor, [] => floor
  | floor, (a, b) :: rest =>
    if a ≠ 0 then
      if b ≠ 0 then
        let f := CRing.floor P (CRing.quo P a b)
        if floor.isSome && floor ≠ some f then none
        else if b * (f : R) ≠ a then none
        else exactLoop P (some f) rest
      else none
    else if b ≠ 0 then none
    else exactLoop P floor rest

/-- The loop of `floordiv`, `src/element.cc:507-519`.  Dividing by a ball that contains zero (only possible for the exact ball 0, i.e.,
for a zero divisor) yields an infinite or indeterminate ball, which is reported as `ub`. -/
def floordivLoop (self rhs : ℕ → Out Ball) : (fuel prec : ℕ) → Out ℤ
  | 0, _ => .pending
  | fuel + 1, prec => do
    let div ← rhs prec
    match div.ne (Ball.exact 0) with
    | none => floordivLoop self rhs fuel (prec * 2)
    | some false => .ub
    | some true => do
      let dividend ← self prec
      let (lower, upper) ← (F.div prec dividend div).interval
      if Arf.floor lower = Arf.floor upper then .ok (Arf.floor lower) else floordivLoop self rhs fuel (prec * 2)

/-- `floordiv` for elements of the same module, `src/element.cc:469-470,477-520`. -/
def floordivSame (fuel : ℕ) (x rhs : Elt P R) : Out ℤ :=
  if !x.toBool then .ok 0
  else match exactLoop P none (x.coeffs.zip rhs.coeffs) with
    | some n => .ok n
    | none => floordivLoop F (fun prec => x.arb atoms F coeff fuel prec) (fun prec => rhs.arb atoms F coeff fuel prec) fuel 64

/-- `Element::floordiv`, `src/element.cc:467-520`. -/
def floordiv [Build] (fuel : ℕ) (x rhs : Elt P R) : Out ℤ :=
  if !x.toBool then .ok 0
  else if x.mod ≠ rhs.mod then do
    let parent ← Mod.span x.mod rhs.mod
    let x' ← x.promote parent
    let rhs' ← rhs.promote parent
    floordivSame atoms F coeff fuel x' rhs'
  else floordivSame atoms F coeff fuel x rhs

/-- The loop of `operator double`, `src/element.cc:837-846`. -/
def doubleLoop (self : ℕ → Out Ball) : (fuel prec : ℕ) → Out Double
  | 0, _ => .pending
  | fuel + 1, prec => do
    let a ← self prec
    let (lower, upper) ← a.interval
    if Double.ofArf lower = Double.ofArf upper then .ok (Double.ofArf lower) else doubleLoop self fuel (prec * 2)

/-- `Element::operator double`, `src/element.cc:808-847`. -/
def toDouble (fuel : ℕ) (x : Elt P R) : Out Double :=
  match x.rational? with
  | some q => .ok (Double.ofArf (Arf.round .near 53 q))
  | none => doubleLoop (fun prec => x.arb atoms F coeff fuel prec) fuel 55

/-- `std::hash<Element>`, `src/element.cc:972-975`, for a given hash function of doubles. -/
def hash (hashDouble : Double → UInt64) (fuel : ℕ) (x : Elt P R) : Out UInt64 := do
  let d ← toDouble atoms F coeff fuel x
  .ok (hashDouble d)

end Elt

end ExactReal
