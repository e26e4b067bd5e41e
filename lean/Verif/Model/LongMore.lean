import Verif.Model.Long

/-!
# The 64 bit integers of the remaining comparisons, of conversions to `double` and of `floordiv`

Continues `Verif/Model/Long.lean`.
-/

namespace ExactReal

namespace RN
variable (atoms : Atoms)

/-- The loop of `operator<(const Arf&)`, `src/real_number.cc:138-144`. -/
def ltArfLoopLong (x : RN) (other : Ball) : (fuel prec : ℕ) → (self : Ball) → Out Bool
  | 0, _, _ => .pending
  | fuel + 1, prec, self => do
    let self ← x.refineLong atoms self prec
    match self.lt other with
    | some r => .ok r
    | none => do
      let p ← long (prec * 2)
      ltArfLoopLong x other fuel p.toNat self

/-- `RealNumber::operator<(const Arf&)`, `src/real_number.cc:132-145`. -/
def ltArfLong (fuel : ℕ) (x : RN) (a : ℚ) : Out Bool :=
  if x.eqArf a then .ok false else ltArfLoopLong atoms x (Ball.exact a) fuel 2 Ball.zeroPmInf

/-- `RealNumber::operator>(const Arf&)`, `src/real_number.cc:147-152`. -/
def gtArfLong (fuel : ℕ) (x : RN) (a : ℚ) : Out Bool :=
  if x.eqArf a then .ok false else do
    let r ← ltArfLong atoms fuel x a
    .ok !r

/-- The loops of `operator<(const mpq_class&)` and `operator>(const mpq_class&)`, `src/real_number.cc:169-174,183-188`. -/
def cmpQLoopLong (x : RN) (op : Ball → Option Bool) : (fuel prec : ℕ) → Out Bool
  | 0, _ => .pending
  | fuel + 1, prec => do
    let b ← x.arbLong atoms prec
    match op b with
    | some r => .ok r
    | none => do
      let p ← long (prec * 2)
      cmpQLoopLong x op fuel p.toNat

/-- `RealNumber::operator<(const mpq_class&)`, `src/real_number.cc:163-175`. -/
def ltQLong (F : Arith) (fuel : ℕ) (x : RN) (q : ℚ) : Out Bool :=
  match x.rational? with
  | some r => .ok (r < q)
  | none => cmpQLoopLong atoms x (fun b => b.ltQ F q) fuel 64

/-- `RealNumber::operator>(const mpq_class&)`, `src/real_number.cc:177-189`. -/
def gtQLong (F : Arith) (fuel : ℕ) (x : RN) (q : ℚ) : Out Bool :=
  match x.rational? with
  | some r => .ok (q < r)
  | none => cmpQLoopLong atoms x (fun b => b.gtQ F q) fuel 64

/-- `RealNumber::operator double`, `src/real_number.cc:40-42`. -/
def toDoubleLong (x : RN) : Out Double := do
  let a ← x.arfLong atoms 54
  .ok (Double.ofArf a)

end RN

namespace Elt
variable {P : Type} [DecidableEq P] {R : Type} [CommRing R] [DecidableEq R] [CRing P R]
variable (atoms : Atoms) (F : Arith) (coeff : ℕ → R → Ball)

/-- The loop of `floordiv`, `src/element.cc:507-519`. -/
def floordivLoopLong (self rhs : ℕ → Out Ball) : (fuel prec : ℕ) → Out ℤ
  | 0, _ => .pending
  | fuel + 1, prec => do
    let div ← rhs prec
    match div.ne (Ball.exact 0) with
    | none => do
      let p ← long (prec * 2)
      floordivLoopLong self rhs fuel p.toNat
    | some false => .ub
    | some true => do
      let dividend ← self prec
      let (lower, upper) ← (F.div prec dividend div).interval
      if Arf.floor lower = Arf.floor upper then .ok (Arf.floor lower)
      else do
        let p ← long (prec * 2)
        floordivLoopLong self rhs fuel p.toNat

/-- `floordiv` for elements of the same module, `src/element.cc:469-470,477-520`. -/
def floordivSameLong (fuel : ℕ) (x rhs : Elt P R) : Out ℤ :=
  if !x.toBool then .ok 0
  else match exactLoop P none (x.coeffs.zip rhs.coeffs) with
    | some n => .ok n
    | none => floordivLoopLong F (fun prec => x.arbLong atoms F coeff fuel prec) (fun prec => rhs.arbLong atoms F coeff fuel prec) fuel 64

/-- `Element::floordiv`, `src/element.cc:467-520`. -/
def floordivLong [Build] (fuel : ℕ) (x rhs : Elt P R) : Out ℤ :=
  if !x.toBool then .ok 0
  else if x.mod ≠ rhs.mod then do
    let parent ← Mod.span x.mod rhs.mod
    let x' ← x.promote parent
    let rhs' ← rhs.promote parent
    floordivSameLong atoms F coeff fuel x' rhs'
  else floordivSameLong atoms F coeff fuel x rhs

/-- The loop of `operator double`, `src/element.cc:837-846`. -/
def doubleLoopLong (self : ℕ → Out Ball) : (fuel prec : ℕ) → Out Double
  | 0, _ => .pending
  | fuel + 1, prec => do
    let a ← self prec
    let (lower, upper) ← a.interval
    if Double.ofArf lower = Double.ofArf upper then .ok (Double.ofArf lower)
    else do
      let p ← long (prec * 2)
      doubleLoopLong self fuel p.toNat

/-- `Element::operator double`, `src/element.cc:808-847`. -/
def toDoubleLong (fuel : ℕ) (x : Elt P R) : Out Double :=
  match x.rational? with
  | some q => .ok (Double.ofArf (Arf.round .near 53 q))
  | none => doubleLoopLong (fun prec => x.arbLong atoms F coeff fuel prec) fuel 55

end Elt

end ExactReal
