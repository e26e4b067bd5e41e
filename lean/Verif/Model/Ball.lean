import Verif.Model.Double

/-!
# Balls

An `Arb` (`exact-real/arb.hpp`, `src/arb.cc`) wraps FLINT's `arb_t`, a midpoint with a radius.  FLINT's predicates (`arb_lt`, …) are
documented to decide the relation for all pairs of points exactly.  The arithmetic operations of FLINT are not modelled by formulas but by
the contract `BallOps` of `Verif/Spec/Ball.lean`; here they are a parameter `Arith`.
-/

namespace ExactReal

/-- An `arb_t` with a finite midpoint; `rad = none` is an infinite radius. -/
structure Ball where
  mid : ℚ
  rad : Option ℚ
  deriving DecidableEq

/-- `ARF_PREC_EXACT` of FLINT on a 64 bit machine. -/
def ARF_PREC_EXACT : ℕ := 2 ^ 63 - 1

namespace Ball

/-- `Arb(const Arf&)`, `Arb(const mpz_class&)`, `Arb(Integer)`: `src/arb.cc:63-66,79-81,92-97`. -/
def exact (q : ℚ) : Ball := ⟨q, some 0⟩

/-- `Arb::zero_pm_inf`, `src/arb.cc:145-149`. -/
def zeroPmInf : Ball := ⟨0, none⟩

/-- `p <= arb_rel_accuracy_bits(b)`.  FLINT defines the accuracy to be minus `arb_rel_error_bits`, which is the difference of the exponents of
radius and midpoint plus one, `ARF_PREC_EXACT` for exact balls and `-ARF_PREC_EXACT` for balls with infinite radius or an inexact zero
midpoint.  Precisions are not bounded in the model, so `±ARF_PREC_EXACT` (the largest `long`) are plus and minus infinity here. -/
def hasAccuracy (b : Ball) (p : ℤ) : Bool :=
  match b.rad with
  | none => false
  | some r => r = 0 || (b.mid ≠ 0 && p ≤ Int.log 2 |b.mid| - Int.log 2 r - 1)

/-- `arb_lt`: is every point of `a` less than every point of `b`? -/
def allLt (a b : Ball) : Bool :=
  match a.rad, b.rad with
  | some r, some s => a.mid + r < b.mid - s
  | _, _ => false

/-- `arb_le`. -/
def allLe (a b : Ball) : Bool :=
  match a.rad, b.rad with
  | some r, some s => a.mid + r ≤ b.mid - s
  | _, _ => false

/-- `arb_eq`: is every point of `a` equal to every point of `b`? -/
def allEq (a b : Ball) : Bool := a.rad = some 0 && b.rad = some 0 && a.mid = b.mid

/-- `arb_ne`: is every point of `a` different from every point of `b`, i.e., do they not overlap? -/
def allNe (a b : Ball) : Bool := allLt a b || allLt b a

/-- `Arb::operator<`, `src/arb.cc:177-185`. -/
def lt (a b : Ball) : Option Bool := if allLt a b then some true else if allLe b a then some false else none

/-- `Arb::operator>`, `src/arb.cc:187-195`. -/
def gt (a b : Ball) : Option Bool := if allLt b a then some true else if allLe a b then some false else none

/-- `Arb::operator<=`, `src/arb.cc:197-204`. -/
def le (a b : Ball) : Option Bool :=
  match gt a b with
  | some r => some !r
  | none => none

/-- `Arb::operator>=`, `src/arb.cc:206-213`. -/
def ge (a b : Ball) : Option Bool :=
  match lt a b with
  | some r => some !r
  | none => none

/-- `Arb::operator==`, `src/arb.cc:215-223`. -/
def eq (a b : Ball) : Option Bool := if allEq a b then some true else if allNe a b then some false else none

/-- `Arb::operator!=`, `src/arb.cc:225-232`. -/
def ne (a b : Ball) : Option Bool :=
  match eq a b with
  | some r => some !r
  | none => none

/-- `operator std::pair<Arf, Arf>`, `src/arb.cc:315-319`: `arb_get_interval_arf` rounds the end points outwards, here to as many bits as the
ball is accurate (nothing is rounded for an exact ball).  FLINT requires at least two bits; less is reported as `ub`.  For an infinite radius
the bounds are infinite, which the model does not represent; it is among the balls of low accuracy. -/
def interval (b : Ball) : Out (ℚ × ℚ) :=
  match b.rad with
  | none => .ub
  | some r =>
    if r = 0 then .ok (b.mid, b.mid)
    else if !b.hasAccuracy 2 then .ub
    else
      let accuracy := Int.log 2 |b.mid| - Int.log 2 r - 1
      .ok (Arf.round .floor accuracy (b.mid - r), Arf.round .ceil accuracy (b.mid + r))

end Ball

/-- The arithmetic of FLINT that the library calls: `arb_add`, `arb_mul`, `arb_div`, `arb_set_fmpq`, with the precision as first argument. -/
structure Arith where
  add : ℕ → Ball → Ball → Ball
  mul : ℕ → Ball → Ball → Ball
  div : ℕ → Ball → Ball → Ball
  ofRat : ℕ → ℚ → Ball

namespace Ball
variable (F : Arith)

/-- The scaled left operand of the comparisons with a rational, e.g. `src/arb.cc:255`. -/
def scaled (a : Ball) (q : ℚ) : Ball := F.mul ARF_PREC_EXACT a (exact q.den)

/-- `Arb::operator==(const mpq_class&)`, `src/arb.cc:254-257`. -/
def eqQ (a : Ball) (q : ℚ) : Option Bool := (a.scaled F q).eq (exact q.num)
/-- `Arb::operator!=(const mpq_class&)`, `src/arb.cc:259-262`: this calls `==`. -/
def neQ (a : Ball) (q : ℚ) : Option Bool := (a.scaled F q).eq (exact q.num)
/-- `Arb::operator<(const mpq_class&)`, `src/arb.cc:264-267`. -/
def ltQ (a : Ball) (q : ℚ) : Option Bool := (a.scaled F q).lt (exact q.num)
/-- `Arb::operator>(const mpq_class&)`, `src/arb.cc:269-272`. -/
def gtQ (a : Ball) (q : ℚ) : Option Bool := (a.scaled F q).gt (exact q.num)
/-- `Arb::operator<=(const mpq_class&)`, `src/arb.cc:274-277`. -/
def leQ (a : Ball) (q : ℚ) : Option Bool := (a.scaled F q).le (exact q.num)
/-- `Arb::operator>=(const mpq_class&)`, `src/arb.cc:279-282`. -/
def geQ (a : Ball) (q : ℚ) : Option Bool := (a.scaled F q).ge (exact q.num)

end Ball

namespace RN
variable (atoms : Atoms)

/-- `RealNumber::refine`, `src/real_number.cc:63-77`, for `prec ≥ 0`: the ball afterwards.  The assertions (lines 65, 75, 76) are not
part of the model, they are only evaluated in debug builds. -/
def refine (x : RN) (b : Ball) (prec : ℕ) : Ball :=
  if b.hasAccuracy prec then b
  else
    let midpoint := x.arf atoms prec
    ⟨midpoint, some (2 ^ (Arf.logb midpoint - (prec + 1)))⟩

/-- `RealNumber::arb`, `src/real_number.cc:79-83`. -/
def arb (x : RN) (prec : ℕ) : Ball := x.refine atoms Ball.zeroPmInf prec

/-- `RealNumber::cmp`, `src/real_number.cc:49-61`. -/
def cmp (x : RN) (b : Ball) : Out ℤ := do
  let (lo, hi) ← b.interval
  let approx := x.arf atoms (max (Arf.bits lo) (Arf.bits hi) + 1)
  .ok (if approx < lo then -1 else if hi < approx then 1 else 0)

/-- The loop of `operator<(const RealNumber&)`, `src/real_number.cc:105-112`, for at most `fuel` iterations. -/
def ltLoop (x y : RN) : (fuel prec : ℕ) → (self other : Ball) → Out Bool
  | 0, _, _, _ => .pending
  | fuel + 1, prec, self, other =>
    let self := x.refine atoms self prec
    let other := y.refine atoms other prec
    match self.lt other with
    | some r => .ok r
    | none => ltLoop x y fuel (prec * 2) self other

/-- `RealNumber::operator<(const RealNumber&)`, `src/real_number.cc:99-113`.  Real numbers are equal iff they are the same object
(lines 115-118). -/
def ltRN (fuel : ℕ) (x y : RN) : Out Bool :=
  if x = y then .ok false else ltLoop atoms x y fuel 2 Ball.zeroPmInf Ball.zeroPmInf

/-- `RealNumber::operator==(const Arf&)`, `src/real_number.cc:154-161`. -/
def eqArf (x : RN) (a : ℚ) : Bool :=
  match x.rational? with
  | none => false
  | some q => a * q.den = q.num

/-- The loop of `operator<(const Arf&)`, `src/real_number.cc:138-144`. -/
def ltArfLoop (x : RN) (other : Ball) : (fuel prec : ℕ) → (self : Ball) → Out Bool
  | 0, _, _ => .pending
  | fuel + 1, prec, self =>
    let self := x.refine atoms self prec
    match self.lt other with
    | some r => .ok r
    | none => ltArfLoop x other fuel (prec * 2) self

/-- `RealNumber::operator<(const Arf&)`, `src/real_number.cc:132-145`. -/
def ltArf (fuel : ℕ) (x : RN) (a : ℚ) : Out Bool :=
  if x.eqArf a then .ok false else ltArfLoop atoms x (Ball.exact a) fuel 2 Ball.zeroPmInf

/-- `RealNumber::operator>(const Arf&)`, `src/real_number.cc:147-152`. -/
def gtArf (fuel : ℕ) (x : RN) (a : ℚ) : Out Bool :=
  if x.eqArf a then .ok false else do
    let r ← ltArf atoms fuel x a
    .ok !r

/-- `RealNumber::operator<` for `mpz_class` and the built-in integer types, `src/real_number.cc:120-122`, `exact-real/real_number.hpp:312-315`: the integer is turned into an
`Arf` without rounding. -/
def ltZ (fuel : ℕ) (x : RN) (n : ℤ) : Out Bool := ltArf atoms fuel x n

/-- `RealNumber::operator>` for `mpz_class` and the built-in integer types, `src/real_number.cc:124-126`, `exact-real/real_number.hpp:317-320`. -/
def gtZ (fuel : ℕ) (x : RN) (n : ℤ) : Out Bool := gtArf atoms fuel x n

/-- `RealNumber::operator==` for `mpz_class` and the built-in integer types, `src/real_number.cc:128-130`, `exact-real/real_number.hpp:322-325`. -/
def eqZ (x : RN) (n : ℤ) : Bool := x.eqArf n

/-- The loops of `operator<(const mpq_class&)` and `operator>(const mpq_class&)`, `src/real_number.cc:169-174,183-188`. -/
def cmpQLoop (x : RN) (op : Ball → Option Bool) : (fuel prec : ℕ) → Out Bool
  | 0, _ => .pending
  | fuel + 1, prec =>
    match op (x.arb atoms prec) with
    | some r => .ok r
    | none => cmpQLoop x op fuel (prec * 2)

/-- `RealNumber::operator<(const mpq_class&)`, `src/real_number.cc:163-175`. -/
def ltQ (F : Arith) (fuel : ℕ) (x : RN) (q : ℚ) : Out Bool :=
  match x.rational? with
  | some r => .ok (r < q)
  | none => cmpQLoop atoms x (fun b => b.ltQ F q) fuel 64

/-- `RealNumber::operator>(const mpq_class&)`, `src/real_number.cc:177-189`. -/
def gtQ (F : Arith) (fuel : ℕ) (x : RN) (q : ℚ) : Out Bool :=
  match x.rational? with
  | some r => .ok (q < r)
  | none => cmpQLoop atoms x (fun b => b.gtQ F q) fuel 64

/-- `RealNumber::operator==(const mpq_class&)`, `src/real_number.cc:191-193`. -/
def eqQ (x : RN) (q : ℚ) : Bool := x.rational? = some q

end RN

end ExactReal
