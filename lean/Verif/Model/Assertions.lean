import Verif.Model.Ball

/-!
# The assertions of `refine`

`RealNumber::refine` checks with `assert` that the number is in the ball before and after (`src/real_number.cc:65,75,76`); in a build
without `NDEBUG` a failing assertion terminates the process.  Here are the functions of `Verif/Model/Ball.lean` with these assertions.
-/

namespace ExactReal.RN
variable (atoms : Atoms)

/-- The condition of `assert(this->cmp(arb) == 0)`, `src/real_number.cc:65,75`.  The interval of a ball of infinite radius is
`[-∞, ∞]` (`src/real_number.cc:50`), so `cmp` returns 0 for it. -/
def cmpIsZero (x : RN) (b : Ball) : Out Bool :=
  match b.rad with
  | none => .ok true
  | some _ => do
    let c ← x.cmp atoms b
    .ok (c = 0)

/-- `assert(cond)`. -/
def cAssert (cond : Out Bool) : Out Unit := do
  if ← cond then .ok () else .abort

/-- `RealNumber::refine`, `src/real_number.cc:63-77`, with the assertions. -/
def refineDebug (x : RN) (b : Ball) (prec : ℕ) : Out Ball := do
  cAssert (x.cmpIsZero atoms b)
  if b.hasAccuracy prec then .ok b
  else
    let midpoint := x.arf atoms prec
    let ball : Ball := ⟨midpoint, some (2 ^ (Arf.logb midpoint - (prec + 1)))⟩
    cAssert (x.cmpIsZero atoms ball)
    cAssert (.ok (!x.toBool || ball.hasAccuracy prec))
    .ok ball

/-- `RealNumber::arb`, `src/real_number.cc:79-83`, with the assertions. -/
def arbDebug (x : RN) (prec : ℕ) : Out Ball := x.refineDebug atoms Ball.zeroPmInf prec

/-- The loop of `operator<(const RealNumber&)`, `src/real_number.cc:105-112`, with the assertions. -/
def ltLoopDebug (x y : RN) : (fuel prec : ℕ) → (self other : Ball) → Out Bool
  | 0, _, _, _ => .pending
  | fuel + 1, prec, self, other => do
    let self ← x.refineDebug atoms self prec
    let other ← y.refineDebug atoms other prec
    match self.lt other with
    | some r => .ok r
    | none => ltLoopDebug x y fuel (prec * 2) self other

/-- `RealNumber::operator<(const RealNumber&)`, `src/real_number.cc:99-113`, with the assertions. -/
def ltRNDebug (fuel : ℕ) (x y : RN) : Out Bool :=
  if x = y then .ok false else ltLoopDebug atoms x y fuel 2 Ball.zeroPmInf Ball.zeroPmInf

/-- The loop of `operator<(const Arf&)`, `src/real_number.cc:138-144`, with the assertions. -/
def ltArfLoopDebug (x : RN) (other : Ball) : (fuel prec : ℕ) → (self : Ball) → Out Bool
  | 0, _, _ => .pending
  | fuel + 1, prec, self => do
    let self ← x.refineDebug atoms self prec
    match self.lt other with
    | some r => .ok r
    | none => ltArfLoopDebug x other fuel (prec * 2) self

/-- `RealNumber::operator<(const Arf&)`, `src/real_number.cc:132-145`, with the assertions. -/
def ltArfDebug (fuel : ℕ) (x : RN) (a : ℚ) : Out Bool :=
  if x.eqArf a then .ok false else ltArfLoopDebug atoms x (Ball.exact a) fuel 2 Ball.zeroPmInf

end ExactReal.RN
