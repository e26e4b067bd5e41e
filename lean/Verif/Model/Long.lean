import Verif.Model.ElementApprox

/-!
# The 64 bit integers of the approximations

Precisions, numbers of digits and exponents are `long`s in the code.  `Verif/Model/Approx.lean`, `Ball.lean` and `ElementApprox.lean` compute with
unbounded integers instead.  Here the same functions are modelled with the machine's arithmetic: every signed operation goes through `long`, which is
undefined behaviour (`ub`) when the result does not fit.  (The mantissas and exponents of FLINT's numbers are unbounded.)
-/

namespace ExactReal

/-- The result of a signed 64 bit operation with exact result `z`: undefined behaviour if it does not fit. -/
def long (z : ℤ) : Out ℤ := if -2 ^ 63 ≤ z ∧ z < 2 ^ 63 then .ok z else .ub

/-- `RandomRealNumber::arf_`, `src/random_real_number.cc:66-92`.  The counters `digits` and `exp` of the loop (lines 78-89) change by one in each iteration, in
one direction, so they fit if their last values do: `prec + 1` and `-(first + prec + 1)` (`Lemma.arfLoop_eq`). -/
def Digits.arfLong (d : Digits) (prec : ℕ) : Out ℚ := do
  let _ ← long (prec + 1)
  let _ ← long (-((d.first : ℤ) + prec + 1))
  .ok (d.arf prec)

/-- `arf_` of an atom, `src/random_real_number.cc:66-92`, `src/constrained_random_real_number.cc:75-99`. -/
def Atom.arfLong : Atom → ℕ → Out ℚ
  | .random d, prec => d.arfLong prec
  | .constrained m e inner, prec => do
    let necessary ← long (prec + 1)
    let initial := Arf.ofMantissaExponent m e
    let digits ← long (Arf.bits initial)
    let missing ← long (necessary - digits)
    if 0 < missing then do
      let p ← long (missing - 1)
      let additional ← inner.arfLong p.toNat
      let shift ← long (e - 1)
      .ok (Arf.round .near necessary (Arf.round .near necessary (initial + Arf.shiftLeft additional shift)))
    else .ok (Arf.round .near necessary initial)

namespace RN
variable (atoms : Atoms)

/-- The multiplication loops of `RealNumberProduct::arf_`, `src/real_number_product.cc:534-537`.  (All the calls for one factor return the same.) -/
def prodLong (w : ℕ) : ℚ → Mono → Out ℚ
  | ret, [] => .ok ret
  | ret, (i, k) :: m => do
    let a ← (atoms i).arfLong w
    prodLong w (mulLoop w a k ret) m

/-- `arf_`, `src/rational_real_number.cc:42-46`, `src/real_number_product.cc:519-553`; `totalDegree()` is an `int`, see `Verif/Model/Overflow.lean`. -/
def arfLong (prec : ℕ) : RN → Out ℚ
  | rat q => .ok (Arf.round .near (if prec = 0 then 1 else prec) ((q.num : ℚ) / q.den))
  | atom i => (atoms i).arfLong prec
  | prod m => do
    let n := (m.map Prod.snd).sum
    let double ← long (n * 2)
    let less ← long ((n : ℤ) - 1)
    let factors ← long (double + less)
    let w ← long (prec + Nat.clog 2 (factors + 1).toNat)
    let ret ← prodLong atoms w.toNat 1 m
    let p ← long (prec + 1)
    .ok (Arf.round .near p ret)

/-- `RealNumber::refine`, `src/real_number.cc:63-77`: `fmpz_get_si` is undefined for an exponent that does not fit; `arf_t()[0].exp` is `logb + 1`. -/
def refineLong (x : RN) (b : Ball) (prec : ℕ) : Out Ball :=
  if b.hasAccuracy prec then .ok b
  else do
    let midpoint ← x.arfLong atoms prec
    let exp ← long (Arf.logb midpoint + 1)
    let logb ← long (exp - 1)
    let p ← long (prec + 1)
    let e ← long (logb - p)
    .ok ⟨midpoint, some (2 ^ e)⟩

/-- `RealNumber::arb`, `src/real_number.cc:79-83`. -/
def arbLong (x : RN) (prec : ℕ) : Out Ball := x.refineLong atoms Ball.zeroPmInf prec

/-- The loop of `operator<(const RealNumber&)`, `src/real_number.cc:105-112`. -/
def ltLoopLong (x y : RN) : (fuel prec : ℕ) → (self other : Ball) → Out Bool
  | 0, _, _, _ => .pending
  | fuel + 1, prec, self, other => do
    let self ← x.refineLong atoms self prec
    let other ← y.refineLong atoms other prec
    match self.lt other with
    | some r => .ok r
    | none => do
      let p ← long (prec * 2)
      ltLoopLong x y fuel p.toNat self other

/-- `RealNumber::operator<(const RealNumber&)`, `src/real_number.cc:99-113`. -/
def ltRNLong (fuel : ℕ) (x y : RN) : Out Bool :=
  if x = y then .ok false else ltLoopLong atoms x y fuel 2 Ball.zeroPmInf Ball.zeroPmInf

end RN

namespace Elt
variable {P : Type} [DecidableEq P] {R : Type} [CommRing R] [DecidableEq R] [CRing P R]
variable (atoms : Atoms) (F : Arith) (coeff : ℕ → R → Ball)

/-- The sum over the generators, `src/element.cc:199-201`. -/
def arbSumLong (prec : ℕ) : Ball → List (RN × R) → Out Ball
  | ret, [] => .ok ret
  | ret, (g, c) :: rest => do
    let b ← g.arbLong atoms prec
    arbSumLong prec (F.add prec ret (F.mul prec b (coeff prec c))) rest

/-- The loop of `Element::arb`, `src/element.cc:197-206`. -/
def arbLoopLong (accuracy : ℕ) (ts : List (RN × R)) : (fuel prec : ℕ) → Out Ball
  | 0, _ => .pending
  | fuel + 1, prec => do
    let ret ← arbSumLong atoms F coeff prec (Ball.exact 0) ts
    if ret.hasAccuracy accuracy then .ok ret
    else do
      let p ← long (prec * 2)
      arbLoopLong accuracy ts fuel p.toNat

/-- `Element::arb`, `src/element.cc:189-207`, for a non-negative accuracy. -/
def arbLong (fuel accuracy : ℕ) (x : Elt P R) : Out Ball :=
  if !x.toBool then .ok (Ball.exact 0)
  else do
    let prec ← long (accuracy + Nat.clog 2 x.mod.basis.length)
    arbLoopLong atoms F coeff accuracy x.terms fuel prec.toNat

/-- The loop of `lt`, `src/element.cc:90-103`; `op prec self` compares with the right hand side. -/
def ltLoopLong (op : ℕ → Ball → Out (Option Bool)) (self : ℕ → Out Ball) : (fuel prec : ℕ) → Out Bool
  | 0, _ => .pending
  | fuel + 1, prec => do
    let self' ← self prec
    let lt ← op prec self'
    match lt with
    | some r => .ok r
    | none => do
      let p ← long (prec * 2)
      ltLoopLong op self fuel p.toNat

/-- `Element < Element`, `src/element.cc:87-104,568-571`. -/
def ltLong [Build] (fuel : ℕ) (x y : Elt P R) : Out Bool := do
  if (← x.eq y) then .ok false
  else ltLoopLong (fun prec self => do
    let other ← y.arbLong atoms F coeff fuel prec
    .ok (self.lt other)) (fun prec => x.arbLong atoms F coeff fuel prec) fuel 64

/-- `Element < RealNumber`, `src/element.cc:87-104`. -/
def ltRNLong [Build] (fuel : ℕ) (x : Elt P R) (y : RN) : Out Bool := do
  if (← x.eqRN y) then .ok false
  else ltLoopLong (fun prec self => do
    let other ← y.arbLong atoms prec
    .ok (self.lt other)) (fun prec => x.arbLong atoms F coeff fuel prec) fuel 64

/-- `Element < mpq_class`, `src/element.cc:87-104`. -/
def ltQLong (fuel : ℕ) (x : Elt P R) (q : ℚ) : Out Bool :=
  if x.eqQ q then .ok false
  else ltLoopLong (fun _ self => .ok (self.ltQ F q)) (fun prec => x.arbLong atoms F coeff fuel prec) fuel 64

/-- The loops of `floor` and `ceil`, `src/element.cc:545-551,559-565`. -/
def roundLoopLong (round : ℚ → ℤ) (self : ℕ → Out Ball) : (fuel prec : ℕ) → Out ℤ
  | 0, _ => .pending
  | fuel + 1, prec => do
    let approximation ← self prec
    let (lower, upper) ← approximation.interval
    if round lower = round upper then .ok (round lower)
    else do
      let p ← long (prec * 2)
      roundLoopLong round self fuel p.toNat

/-- `Element::floor`, `src/element.cc:540-552`. -/
def floorLong (fuel : ℕ) (x : Elt P R) : Out ℤ :=
  match x.integer? with
  | some n => .ok n
  | none => roundLoopLong Arf.floor (fun prec => x.arbLong atoms F coeff fuel prec) fuel 64

/-- `Element::ceil`, `src/element.cc:554-566`. -/
def ceilLong (fuel : ℕ) (x : Elt P R) : Out ℤ :=
  match x.integer? with
  | some n => .ok n
  | none => roundLoopLong Arf.ceil (fun prec => x.arbLong atoms F coeff fuel prec) fuel 64

end Elt

end ExactReal
