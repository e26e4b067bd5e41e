import Verif.Model.ElementHeap
import Verif.Model.ElementApprox

/-!
# Approximations and the order in a running process

The functions of `Verif/Model/Approx.lean`, `Verif/Model/Ball.lean` and `Verif/Model/ElementApprox.lean` on objects: the digits of a number are found by
following pointers, at the time when they are needed.  Each approximation of a real number (`arf`) is one atomic step, see `Act`; between two of them anything
may happen in the process.  The cache of approximations is not part of this model (see `Verif/Model/ArfCache.lean`).
-/

namespace ExactReal.Heap

/-- `ConstrainedRandomRealNumber::arf_`, `src/constrained_random_real_number.cc:75-99`, with the members `initial` and `e` of the object and the digits of `inner`. -/
def arfFrom (initial : ℚ) (e : ℤ) (inner : Digits) (prec : ℕ) : ℚ :=
  let missing : ℤ := ((prec : ℤ) + 1) - Arf.bits initial
  let ret := if 0 < missing then
      Arf.round .near (prec + 1) (initial + Arf.shiftLeft (inner.arf (missing - 1).toNat) (e - 1))
    else initial
  Arf.round .near (prec + 1) ret

namespace State
variable (gen : Generators) (s : State)

/-- `RandomRealNumber::arf_`, `src/random_real_number.cc:66-92`; undefined if the object does not exist anymore.  (`inner` and the factors of products are
never anything else than random numbers.) -/
def arfRandom (prec : ℕ) (p : Ptr) : Out ℚ :=
  match s.live p with
  | some ⟨_, _, .random seed⟩ => .ok ((gen.digits seed).arf prec)
  | _ => .ub

/-- The digits of `inner`. -/
def innerDigits (p : Ptr) : Out Digits :=
  match s.live p with
  | some ⟨_, _, .random seed⟩ => .ok (gen.digits seed)
  | _ => .ub

/-- `arf_` of an atom, `src/random_real_number.cc:66-92`, `src/constrained_random_real_number.cc:75-99`. -/
def arfAtom (prec : ℕ) (p : Ptr) : Out ℚ :=
  match s.live p with
  | some ⟨_, _, .constrained initial e inner⟩ => do
    let d ← s.innerDigits gen inner
    .ok (arfFrom initial e d prec)
  | _ => s.arfRandom gen prec p

/-- The multiplication loops of `RealNumberProduct::arf_`, `src/real_number_product.cc:534-537`. -/
def prodLoop (w : ℕ) : ℚ → List (Ptr × ℕ) → Out ℚ
  | ret, [] => .ok ret
  | ret, (p, n) :: rest => do
    let a ← s.arfAtom gen w p
    prodLoop w (mulLoop w a n ret) rest

/-- `arf`, `src/real_number.cc:195-219`, and `arf_`: `src/rational_real_number.cc:42-46`, `src/random_real_number.cc:66-92`, `src/constrained_random_real_number.cc:75-99`,
`src/real_number_product.cc:519-553`. -/
def arf (prec : ℕ) (p : Ptr) : Out ℚ :=
  match s.live p with
  | some ⟨_, _, .rational q⟩ => .ok (Arf.round .near (if prec = 0 then 1 else prec) ((q.num : ℚ) / q.den))
  | some ⟨_, _, .product f _⟩ => do
    let ret ← s.prodLoop gen (workingPrec prec (f.map Prod.snd).sum) 1 f
    .ok (Arf.round .near (prec + 1) ret)
  | _ => s.arfAtom gen prec p

/-- `RealNumber::refine`, `src/real_number.cc:63-77`, see `RN.refine`. -/
def refine (p : Ptr) (b : Ball) (prec : ℕ) : Out Ball :=
  if b.hasAccuracy prec then .ok b
  else do
    let midpoint ← s.arf gen prec p
    .ok ⟨midpoint, some (2 ^ (Arf.logb midpoint - (prec + 1)))⟩

/-- `RealNumber::arb`, `src/real_number.cc:79-83`. -/
def arb (p : Ptr) (prec : ℕ) : Out Ball := s.refine gen p Ball.zeroPmInf prec

end State

/-! ### Real numbers -/

variable {P : Type}

namespace Num
variable (gen : Generators) (F : Arith)

/-- `operator std::optional<mpq_class>`, `src/rational_real_number.cc:48-50`, `src/random_real_number.cc:94-96`. -/
def rational? (p : Ptr) : Act P (Option ℚ) := Act.look fun st =>
  match st.base.live p with
  | some ⟨_, _, .rational q⟩ => .ok (some q)
  | some _ => .ok none
  | none => .ub

/-- `RealNumber::refine`, `src/real_number.cc:63-77`. -/
def refine (p : Ptr) (b : Ball) (prec : ℕ) : Act P Ball := Act.look fun st => st.base.refine gen p b prec

/-- The loop of `operator<(const RealNumber&)`, `src/real_number.cc:105-112`. -/
def ltLoop (p q : Ptr) : (fuel prec : ℕ) → (self other : Ball) → Act P Bool
  | 0, _, _, _ => .ret .pending
  | fuel + 1, prec, self, other => do
    let self ← refine gen p self prec
    let other ← refine gen q other prec
    match self.lt other with
    | some r => return r
    | none => ltLoop p q fuel (prec * 2) self other

/-- `RealNumber::operator<(const RealNumber&)`, `src/real_number.cc:99-113`. -/
def lt (fuel : ℕ) (p q : Ptr) : Act P Bool := do
  let same ← Act.look fun st => .ok (st.base.same p q)
  if same then return false else ltLoop gen p q fuel 2 Ball.zeroPmInf Ball.zeroPmInf

/-- The loops of `operator<(const mpq_class&)` and `operator>(const mpq_class&)`, `src/real_number.cc:169-174,183-188`. -/
def cmpQLoop (p : Ptr) (op : Ball → Option Bool) : (fuel prec : ℕ) → Act P Bool
  | 0, _ => .ret .pending
  | fuel + 1, prec => do
    let b ← refine gen p Ball.zeroPmInf prec
    match op b with
    | some r => return r
    | none => cmpQLoop p op fuel (prec * 2)

/-- `RealNumber::operator<(const mpq_class&)`, `src/real_number.cc:163-175`. -/
def ltQ (fuel : ℕ) (p : Ptr) (q : ℚ) : Act P Bool := do
  let rational ← rational? p
  match rational with
  | some r => return (r < q : Bool)
  | none => cmpQLoop gen p (fun b => b.ltQ F q) fuel 64

/-- `RealNumber::operator>(const mpq_class&)`, `src/real_number.cc:177-189`. -/
def gtQ (fuel : ℕ) (p : Ptr) (q : ℚ) : Act P Bool := do
  let rational ← rational? p
  match rational with
  | some r => return (q < r : Bool)
  | none => cmpQLoop gen p (fun b => b.gtQ F q) fuel 64

end Num

/-! ### Elements -/

variable [DecidableEq P] {R : Type} [CommRing R] [DecidableEq R] [CRing P R]

namespace HElt

section
variable (gen : Generators) (F : Arith) (coeff : ℕ → R → Ball)

/-- The sum over the generators, `src/element.cc:199-201`. -/
def arbSum (prec : ℕ) : Ball → List (Ptr × R) → Act P Ball
  | ret, [] => return ret
  | ret, (g, c) :: rest => do
    let b ← Num.refine gen g Ball.zeroPmInf prec
    arbSum prec (F.add prec ret (F.mul prec b (coeff prec c))) rest

/-- The loop of `Element::arb`, `src/element.cc:197-206`. -/
def arbLoop (accuracy : ℕ) (ts : List (Ptr × R)) : (fuel prec : ℕ) → Act P Ball
  | 0, _ => .ret .pending
  | fuel + 1, prec => do
    let ret ← arbSum gen F coeff prec (Ball.exact 0) ts
    if ret.hasAccuracy accuracy then return ret else arbLoop accuracy ts fuel (prec * 2)

/-- `Element::arb`, `src/element.cc:189-207`. -/
def arb (fuel accuracy : ℕ) (x : HElt R) : Act P Ball :=
  if !x.toBool then return Ball.exact 0
  else do
    let o ← Act.deref x.mod
    arbLoop gen F coeff accuracy (o.basis.zip x.coeffs) fuel (accuracy + Nat.clog 2 o.basis.length)

/-- The loop of `lt`, `src/element.cc:90-103`. -/
def ltLoop (op : ℕ → Ball → Act P (Option Bool)) (self : ℕ → Act P Ball) : (fuel prec : ℕ) → Act P Bool
  | 0, _ => .ret .pending
  | fuel + 1, prec => do
    let self' ← self prec
    let lt ← op prec self'
    match lt with
    | some r => return r
    | none => ltLoop op self fuel (prec * 2)

/-- `operator std::optional<mpq_class>`, `src/element.cc:744-764`. -/
def rational? (x : HElt R) : Act P (Option ℚ) := do
  let o ← Act.deref x.mod
  Act.look fun st => .ok (Elt.rationalLoop P 0 ((o.basis.map st.base.rn).zip x.coeffs))

/-- `operator std::optional<mpz_class>`, `src/element.cc:734-742`. -/
def integer? (x : HElt R) : Act P (Option ℤ) := do
  let rational ← rational? (P := P) x
  match rational with
  | some q => return (if q.den = 1 then some q.num else none)
  | none => return none

/-- The loop of `operator==(const RealNumber&)`, `src/element.cc:786-800`. -/
def eqRNLoop (s : State) (at_ : Ptr) : List (Ptr × R) → Bool
  | [] => true
  | (g, c) :: rest =>
    if c = 0 then (if s.same g at_ then false else eqRNLoop s at_ rest)
    else if c = 1 then (if !s.same g at_ then false else eqRNLoop s at_ rest)
    else false

/-- `operator==(const RealNumber&)`, `src/element.cc:776-801`. -/
def eqRN [Build] (x : HElt R) (rhs : Ptr) : Act P Bool :=
  if !x.toBool then do
    let rational ← Num.rational? rhs
    return (rational = some 0 : Bool)
  else do
    let o ← Act.deref x.mod
    let found ← Act.look fun st => .ok (o.basis.any fun g => st.base.same g rhs)
    let _ ← Act.ret (checkArgument found)
    Act.look fun st => .ok (eqRNLoop st.base rhs (o.basis.zip x.coeffs))

/-- `Element < Element`, `src/element.cc:87-104,568-571`. -/
def lt [Build] (fuel : ℕ) (x y : HElt R) : Act P Bool := do
  let equal ← x.eq (P := P) y
  if equal then return false
  else ltLoop (fun prec self => do
    let other ← y.arb gen F coeff fuel prec
    return self.lt other) (fun prec => x.arb gen F coeff fuel prec) fuel 64

/-- `Element < RealNumber`, `src/element.cc:87-104`. -/
def ltRN [Build] (fuel : ℕ) (x : HElt R) (y : Ptr) : Act P Bool := do
  let equal ← x.eqRN (P := P) y
  if equal then return false
  else ltLoop (fun prec self => do
    let other ← Num.refine gen y Ball.zeroPmInf prec
    return self.lt other) (fun prec => x.arb gen F coeff fuel prec) fuel 64

/-- `Element < mpq_class`, `src/element.cc:87-104`. -/
def ltQ (fuel : ℕ) (x : HElt R) (q : ℚ) : Act P Bool := do
  let rational ← x.rational? (P := P)
  if rational = some q then return false
  else ltLoop (fun _ self => return self.ltQ F q) (fun prec => x.arb gen F coeff fuel prec) fuel 64

/-- `Element < n` for `mpz_class` and the integer types, `src/element.cc:87-104`. -/
def ltZ (fuel : ℕ) (x : HElt R) (n : ℤ) : Act P Bool := do
  let rational ← x.rational? (P := P)
  if rational = some (n : ℚ) then return false
  else ltLoop (fun _ self => return self.lt (Ball.exact n)) (fun prec => x.arb gen F coeff fuel prec) fuel 64

/-- `Element > n` for `mpz_class` and the integer types, `src/element.cc:106-111`. -/
def gtZ (fuel : ℕ) (x : HElt R) (n : ℤ) : Act P Bool := do
  let rational ← x.rational? (P := P)
  if rational = some (n : ℚ) then return false
  else do
    let r ← x.ltZ (P := P) gen F coeff fuel n
    return !r

/-- The loops of `floor` and `ceil`, `src/element.cc:545-551,559-565`. -/
def roundLoop (round : ℚ → ℤ) (self : ℕ → Act P Ball) : (fuel prec : ℕ) → Act P ℤ
  | 0, _ => .ret .pending
  | fuel + 1, prec => do
    let approximation ← self prec
    let (lower, upper) ← Act.ret approximation.interval
    if round lower = round upper then return (round lower) else roundLoop round self fuel (prec * 2)

/-- `Element::floor`, `src/element.cc:540-552`. -/
def floor (fuel : ℕ) (x : HElt R) : Act P ℤ := do
  let integer ← x.integer? (P := P)
  match integer with
  | some n => return n
  | none => roundLoop Arf.floor (fun prec => x.arb gen F coeff fuel prec) fuel 64

/-- `Element::ceil`, `src/element.cc:554-566`. -/
def ceil (fuel : ℕ) (x : HElt R) : Act P ℤ := do
  let integer ← x.integer? (P := P)
  match integer with
  | some n => return n
  | none => roundLoop Arf.ceil (fun prec => x.arb gen F coeff fuel prec) fuel 64

/-- The loop of `operator double`, `src/element.cc:837-846`. -/
def doubleLoop (self : ℕ → Act P Ball) : (fuel prec : ℕ) → Act P Double
  | 0, _ => .ret .pending
  | fuel + 1, prec => do
    let a ← self prec
    let (lower, upper) ← Act.ret a.interval
    if Double.ofArf lower = Double.ofArf upper then return (Double.ofArf lower) else doubleLoop self fuel (prec * 2)

/-- `Element::operator double`, `src/element.cc:808-847`. -/
def toDouble (fuel : ℕ) (x : HElt R) : Act P Double := do
  let rational ← x.rational? (P := P)
  match rational with
  | some q => return (Double.ofArf (Arf.round .near 53 q))
  | none => doubleLoop (fun prec => x.arb gen F coeff fuel prec) fuel 55

/-- The loop of `floordiv`, `src/element.cc:507-519`, see `Elt.floordivLoop`. -/
def floordivLoop (self rhs : ℕ → Act P Ball) : (fuel prec : ℕ) → Act P ℤ
  | 0, _ => .ret .pending
  | fuel + 1, prec => do
    let div ← rhs prec
    match div.ne (Ball.exact 0) with
    | none => floordivLoop self rhs fuel (prec * 2)
    | some false => .ret .ub
    | some true => do
      let dividend ← self prec
      let (lower, upper) ← Act.ret (F.div prec dividend div).interval
      if Arf.floor lower = Arf.floor upper then return (Arf.floor lower) else floordivLoop self rhs fuel (prec * 2)

/-- `floordiv` for elements of the same module, `src/element.cc:469-470,477-520`. -/
def floordivSame (fuel : ℕ) (x rhs : HElt R) : Act P ℤ :=
  if !x.toBool then return 0
  else match Elt.exactLoop P none (x.coeffs.zip rhs.coeffs) with
    | some n => return n
    | none => floordivLoop F (fun prec => x.arb gen F coeff fuel prec) (fun prec => rhs.arb gen F coeff fuel prec) fuel 64

/-- `Element::floordiv`, `src/element.cc:467-520`. -/
def floordiv [Build] (fuel : ℕ) (x rhs : HElt R) : Act P ℤ :=
  if !x.toBool then return 0
  else do
    let same ← Act.look fun st => .ok (st.sameModule x.mod rhs.mod)
    if same then floordivSame gen F coeff fuel x rhs
    else do
      let parent ← span (P := P) x.mod rhs.mod
      let x' ← x.promote (P := P) parent
      let rhs' ← rhs.promote (P := P) parent
      floordivSame gen F coeff fuel x' rhs'

end

end HElt

end ExactReal.Heap
