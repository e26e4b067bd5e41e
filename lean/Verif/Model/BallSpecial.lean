import Verif.Model.ArfSpecial
import Verif.Model.Ball

/-!
# `Arb` with infinities and NaN

`Verif/Model/Ball.lean` models the balls with a finite midpoint.  Here are the comparisons, conversions and constants of `Arb` for all its values.
-/

namespace ExactReal

/-- A value of `arb_t`: a midpoint and a radius; `rad = none` is an infinite radius. -/
structure XBall where
  mid : XArf
  rad : Option ℚ
  deriving DecidableEq

/-- A built-in integer type of C++: whether it is signed, and how many bits it has. -/
structure IntType where
  signed : Bool
  bits : ℕ
  deriving DecidableEq

namespace IntType

/-- `std::numeric_limits<T>::min()`. -/
def min (t : IntType) : ℤ := if t.signed then -2 ^ (t.bits - 1) else 0
/-- `std::numeric_limits<T>::max()`. -/
def max (t : IntType) : ℤ := if t.signed then 2 ^ (t.bits - 1) - 1 else 2 ^ t.bits - 1

/-- `static_cast<T>(n)` between integer types: reduction modulo `2 ^ bits`. -/
def cast (t : IntType) (n : ℤ) : ℤ := if t.signed then n.bmod (2 ^ t.bits) else n % 2 ^ t.bits

/-- What `to_supported_integer` returns: an `slong` or `ulong`, or a `gmpxxll::mpz_class`. -/
inductive Supported
  | long (t : IntType) (value : ℤ)
  | mpz (value : ℤ)
  deriving DecidableEq

/-- `to_supported_integer`, `src/arb.cc:47-58`; `longBits` is the size of `slong` and `ulong`. -/
def toSupported (longBits : ℕ) (t : IntType) (value : ℤ) : Supported :=
  let long : IntType := ⟨t.signed, longBits⟩
  if long.min ≤ t.min ∧ t.max ≤ long.max then .long long (long.cast value) else .mpz value

end IntType

namespace XBall

/-- `Arb(const Arf&)`, `src/arb.cc:79-81`. -/
def ofArf (x : XArf) : XBall := ⟨x, some 0⟩

/-- `Arb(const mpz_class&)` and `operator=(const mpz_class&)`, `src/arb.cc:92-97,307-313`. -/
def ofMpz (n : ℤ) : XBall := ⟨.fin n, some 0⟩

/-- `operator=(Integer)`, `src/arb.cc:294-305`, for an integer of type `t`: `arb_set_si` and `arb_set_ui` are exact for all `slong` and `ulong`. -/
def assignInt (longBits : ℕ) (t : IntType) (x : ℤ) : XBall :=
  match t.toSupported longBits x with
  | .long _ n => ⟨.fin n, some 0⟩
  | .mpz n => ofMpz n

/-- `Arb(Integer)`, `src/arb.cc:63-66`: the converted integer is assigned, which converts it again if it is an `slong` or `ulong`. -/
def ofInt (longBits : ℕ) (t : IntType) (x : ℤ) : XBall :=
  match t.toSupported longBits x with
  | .long t n => assignInt longBits t n
  | .mpz n => ofMpz n

/-- `Arb::zero`, `src/arb.cc:123-125`. -/
def zero : XBall := ⟨.fin 0, some 0⟩
/-- `Arb::one`, `src/arb.cc:127-129`: `Arb(1)` for an `int`. -/
def one : XBall := ofInt 64 ⟨true, 32⟩ 1
/-- `Arb::pos_inf`, `src/arb.cc:131-133`: `1. / 0.` is the double `inf`. -/
def posInf : XBall := ofArf (.ofDouble (.num .posInf))
/-- `Arb::neg_inf`, `src/arb.cc:135-137`. -/
def negInf : XBall := ofArf (.ofDouble (.num .negInf))
/-- `Arb::zero_pm_one`, `src/arb.cc:139-143`. -/
def zeroPmOne : XBall := ⟨.fin 0, some 1⟩
/-- `Arb::zero_pm_inf`, `src/arb.cc:145-149`. -/
def zeroPmInf : XBall := ⟨.fin 0, none⟩
/-- `Arb::indeterminate`, `src/arb.cc:151-155`. -/
def indeterminate : XBall := ⟨.nan, none⟩
/-- `Arb::unit_interval`, `src/arb.cc:157-161`. -/
def unitInterval : XBall := ⟨.fin (1 / 2), some (1 / 2)⟩

/-- `Arb::is_exact`, `src/arb.cc:167`: the radius is zero. -/
def isExact (a : XBall) : Bool := a.rad = some 0

/-- `Arb::is_finite`, `src/arb.cc:169`: midpoint and radius are finite. -/
def isFinite (a : XBall) : Bool :=
  match a.mid, a.rad with
  | .fin _, some _ => true
  | _, _ => false

/-- `Arb::operator-`, `src/arb.cc:171-175`. -/
def neg (a : XBall) : XBall := ⟨a.mid.neg, a.rad⟩

/-- The lower end of a ball on the extended real line, for `arb_lt` and the like. -/
def lower (a : XBall) : XArf :=
  match a.mid, a.rad with
  | .fin m, some r => .fin (m - r)
  | x, some _ => x
  | _, none => .negInf

/-- The upper end of a ball on the extended real line, for `arb_lt` and the like. -/
def upper (a : XBall) : XArf :=
  match a.mid, a.rad with
  | .fin m, some r => .fin (m + r)
  | x, some _ => x
  | _, none => .posInf

/-- Is the midpoint NaN?  All the comparisons of FLINT answer 0 then. -/
def isNaN (a : XBall) : Bool := a.mid = .nan

/-- `arb_lt` of FLINT. "The balls x and y are viewed as subintervals of the extended real line." -/
def allLt (a b : XBall) : Bool := !a.isNaN && !b.isNaN && XArf.cmp a.upper b.lower < 0

/-- `arb_le` of FLINT. -/
def allLe (a b : XBall) : Bool := !a.isNaN && !b.isNaN && XArf.cmp a.upper b.lower ≤ 0

/-- `arb_eq` of FLINT: both balls consist of the same single point. -/
def allEq (a b : XBall) : Bool :=
  match a.mid, a.rad, b.mid, b.rad with
  | .fin m, some r, .fin n, some s => r = 0 && s = 0 && m = n
  | .posInf, some _, .posInf, some _ => true
  | .negInf, some _, .negInf, some _ => true
  | _, _, _, _ => false

/-- `arb_ne` of FLINT: the balls do not overlap. -/
def allNe (a b : XBall) : Bool := allLt a b || allLt b a

/-- `Arb::operator<`, `src/arb.cc:177-185`. -/
def lt (a b : XBall) : Option Bool := if allLt a b then some true else if allLe b a then some false else none
/-- `Arb::operator>`, `src/arb.cc:187-195`. -/
def gt (a b : XBall) : Option Bool := if allLt b a then some true else if allLe a b then some false else none
/-- `Arb::operator<=`, `src/arb.cc:197-204`. -/
def le (a b : XBall) : Option Bool :=
  match gt a b with
  | some r => some !r
  | none => none
/-- `Arb::operator>=`, `src/arb.cc:206-213`. -/
def ge (a b : XBall) : Option Bool :=
  match lt a b with
  | some r => some !r
  | none => none
/-- `Arb::operator==`, `src/arb.cc:215-223`. -/
def eq (a b : XBall) : Option Bool := if allEq a b then some true else if allNe a b then some false else none
/-- `Arb::operator!=`, `src/arb.cc:225-232`. -/
def ne (a b : XBall) : Option Bool :=
  match eq a b with
  | some r => some !r
  | none => none

/-- `Arb::equal`, `src/arb.cc:234`: `arb_equal` compares midpoints and radii. -/
def equal (a b : XBall) : Bool := a = b

/-- The comparisons with an integer, `src/arb.cc:236-252`: the integer is converted to a ball. -/
def cmpInt (op : XBall → XBall → Option Bool) (longBits : ℕ) (t : IntType) (a : XBall) (n : ℤ) : Option Bool := op a (ofInt longBits t n)

/-- `operator Arf`, `src/arb.cc:323-327`. -/
def toArf (a : XBall) : XArf := a.mid

/-- `operator double`, `src/arb.cc:321`: `arf_get_d` of the midpoint, rounding to nearest. -/
def toDouble (a : XBall) : XDouble := a.mid.toDouble

end XBall
end ExactReal
