import Verif.Model.Double

/-!
# `Arf` with infinities and NaN

Everywhere else in the model an `Arf` is a finite number; here are the operations of `Arf` for all its values.  `arf_t` has a unique representation
of every value, so two `Arf`s that `arf_equal` identifies are the same value of the model.
-/

namespace ExactReal

/-- A value of `arf_t`; the finite ones are dyadic rationals. -/
inductive XArf
  | fin (q : ℚ)
  | posInf
  | negInf
  | nan
  deriving DecidableEq

/-- A value of type `double`. The two zeros are not distinguished. -/
inductive XDouble
  | num (d : Double)
  | nan
  deriving DecidableEq

namespace XArf

/-- `arf_cmp` of FLINT.  Its documentation leaves the comparison with NaN undefined; the implementation answers 0 then. -/
def cmp : XArf → XArf → ℤ
  | nan, _ => 0
  | _, nan => 0
  | fin a, fin b => if a < b then -1 else if b < a then 1 else 0
  | fin _, posInf => -1
  | fin _, negInf => 1
  | posInf, posInf => 0
  | posInf, _ => 1
  | negInf, negInf => 0
  | negInf, _ => -1

/-- `operator==`, `src/arf.cc:137`: `arf_equal` compares the representation; NaN is equal to itself. -/
def eq (a b : XArf) : Bool := a = b

/-- `operator<`, `src/arf.cc:135`. -/
def lt (a b : XArf) : Bool := cmp a b < 0

/-- `operator!=`, from `boost::totally_ordered<Arf>`, `exact-real/arf.hpp:80`. -/
def ne (a b : XArf) : Bool := !eq a b
/-- `operator>`, from `boost::totally_ordered<Arf>`: `b < a`. -/
def gt (a b : XArf) : Bool := lt b a
/-- `operator<=`, from `boost::totally_ordered<Arf>`: `!(b < a)`. -/
def le (a b : XArf) : Bool := !lt b a
/-- `operator>=`, from `boost::totally_ordered<Arf>`: `!(a < b)`. -/
def ge (a b : XArf) : Bool := !lt a b

/-- `operator==(long)`, `src/arf.cc:143`. -/
def eqLong (a : XArf) (n : ℤ) : Bool := a = fin n
/-- `operator<(long)`, `src/arf.cc:139`: `arf_cmp_si` compares like `arf_cmp`. -/
def ltLong (a : XArf) (n : ℤ) : Bool := cmp a (fin n) < 0
/-- `operator>(long)`, `src/arf.cc:141`. -/
def gtLong (a : XArf) (n : ℤ) : Bool := cmp a (fin n) > 0
/-- `operator<=(long)`, from `boost::totally_ordered<Arf, long>`, `exact-real/arf.hpp:80`: `!(a > n)`. -/
def leLong (a : XArf) (n : ℤ) : Bool := !gtLong a n
/-- `operator>=(long)`, from `boost::totally_ordered<Arf, long>`: `!(a < n)`. -/
def geLong (a : XArf) (n : ℤ) : Bool := !ltLong a n
/-- `n < a`, from `boost::totally_ordered<Arf, long>`: `a > n`. -/
def longLt (n : ℤ) (a : XArf) : Bool := gtLong a n
/-- `n > a`, from `boost::totally_ordered<Arf, long>`: `a < n`. -/
def longGt (n : ℤ) (a : XArf) : Bool := ltLong a n
/-- `n <= a`, from `boost::totally_ordered<Arf, long>`: `!(a < n)`. -/
def longLe (n : ℤ) (a : XArf) : Bool := !ltLong a n
/-- `n >= a`, from `boost::totally_ordered<Arf, long>`: `!(a > n)`. -/
def longGe (n : ℤ) (a : XArf) : Bool := !gtLong a n

/-- `operator-`, `src/arf.cc:145-149`. -/
def neg : XArf → XArf
  | fin q => fin (-q)
  | posInf => negInf
  | negInf => posInf
  | nan => nan

/-- `abs`, `src/arf.cc:151-155`. -/
def abs : XArf → XArf
  | fin q => fin |q|
  | nan => nan
  | _ => posInf

/-- `Arf(double)` and `operator=(double)`, `src/arf.cc:91,123-126`: `arf_set_d` is exact. -/
def ofDouble : XDouble → XArf
  | .num (.fin q) => fin q
  | .num .posInf => posInf
  | .num .negInf => negInf
  | .nan => nan

/-- `operator double`, `src/arf.cc:101`. -/
def toDouble : XArf → XDouble
  | fin q => .num (Double.ofArf q)
  | posInf => .num .posInf
  | negInf => .num .negInf
  | nan => .nan

/-- `std::hash<Arf>`, `src/arf.cc:227-229`, for an arbitrary `std::hash<double>`. -/
def hash (hashDouble : XDouble → UInt64) (a : XArf) : UInt64 := hashDouble a.toDouble

/-- `floor`, `src/arf.cc:157-167`: `arf_get_fmpz` ends the process for infinities and NaN. -/
def floor : XArf → Out ℤ
  | fin q => .ok (Arf.floor q)
  | _ => .abort

/-- `ceil`, `src/arf.cc:169-179`. -/
def ceil : XArf → Out ℤ
  | fin q => .ok (Arf.ceil q)
  | _ => .abort

/-- How numbers are written: `double` is `os << double` (with the settings of the stream), `int` is `os << mpz_class`. -/
structure Format where
  double : XDouble → List Char
  int : ℤ → List Char

/-- `operator<<`, `src/arf.cc:201-217`. -/
def print (f : Format) : XArf → List Char
  | fin q =>
    if q = 0 then ['0']
    else if 0 ≤ Arf.exponent q then f.double (toDouble (fin q))
    else f.double (toDouble (fin q)) ++ ['='] ++ f.int (Arf.mantissa q) ++ ['p'] ++ f.int (Arf.exponent q)
  | posInf => "+∞".toList
  | negInf => "-∞".toList
  | nan => "NaN".toList

end XArf
end ExactReal
