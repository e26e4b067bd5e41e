import Verif.Model.ArfSpecial
import Verif.Model.Text

/-!
# How streams write doubles

`os << double` with the default settings of a `std::ostream` (`std::defaultfloat`, precision 6, the C locale) writes what `printf("%.6g")` writes.  The
conversion is the one of the GNU C library: the exact value of the double is rounded to the nearest decimal number with that many significant digits, ties
go to the even one.

Simplification: a zero has no sign here.  (`arf_get_d` rounds tiny negative numbers to `-0.0`, which is written as `-0`.)
-/

namespace ExactReal.Format
open Text

/-- The decimal representation `m * 10^(e - (P - 1))` of a positive number rounded to `P` significant digits, `10^(P - 1) ≤ m < 10^P`. -/
def decimal (P : ℕ) (x : ℚ) : ℕ × ℤ :=
  let e := Int.log 10 x
  let m := (nearInt (x / 10 ^ (e - ((P : ℤ) - 1)))).toNat
  if m = 10 ^ P then (10 ^ (P - 1), e + 1) else (m, e)

/-- The `n` lowest decimal digits of `m`, the most significant one first. -/
def digitsOf (n m : ℕ) : Str := (List.range n).reverse.map fun i => digitChar (m / 10 ^ i % 10)

/-- Without the zeros at the end. -/
def stripZeros (s : Str) : Str := (s.reverse.dropWhile (· = '0')).reverse

/-- The digits behind the point, no point if there are none. -/
def fraction (s : Str) : Str := if stripZeros s = [] then [] else '.' :: stripZeros s

/-- The exponent: a sign and at least two digits. -/
def exponent (e : ℤ) : Str := 'e' :: (if e < 0 then '-' else '+') :: ((if e.natAbs < 10 then ['0'] else []) ++ getStr 10 e.natAbs)

/-- `%.Pg` for a positive number: scientific notation if the decimal exponent is smaller than -4 or at least `P`, otherwise a decimal fraction. -/
def positive (P : ℕ) (x : ℚ) : Str :=
  let d := decimal P x
  let s := digitsOf P d.1
  if d.2 < -4 ∨ (P : ℤ) ≤ d.2 then s.take 1 ++ fraction (s.drop 1) ++ exponent d.2
  else if 0 ≤ d.2 then s.take (d.2.toNat + 1) ++ fraction (s.drop (d.2.toNat + 1))
  else '0' :: fraction (List.replicate (-d.2 - 1).toNat '0' ++ s)

/-- `%.Pg`. -/
def double (P : ℕ) : XDouble → Str
  | .num (.fin q) => if q = 0 then ['0'] else if q < 0 then '-' :: positive P (-q) else positive P q
  | .num .posInf => "inf".toList
  | .num .negInf => "-inf".toList
  | .nan => "nan".toList

/-- What a stream writes whose precision has been set to `P` (`std::setprecision`). -/
def stream (P : ℕ) : XArf.Format := ⟨double P, getStr 10⟩

/-- What a stream with the default settings writes. -/
def default : XArf.Format := stream 6

end ExactReal.Format
