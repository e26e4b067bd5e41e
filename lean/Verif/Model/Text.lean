import Verif.Model.BallSpecial
import Verif.Model.Outcome
import Mathlib.Data.Nat.Digits.Defs

/-!
# Numbers as text

In archives, integers and rationals are written as decimal strings (`mpz_class::get_str`, `mpq_class::get_str`), floating point numbers and balls
as strings of hexadecimal numbers (`arf_dump_str`, `arb_dump_str`).  Here is how GMP and FLINT write and parse these strings.

A `std::string` is modelled by its list of characters (ASCII, no embedded NUL).
-/

namespace ExactReal.Text

abbrev Str := List Char

/-- The digits of GMP: `0`-`9`, `a`-`z`. -/
def digitChar (n : ℕ) : Char := if n < 10 then Char.ofNat (48 + n) else Char.ofNat (87 + n)

/-- The table `__gmp_digit_value_tab` for bases up to 36. -/
def digitValue (c : Char) : ℕ :=
  if 48 ≤ c.toNat ∧ c.toNat ≤ 57 then c.toNat - 48
  else if 97 ≤ c.toNat ∧ c.toNat ≤ 122 then c.toNat - 87
  else if 65 ≤ c.toNat ∧ c.toNat ≤ 90 then c.toNat - 55
  else 255

/-- `isspace` in the C locale. -/
def isSpace (c : Char) : Bool := c.toNat = 32 || (9 ≤ c.toNat && c.toNat ≤ 13)

/-- `mpz_get_str`/`fmpz_get_str`: no leading zeros, a minus sign for negative numbers. -/
def getStr (base : ℕ) (z : ℤ) : Str :=
  (if z < 0 then ['-'] else []) ++ if z = 0 then ['0'] else ((Nat.digits base z.natAbs).reverse.map digitChar)

/-- The main loop of `mpz_set_str`: white space is skipped, other characters must be digits. -/
def setDigits (base : ℕ) : Str → ℕ → Option ℕ
  | [], n => some n
  | c :: cs, n =>
    if isSpace c then setDigits base cs n
    else if digitValue c < base then setDigits base cs (n * base + digitValue c)
    else none

/-- The base that `mpz_set_str` finds out from the first characters if it is called with base 0, and the remaining characters. -/
def detectBase : Str → ℕ × Str
  | '0' :: 'x' :: cs => (16, cs)
  | '0' :: 'X' :: cs => (16, cs)
  | '0' :: 'b' :: cs => (2, cs)
  | '0' :: 'B' :: cs => (2, cs)
  | '0' :: cs => (8, cs)
  | cs => (10, cs)

/-- Is there a minus sign? -/
def sign : Str → Bool × Str
  | '-' :: s => (true, s)
  | s => (false, s)

/-- `mpz_set_str` behind the sign: there must be at least one digit (of base 10 if the base is yet to be found out). -/
def setUnsigned (base : ℕ) : Str → Option ℕ
  | [] => none
  | c :: cs =>
    if digitValue c < (if base = 0 then 10 else base) then
      let x := if base = 0 then detectBase (c :: cs) else (base, c :: cs)
      setDigits x.1 x.2 0
    else none

/-- `mpz_set_str`/`fmpz_set_str`; `none` if it reports an error. -/
def setStr (base : ℕ) (s : Str) : Option ℤ :=
  let x := sign (s.dropWhile isSpace)
  (setUnsigned base x.2).map fun (n : ℕ) => if x.1 then -(n : ℤ) else (n : ℤ)

/-- `save_minimal` of an `mpz_class`, `exact-real/cereal.hpp:237-240`: base 10. -/
def saveMpz (z : ℤ) : Str := getStr 10 z

/-- `load_minimal` of an `mpz_class`, `exact-real/cereal.hpp:242-245`: the constructor is called with its default base 0 and throws
`std::invalid_argument` if `mpz_set_str` fails. -/
def loadMpz (s : Str) : Out ℤ :=
  match setStr 0 s with
  | some z => .ok z
  | none => .throws .invalidArgument

/-- The parts of a string before and after the first occurrence of a character (`strchr`). -/
def splitAt (c : Char) : Str → Option (Str × Str)
  | [] => none
  | d :: ds => if d = c then some ([], ds) else (splitAt c ds).map fun x => (d :: x.1, x.2)

/-- `save_minimal` of an `mpq_class`, `exact-real/cereal.hpp:227-230`, and `Cerealizer::save`, `exact-real/cereal.hpp:82-84`: numerator and
denominator, the latter is omitted if it is one (`mpq_get_str`). -/
def saveMpq (q : ℚ) : Str := getStr 10 q.num ++ if q.den = 1 then [] else '/' :: getStr 10 q.den

/-- `mpq_set_str`: numerator and denominator as they are written; nothing is canonicalized. -/
def mpqSetStr (base : ℕ) (s : Str) : Option (ℤ × ℤ) :=
  match splitAt '/' s with
  | none => (setStr base s).map fun n => (n, 1)
  | some (n, d) =>
    match setStr base n with
    | none => none
    | some n => (setStr base d).map fun d => (n, d)

/-- `load_minimal` of an `mpq_class`, `exact-real/cereal.hpp:232-235`, and `Decerealizer::load`, `exact-real/cereal.hpp:118-122`: numerator and
denominator of the `mpq_class`. -/
def loadMpq (s : Str) : Out (ℤ × ℤ) :=
  match mpqSetStr 0 s with
  | some x => .ok x
  | none => .throws .invalidArgument

/-- `arf_dump_str`: mantissa and exponent; the special values have mantissa 0. -/
def dumpArf : XArf → Str
  | .fin q => getStr 16 (Arf.mantissa q) ++ ' ' :: getStr 16 (Arf.exponent q)
  | .posInf => getStr 16 0 ++ ' ' :: getStr 16 (-1)
  | .negInf => getStr 16 0 ++ ' ' :: getStr 16 (-2)
  | .nan => getStr 16 0 ++ ' ' :: getStr 16 (-3)

/-- `arf_load_str`. -/
def parseArf (s : Str) : Option XArf :=
  match splitAt ' ' s with
  | none => none
  | some (m, e) =>
    match setStr 16 m, setStr 16 e with
    | some m, some e =>
      if m = 0 ∧ e ≠ 0 then
        if e = -1 then some .posInf else if e = -2 then some .negInf else if e = -3 then some .nan else none
      else some (.fin (m * 2 ^ e))
    | _, _ => none

/-- `save` of an `Arf`, `exact-real/cereal.hpp:167-174` (without the approximation, which is ignored by `load`). -/
def saveArf (x : XArf) : Str := dumpArf x

/-- `load` of an `Arf`, `exact-real/cereal.hpp:176-185`. -/
def loadArf (s : Str) : Out XArf :=
  match parseArf s with
  | some x => .ok x
  | none => .throws .logicError

/-- `mag_dump_str`: like an `arf_t`; the radius might be infinite. -/
def dumpMag : Option ℚ → Str
  | some r => dumpArf (.fin r)
  | none => dumpArf .posInf

/-- `mag_load_str`. (Contract: numbers that are a `mag_t` are read exactly, negative numbers and NaN are errors.) -/
def parseMag (s : Str) : Option (Option ℚ) :=
  match parseArf s with
  | some (.fin r) => if r < 0 then none else some (some r)
  | some .posInf => some none
  | _ => none

/-- `arb_dump_str`: midpoint and radius. -/
def dumpArb (x : XBall) : Str := dumpArf x.mid ++ ' ' :: dumpMag x.rad

/-- `arb_load_str`: the string is cut at its second blank. -/
def parseArb (s : Str) : Option XBall :=
  match splitAt ' ' s with
  | none => none
  | some (m, rest) =>
    match splitAt ' ' rest with
    | none => none
    | some (e, rad) =>
      match parseArf (m ++ ' ' :: e), parseMag rad with
      | some mid, some rad => some ⟨mid, rad⟩
      | _, _ => none

/-- `save` of an `Arb`, `exact-real/cereal.hpp:147-154`. -/
def saveArb (x : XBall) : Str := dumpArb x

/-- `load` of an `Arb`, `exact-real/cereal.hpp:156-165`. -/
def loadArb (s : Str) : Out XBall :=
  match parseArb s with
  | some x => .ok x
  | none => .throws .logicError

end ExactReal.Text
