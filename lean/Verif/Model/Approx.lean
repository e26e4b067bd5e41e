import Verif.Model.Arf
import Verif.Model.RealNumber

/-!
# Approximations of real numbers: `arf(prec)`

The random digits of a `RandomRealNumber` come from a pseudo-random generator that is reset to the seed for every call; it is modelled by
an arbitrary infinite sequence of binary digits per number.
-/

namespace ExactReal

/-- The digits that the generator of a `RandomRealNumber` produces, `src/random_real_number.cc:73-76,121`.  `hasOne` says that some digit
is not zero; without it `arf` does not return (`Props.random_arf_all_zero`). -/
structure Digits where
  digit : Nat → Bool
  hasOne : ∃ i, digit i = true

namespace Digits

/-- The loop of `RandomRealNumber::arf_`, `src/random_real_number.cc:80-89`: `pos` digits have been read (so `exp = -pos`), `digits` of
them have been written to `os`, whose content read as a binary number is `acc`.  One unit of `fuel` is one digit read.  Note that a
leading zero decrements `digits` before the loop increments it again, so `digits` does not change. -/
def loop (digit : Nat → Bool) (prec : Nat) : Nat → Nat → Nat → ℤ → Out ℚ
  | 0, _, _, _ => .pending
  | fuel + 1, pos, digits, acc =>
    if digits < prec + 1 then
      if digits = 0 ∧ digit pos = false then loop digit prec fuel (pos + 1) digits acc
      else loop digit prec fuel (pos + 1) (digits + 1) (2 * acc + if digit pos then 1 else 0)
    else .ok (Arf.ofMantissaExponent acc (-(pos : ℤ)))

/-- `RandomRealNumber::arf_`, `src/random_real_number.cc:66-92`, run for at most `fuel` digits. -/
def arfLoop (digit : Nat → Bool) (prec : Nat) (fuel : Nat) : Out ℚ := loop digit prec fuel 0 0 0

/-- Position of the first one. -/
def first (d : Digits) : Nat := Nat.find d.hasOne

/-- The first `n` digits read as a binary fraction. -/
def prefixValue (digit : Nat → Bool) : Nat → ℚ
  | 0 => 0
  | n + 1 => prefixValue digit n + if digit n then 2 ^ (-((n : ℤ) + 1)) else 0

/-- The value that the loop returns: the digits up to and including the `prec + 1`-st significant one (`Lemma.arfLoop_eq`). -/
def arf (d : Digits) (prec : Nat) : ℚ := prefixValue d.digit (d.first + prec + 1)

end Digits

/-- The data of an atom: `RandomRealNumber` (`src/random_real_number.cc:58-122`), or a `ConstrainedRandomRealNumber`
(`src/constrained_random_real_number.cc:71-134`) with `initial = m·2^e` (which is how
`src/constrained_random_real_number.cc:182-191` builds it) and a `RandomRealNumber` as `inner`. -/
inductive Atom
  | random (d : Digits)
  | constrained (m e : ℤ) (inner : Digits)

namespace Atom

/-- `ConstrainedRandomRealNumber::arf_`, `src/constrained_random_real_number.cc:75-99`. The `+=` in line 94 rounds its result to
`prec + 1` bits (`exact-real/yap/arf.hpp:77-94`). -/
def arfConstrained (m e : ℤ) (inner : Digits) (prec : Nat) : ℚ :=
  let initial := Arf.ofMantissaExponent m e
  let missing : ℤ := ((prec : ℤ) + 1) - Arf.bits initial
  let ret := if 0 < missing then
      Arf.round .near (prec + 1) (initial + Arf.shiftLeft (inner.arf (missing - 1).toNat) (e - 1))
    else initial
  Arf.round .near (prec + 1) ret

/-- `arf_` of an atom. -/
def arf : Atom → Nat → ℚ
  | random d, prec => d.arf prec
  | constrained m e inner, prec => arfConstrained m e inner prec

end Atom

/-- What the atoms are, by identity. -/
abbrev Atoms := Nat → Atom

/-- Working precision of a product, `src/real_number_product.cc:530-532`: `ceil(log2(3n))` extra bits for `n` factors. (`log2` is computed
in double precision; this makes no difference, `Props.product_bits`.) -/
def workingPrec (prec n : Nat) : Nat := prec + Nat.clog 2 (3 * n)

/-- The multiplication loop of `RealNumberProduct::arf_` for one factor, `src/real_number_product.cc:536-537`. -/
def mulLoop (w : Nat) (a : ℚ) : Nat → ℚ → ℚ
  | 0, ret => ret
  | j + 1, ret => mulLoop w a j (Arf.round .near w (ret * a))

/-- The multiplication loops of `RealNumberProduct::arf_`, `src/real_number_product.cc:534-537`. -/
def prodLoop (atoms : Atoms) (w : Nat) (ret : ℚ) (m : Mono) : ℚ :=
  m.foldl (fun ret p => mulLoop w ((atoms p.1).arf w) p.2 ret) ret

namespace RN

/-- `arf_`: `src/rational_real_number.cc:42-46`, `src/random_real_number.cc:66-92`, `src/constrained_random_real_number.cc:75-99`,
`src/real_number_product.cc:519-553`. -/
def arf_ (atoms : Atoms) (prec : Nat) : RN → ℚ
  | rat q => Arf.round .near (if prec = 0 then 1 else prec) ((q.num : ℚ) / q.den)
  | atom i => (atoms i).arf prec
  | prod m => Arf.round .near (prec + 1) (prodLoop atoms (workingPrec prec (m.map Prod.snd).sum) 1 m)

/-- `RealNumberBase::arf`, `src/real_number.cc:195-219`, without the cache (see `Verif/Model/ArfCache.lean` for the cache). -/
def arf (atoms : Atoms) (x : RN) (prec : ℤ) : ℚ := x.arf_ atoms prec.toNat

end RN

end ExactReal
