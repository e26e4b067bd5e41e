import Mathlib.Data.Nat.Bitwise
import Mathlib.Data.Nat.Bits

/-!
# GMP's default random generator

Line 182 of `src/constrained_random_real_number.cc` seeds `gmp_randinit_default`, i.e., the Mersenne Twister of GMP (`rand/randmt.c`, `rand/randmts.c`), and
calls `mpz_urandomm` (`mpz/urandomm.c`) once.  Everywhere else in the model this generator is a parameter of which only the range of `mpz_urandomm` is known;
here it is computed.  GMP is not part of `/repo`; that this is what it computes is confirmed by the outputs that the documentation of the library
shows, see `Verif/Conformance/Random.lean`.
-/

namespace ExactReal.GmpRandom

/-- `x^n mod m` by repeated squaring from the most significant bit of `n`; `bits` are the bits of `n`, the least significant one first. -/
def powMod (x m : ℕ) : List Bool → ℕ
  | [] => 1
  | b :: bits =>
    let r := powMod x m bits
    if b then r * r % m * x % m else r * r % m

/-- The new value of a word of the state: `(upper bit of x, lower bits of y)` is shifted and multiplied by the matrix. -/
def twist (x y z : ℕ) : ℕ :=
  let w := (x &&& 0x80000000) ||| (y &&& 0x7fffffff)
  z ^^^ (w >>> 1) ^^^ (if w % 2 = 1 then 0x9908b0df else 0)

/-- `zipWith` for three lists. -/
def zip3 (f : ℕ → ℕ → ℕ → ℕ) : List ℕ → List ℕ → List ℕ → List ℕ
  | x :: xs, y :: ys, z :: zs => f x y z :: zip3 f xs ys zs
  | _, _, _ => []

/-- `__gmp_mt_recalc_buffer`: the next 624 words of the state.  Word `k` is computed from the old words `k` and `k + 1` and from word `k + 397` modulo 624, which is an
old one for `k < 227` and one that has already been replaced otherwise. -/
def recalc (mt : List ℕ) : List ℕ :=
  let a := zip3 twist mt (mt.drop 1) (mt.drop 397)
  let b := zip3 twist (mt.drop 227) (mt.drop 228) a
  let c := zip3 twist (mt.drop 454) (mt.drop 455 ++ a.take 1) b
  a ++ b ++ c

/-- The 32 bit words of a number, the least significant one first. -/
def words : ℕ → ℕ → List ℕ
  | 0, _ => []
  | n + 1, x => x % 2 ^ 32 :: words n (x / 2 ^ 32)

/-- `randseed_mt` up to the warm up: the state is filled with the bits of `(seed mod (2^19937 - 20027) + 2) ^ 1074888996 mod (2^19937 - 20023)`. -/
def seeded (seed : ℕ) : List ℕ :=
  let x := powMod (seed % (2 ^ 19937 - 20027) + 2) (2 ^ 19937 - 20023) (Nat.bits 1074888996)
  (if x.testBit 19936 then 0x80000000 else 0) :: words 623 (x % 2 ^ 19936)

/-- The tempering of a word, `NEXT_RANDOM`. -/
def temper (y : ℕ) : ℕ :=
  let y := y ^^^ (y >>> 11)
  let y := y ^^^ ((y <<< 7) &&& 0x9d2c5680)
  let y := y ^^^ ((y <<< 15) &&& 0xefc60000)
  y ^^^ (y >>> 18)

/-- The word number `i` after seeding, `NEXT_RANDOM`: the warm up of 2000 words recomputes the state three times and skips 128 words; then the state is recomputed
whenever its 624 words are used up. -/
def word (seed i : ℕ) : ℕ := temper ((recalc^[3 + (128 + i) / 624] (seeded seed)).getD ((128 + i) % 624) 0)

/-- `__gmp_randget_mt`: `n` bits from the words number `i` and following, the least significant word first; the upper bits of the last word are discarded. -/
def bits (seed : ℕ) : ℕ → ℕ → ℕ → ℕ
  | 0, _, _ => 0
  | fuel + 1, i, n => if n ≤ 32 then word seed i % 2 ^ n else word seed i % 2 ^ 32 + 2 ^ 32 * bits seed fuel (i + 1) (n - 32)

/-- The loop of `mpz_urandomm`: at most `tries` numbers of `b` bits are drawn until one is smaller than `n`; the last one is reduced by `n`. -/
def draw (seed b n : ℕ) : ℕ → ℕ → ℕ
  | 0, _ => 0 -- not reached
  | tries + 1, i =>
    let r := bits seed b i b
    if r < n then r
    else if tries = 0 then r - n
    else draw seed b n tries (i + (b + 31) / 32)

/-- `mpz_urandomm` on a freshly seeded generator, `n > 0`: the number of bits is the size of `n`, one less if `n` is a power of two; 80 tries. -/
def urandomm (seed n : ℕ) : ℕ :=
  let b := if n = 2 ^ n.log2 then n.log2 else n.log2 + 1
  if b = 0 then 0 else draw seed b n 80 0

end ExactReal.GmpRandom
