import Verif.Model.Random

/-!
# The generator of random digits

The digits of a `RandomRealNumber` come from `boost::random::rand48`, sampled through `boost::random::uniform_int_distribution`.  Everywhere
else in the model the digits are an arbitrary sequence; here they are computed as Boost documents it.  Boost is not part of the repository; as
a check, `Props.rand48_documented` computes the number that `/repo/doc/manual/python_overview.rst:44` prints for the first default seed.
-/

namespace ExactReal.Rand48

/-- The state of `rand48(seed)`, `src/random_real_number.cc:121`: Boost shifts the seed by 16 bits and appends `0x330e`. -/
def init (seed : UInt32) : ℕ := (seed.toNat <<< 16) ||| 0x330e

/-- One step of the linear congruential generator behind `rand48` (the parameters of `lrand48`). -/
def next (x : ℕ) : ℕ := (0x5DEECE66D * x + 0xB) % 2 ^ 48

/-- What the generator returns after a step: the upper 31 of the 48 bits. -/
def output (x : ℕ) : ℕ := x / 2 ^ 17

/-- `index_dist(rnd)` with the range 0 to 1, `src/random_real_number.cc:76,82`: Boost divides the `2^31` outputs into two buckets. -/
def index (output : ℕ) : ℕ := output / 2 ^ 30

/-- The digit number `i` of `RandomRealNumber(seed)`, `src/random_real_number.cc:73-82`: `chars[index_dist(rnd)]` with `chars = "01"`. -/
def digit (seed : UInt32) (i : ℕ) : Bool := index (output (next^[i + 1] (init seed))) = 1

end ExactReal.Rand48
