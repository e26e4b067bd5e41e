import Verif.Model.GmpRandom
import Verif.Model.Random
import Verif.Lemma.Rand48
import Mathlib.Tactic.Linarith

/-! # The range of `mpz_urandomm` -/

namespace ExactReal.GmpRandom

theorem bits_lt (seed : ℕ) : ∀ fuel i n, bits seed fuel i n < 2 ^ n
  | 0, _, _ => by rw [bits]; positivity
  | fuel + 1, i, n => by
    rw [bits]
    split_ifs with h
    · exact Nat.mod_lt _ (by positivity)
    · have h1 := bits_lt seed fuel (i + 1) (n - 32)
      have h2 : word seed i % 2 ^ 32 < 2 ^ 32 := Nat.mod_lt _ (by norm_num)
      have e : 2 ^ n = 2 ^ 32 * 2 ^ (n - 32) := by rw [← pow_add]; congr 1; omega
      rw [e]
      nlinarith

theorem draw_lt (seed : ℕ) {b n : ℕ} (hn : 0 < n) (hb : 2 ^ b ≤ 2 * n) : ∀ tries i, draw seed b n tries i < n
  | 0, _ => hn
  | tries + 1, i => by
    rw [draw]
    have h := bits_lt seed b i b
    split_ifs with h1 h2
    · exact h1
    · omega
    · exact draw_lt seed hn hb tries _

/-- What GMP documents: the result is in the range 0 to n - 1. -/
theorem urandomm_lt (seed : ℕ) {n : ℕ} (hn : 0 < n) : urandomm seed n < n := by
  unfold urandomm
  dsimp only
  have h1 : 2 ^ n.log2 ≤ n := Nat.log2_self_le hn.ne'
  split_ifs with h2 h3 h3
  · exact hn
  · exact draw_lt seed hn (by omega) _ _
  · exact hn
  · exact draw_lt seed hn (by rw [pow_succ]; omega) _ _

/-- The random generators that the library uses. -/
def generators : Generators where
  digits := Rand48.digits
  urandomm seed n := urandomm seed.toNat n.toNat
  urandomm_range seed n hn := by
    have := urandomm_lt seed.toNat (n := n.toNat) (by omega)
    omega

end ExactReal.GmpRandom
