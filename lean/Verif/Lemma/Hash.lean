import Verif.Lemma.RealNumber
import Mathlib.Data.UInt

namespace ExactReal
namespace Mono

theorem powLoop_eq (r b : UInt64) (e : ℕ) : powLoop r b e = r * b ^ e := by
  induction e using Nat.strong_induction_on generalizing r b with
  | _ e ih =>
    rw [powLoop]
    split_ifs with h h1
    · subst h; rw [pow_zero, mul_one]
    · rw [ih (e / 2) (Nat.div_lt_self (by omega) (by norm_num)), ← pow_two, ← pow_mul, mul_assoc, ← pow_succ']
      congr 2; omega
    · rw [ih (e / 2) (Nat.div_lt_self (by omega) (by norm_num)), ← pow_two, ← pow_mul]
      congr 2; omega

theorem pow64_eq (b : UInt64) (e : ℕ) : pow64 b e = b ^ e := by rw [pow64, powLoop_eq, one_mul]

theorem hash_aux (m : Mono) (h : UInt64) :
    m.foldl (fun h p => h * pow64 (UInt64.ofNat p.1) p.2) h = h * value UInt64.ofNat m := by
  induction m generalizing h with
  | nil => simp
  | cons p m ih => simp only [List.foldl_cons]; rw [ih, value_cons, pow64_eq, mul_assoc]

theorem hash_eq (m : Mono) : m.hash = value UInt64.ofNat m := by
  rw [hash, hash_aux, one_mul]

theorem value_of_mult_add {A : Type*} [CommMonoid A] (v : ℕ → A) {a b c : Mono} (h : c.mult = a.mult + b.mult) :
    c.value v = a.value v * b.value v := by
  rw [value_eq_mult, value_eq_mult, value_eq_mult, h]
  rw [Finsupp.prod_add_index']
  · simp
  · intros; rw [pow_add]

end Mono

namespace RN

theorem hashOf_eq {x : RN} (h : x.isRat = false) : x.hashOf = x.factors.hash := by
  cases x with
  | rat q => simp [isRat, rational?] at h
  | atom i => rw [Mono.hash_eq]; simp [hashOf, factors]
  | prod m => rfl

theorem persistHash_eq (x y : RN) (hx : x.isRat = false) : persistHash x y = factorsHash x y := by
  unfold persistHash factorsHash
  split_ifs with h
  · subst h; cases x <;> simp_all [hashOf, isRat, rational?]
  · rfl

theorem factorsHash_eq (x y : RN) (hx : x.isRat = false) (hy : y.isRat = false) :
    (persist x y).factors.hash = factorsHash x y := by
  unfold factorsHash
  rw [hashOf_eq hx, hashOf_eq hy, Mono.hash_eq, Mono.hash_eq, Mono.hash_eq]
  apply Mono.value_of_mult_add
  rw [factors_mult, factors_mult, factors_mult, persist_mult x y hx]

end RN
end ExactReal
