import Verif.Spec.ProgramHeap
import Verif.Spec.Order
import Verif.Spec.Double
import Verif.Model.OrderHeap

/-!
# Specification of questions in a running process

A thread asks something between two calls of its program; the question takes some steps, and other threads do what they want in between.
-/

namespace ExactReal.Heap

variable {P : Type} [DecidableEq P] {R : Type} [CommRing R] [DecidableEq R] [CRing P R] [LawfulCRing P]

/-- A thread with the variables `s` asks `a` in the process `st`, and `r` is a possible outcome, in a process that has made less than `2^64` objects. -/
def Asked (gen : Generators) (st : MState P) (s : HVars R) {α : Type} (a : Act P α) (r : Out α) : Prop :=
  ∃ w, Exec gen (s.world st) a w r ∧ w.st.base.next ≤ 2 ^ 64

/-- The questions that a thread can ask about its variables: equality, the order, and approximations of numbers and elements. -/
inductive IsQuestion [Build] (gen : Generators) (F : Arith) (coeff : ℕ → R → Ball) (fuel : ℕ) (s : HVars R) : {α : Type} → Act P α → Prop
  | eq (i j : ℕ) : IsQuestion gen F coeff fuel s ((s.elt i).eq (P := P) (s.elt j))
  | rational (i : ℕ) : IsQuestion gen F coeff fuel s ((s.elt i).rational? (P := P))
  | integer (i : ℕ) : IsQuestion gen F coeff fuel s ((s.elt i).integer? (P := P))
  | eqNum (i j : ℕ) : IsQuestion gen F coeff fuel s ((s.elt i).eqRN (P := P) (s.num j))
  | lt (i j : ℕ) : IsQuestion gen F coeff fuel s ((s.elt i).lt (P := P) gen F coeff fuel (s.elt j))
  | ltNum (i j : ℕ) : IsQuestion gen F coeff fuel s ((s.elt i).ltRN (P := P) gen F coeff fuel (s.num j))
  | ltQ (i : ℕ) (q : ℚ) : IsQuestion gen F coeff fuel s ((s.elt i).ltQ (P := P) gen F coeff fuel q)
  | ltZ (i : ℕ) (n : ℤ) : IsQuestion gen F coeff fuel s ((s.elt i).ltZ (P := P) gen F coeff fuel n)
  | gtZ (i : ℕ) (n : ℤ) : IsQuestion gen F coeff fuel s ((s.elt i).gtZ (P := P) gen F coeff fuel n)
  | floor (i : ℕ) : IsQuestion gen F coeff fuel s ((s.elt i).floor (P := P) gen F coeff fuel)
  | ceil (i : ℕ) : IsQuestion gen F coeff fuel s ((s.elt i).ceil (P := P) gen F coeff fuel)
  | toDouble (i : ℕ) : IsQuestion gen F coeff fuel s ((s.elt i).toDouble (P := P) gen F coeff fuel)
  | floordiv (i j : ℕ) : IsQuestion gen F coeff fuel s ((s.elt i).floordiv (P := P) gen F coeff fuel (s.elt j))
  | arb (i accuracy : ℕ) : IsQuestion gen F coeff fuel s ((s.elt i).arb (P := P) gen F coeff fuel accuracy)
  | numLt (i j : ℕ) : IsQuestion gen F coeff fuel s (Num.lt gen fuel (s.num i) (s.num j))
  | numLtQ (i : ℕ) (q : ℚ) : IsQuestion gen F coeff fuel s (Num.ltQ gen F fuel (s.num i) q)
  | numGtQ (i : ℕ) (q : ℚ) : IsQuestion gen F coeff fuel s (Num.gtQ gen F fuel (s.num i) q)
  | numArb (i prec : ℕ) : IsQuestion gen F coeff fuel s (Num.refine gen (s.num i) Ball.zeroPmInf prec)

/-- The answers about elements are right for the real numbers `σ`: signs exactly, everything else up to an error that is small compared to the numbers. -/
structure ElementsRight [Build] (gen : Generators) (F : Arith) (coeff : ℕ → R → Ball) (st : MState P) (s : HVars R) (σ : Reals) (fuel : ℕ) : Prop where
  sign : ∀ i r, Asked gen st s ((s.elt i).ltZ (P := P) gen F coeff fuel 0) (.ok r) → (r = true ↔ σ.elt i < 0)
  pos : ∀ i r, σ.elt i ≠ 0 → Asked gen st s ((s.elt i).gtZ (P := P) gen F coeff fuel 0) (.ok r) → (r = true ↔ 0 < σ.elt i)
  lt : ∀ i j r, Asked gen st s ((s.elt i).lt (P := P) gen F coeff fuel (s.elt j)) (.ok r) → LtUpTo (2 ^ (-(61 : ℤ)) * (|σ.elt i| + |σ.elt j|)) r (σ.elt i) (σ.elt j)
  ltQ : ∀ i q r, Asked gen st s ((s.elt i).ltQ (P := P) gen F coeff fuel q) (.ok r) → LtUpTo (2 ^ (-(60 : ℤ)) * |σ.elt i|) r (σ.elt i) q
  ltZ : ∀ i n r, Asked gen st s ((s.elt i).ltZ (P := P) gen F coeff fuel n) (.ok r) → LtUpTo (2 ^ (-(61 : ℤ)) * |σ.elt i|) r (σ.elt i) n
  ltNum : ∀ i j r, Asked gen st s ((s.elt i).ltRN (P := P) gen F coeff fuel (s.num j)) (.ok r) → LtUpTo (2 ^ (-(61 : ℤ)) * (|σ.elt i| + |σ.num j|)) r (σ.elt i) (σ.num j)
  floor : ∀ i n, Asked gen st s ((s.elt i).floor (P := P) gen F coeff fuel) (.ok n) →
    n - 2 ^ (-(61 : ℤ)) * |σ.elt i| ≤ σ.elt i ∧ σ.elt i < n + 1 + 2 ^ (-(61 : ℤ)) * |σ.elt i|
  ceil : ∀ i n, Asked gen st s ((s.elt i).ceil (P := P) gen F coeff fuel) (.ok n) →
    n - 1 - 2 ^ (-(61 : ℤ)) * |σ.elt i| < σ.elt i ∧ σ.elt i ≤ n + 2 ^ (-(61 : ℤ)) * |σ.elt i|
  toDouble : ∀ i d, Asked gen st s ((s.elt i).toDouble (P := P) gen F coeff fuel) (.ok d) → Double.NearestUpTo (3 * 2 ^ (-(53 : ℤ)) * |σ.elt i|) (σ.elt i) d
  floordiv : ∀ i j n, σ.elt j ≠ 0 → Asked gen st s ((s.elt i).floordiv (P := P) gen F coeff fuel (s.elt j)) (.ok n) →
    n - 2 ^ (-(59 : ℤ)) * |σ.elt i / σ.elt j| ≤ σ.elt i / σ.elt j ∧ σ.elt i / σ.elt j < n + 1 + 2 ^ (-(59 : ℤ)) * |σ.elt i / σ.elt j|

/-- The approximations of elements have the accuracy asked for, and the real number `σ` is at most five radii away from the midpoint. -/
def ArbRight (gen : Generators) (F : Arith) (coeff : ℕ → R → Ball) (st : MState P) (s : HVars R) (σ : Reals) (fuel : ℕ) : Prop :=
  ∀ accuracy i b, 2 ≤ accuracy → Asked gen st s ((s.elt i).arb (P := P) gen F coeff fuel accuracy) (.ok b) →
    b.hasAccuracy accuracy = true ∧ ∃ r : ℚ, b.rad = some r ∧ 0 ≤ r ∧ |σ.elt i - b.mid| ≤ 5 * r

/-- The comparisons of real numbers are right if the numbers have different signs or are far enough from each other; the comparisons with a rational number
are right up to a small error. -/
structure NumbersRight (gen : Generators) (F : Arith) (st : MState P) (s : HVars R) (σ : Reals) (fuel : ℕ) : Prop where
  lt : ∀ i j r, Asked gen st s (Num.lt gen fuel (s.num i) (s.num j)) (.ok r) →
    11 / 16 * (|σ.num i| + |σ.num j|) < |σ.num i - σ.num j| ∨ σ.num i * σ.num j < 0 → (r = true ↔ σ.num i < σ.num j)
  rational : ∀ i (q : ℚ) r, 2 ^ (-(61 : ℤ)) * |σ.num i| < |σ.num i - q| →
    (Asked gen st s (Num.ltQ gen F fuel (s.num i) q) (.ok r) → (r = true ↔ σ.num i < q)) ∧
    (Asked gen st s (Num.gtQ gen F fuel (s.num i) q) (.ok r) → (r = true ↔ σ.num i > q))

/-- Questions come to an end whatever other threads do: after some number `N` of iterations, which does not depend on the schedule, with always the same answer,
the comparisons of numbers that are not equal, `floor` and `ceil` of numbers that are not integers, the conversion of numbers that are not dyadic, and `floordiv`
if the quotient is defined and not an integer; the comparison and `floordiv` of two elements may throw a `logic_error`. -/
structure AnswersReturn [Build] (gen : Generators) (F : Arith) (coeff : ℕ → R → Ball) (st : MState P) (s : HVars R) (σ : Reals) : Prop where
  ltZ : ∀ i (n : ℤ), σ.elt i ≠ 0 → σ.elt i ≠ n → ∃ r N, ∀ fuel, N ≤ fuel → ∀ o, Asked gen st s ((s.elt i).ltZ (P := P) gen F coeff fuel n) o → o = .ok r
  ltQ : ∀ i (q : ℚ), σ.elt i ≠ 0 → σ.elt i ≠ q → ∃ r N, ∀ fuel, N ≤ fuel → ∀ o, Asked gen st s ((s.elt i).ltQ (P := P) gen F coeff fuel q) o → o = .ok r
  lt : ∀ i j, σ.elt i ≠ 0 → σ.elt j ≠ 0 → σ.elt i ≠ σ.elt j → ∃ r N, (r = .throws .logicError ∨ ∃ b, r = .ok b) ∧
    ∀ fuel, N ≤ fuel → ∀ o, Asked gen st s ((s.elt i).lt (P := P) gen F coeff fuel (s.elt j)) o → o = r
  floor : ∀ i, (∀ n : ℤ, σ.elt i ≠ n) → ∃ n N, ∀ fuel, N ≤ fuel → ∀ o, Asked gen st s ((s.elt i).floor (P := P) gen F coeff fuel) o → o = .ok n
  ceil : ∀ i, (∀ n : ℤ, σ.elt i ≠ n) → ∃ n N, ∀ fuel, N ≤ fuel → ∀ o, Asked gen st s ((s.elt i).ceil (P := P) gen F coeff fuel) o → o = .ok n
  toDouble : ∀ i, (∀ m e : ℤ, σ.elt i ≠ m * 2 ^ e) → ∃ d N, ∀ fuel, N ≤ fuel → ∀ o, Asked gen st s ((s.elt i).toDouble (P := P) gen F coeff fuel) o → o = .ok d
  floordiv : ∀ i j, σ.elt j ≠ 0 → (∀ n : ℤ, σ.elt i ≠ n * σ.elt j) → ∃ r N, (r = .throws .logicError ∨ ∃ n, r = .ok n) ∧
    ∀ fuel, N ≤ fuel → ∀ o, Asked gen st s ((s.elt i).floordiv (P := P) gen F coeff fuel (s.elt j)) o → o = r
  num : ∀ i j, σ.num i ≠ σ.num j → ∃ r N, ∀ fuel, N ≤ fuel → ∀ o, Asked gen st s (Num.lt gen fuel (s.num i) (s.num j)) o → o = .ok r
  rational : ∀ i (q : ℚ), σ.num i ≠ q → (∃ r N, ∀ fuel, N ≤ fuel → ∀ o, Asked gen st s (Num.ltQ gen F fuel (s.num i) q) o → o = .ok r) ∧
    ∃ r N, ∀ fuel, N ≤ fuel → ∀ o, Asked gen st s (Num.gtQ gen F fuel (s.num i) q) o → o = .ok r

end ExactReal.Heap
