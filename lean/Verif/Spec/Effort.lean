import Verif.Spec.Ball

/-!
# How far approximations are refined

All the loops that refine approximations double their precision in each iteration, so bounds for the number of iterations (`fuel` in the model) are
bounds for the precisions.
-/

namespace ExactReal

/-- The size of a number to which the errors of its approximations are relative.  (The approximations of zero have an absolute error.) -/
noncomputable def magnitude (v : ℝ) : ℝ := if v = 0 then 1 else |v|

namespace Elt
variable {P : Type} [DecidableEq P] {R : Type} [CommRing R] [DecidableEq R] [CRing P R] [LawfulCRing P]

/-- The sum of the sizes of the terms of an element.  Terms might cancel, so this can be much larger than the absolute value of the element. -/
noncomputable def size (atoms : Atoms) (x : Elt P R) : ℝ := (x.terms.map fun t => |num P t.2| * magnitude (t.1.real atoms)).sum

/-- Starting with a precision of (at least) `start` bits, `n` times twice the precision makes up for the cancellation: then an approximation with a relative
accuracy of `start` bits is found.  (Nothing is approximated if all the coefficients are zero.) -/
def Enough (atoms : Atoms) (start n : ℕ) (x : Elt P R) : Prop :=
  x.toBool = false ∨
    ((x.real fun i => (atoms i).value) ≠ 0 ∧ (2 : ℝ) ^ (start + 2 * x.mod.basis.length + 9) * x.size atoms ≤ 2 ^ (start * 2 ^ n) * |x.real fun i => (atoms i).value|)

end Elt

/-- Contract of `Ring::arb` with rates: the relative error is a few units in the last of `prec` bits.  Proved for ℤ and ℚ; for number fields it is a
property of e-antic. -/
structure CoeffAccurate (P : Type) [DecidableEq P] {R : Type} [CommRing R] [DecidableEq R] [CRing P R] [LawfulCRing P] (coeff : ℕ → R → Ball) : Prop where
  mid : ∀ prec c, 2 ≤ prec → |((coeff prec c).mid : ℝ) - Elt.num P c| ≤ 2 ^ (1 - (prec : ℤ)) * |Elt.num P c|
  radius : ∀ prec c, 2 ≤ prec → ((coeff prec c).radius : ℝ) ≤ 2 ^ (2 - (prec : ℤ)) * |Elt.num P c|

/-! Two worlds agree on all precisions up to `M`: what they do with more bits might be entirely different. -/

/-- The balls of coefficients. -/
def AgreeUpTo {R : Type} (M : ℕ) (coeff coeff' : ℕ → R → Ball) : Prop := ∀ p ≤ M, ∀ c, coeff p c = coeff' p c

/-- Sums, products and quotients of balls. -/
def Arith.AgreeUpTo (M : ℕ) (F F' : Arith) : Prop := ∀ p ≤ M, F.add p = F'.add p ∧ F.mul p = F'.mul p ∧ F.div p = F'.div p

/-- The random numbers. -/
def Atoms.AgreeUpTo (M : ℕ) (atoms atoms' : Atoms) : Prop := ∀ i, ∀ p ≤ M, (atoms i).arf p = (atoms' i).arf p

/-- The additional bits for the factors of a product, `⌈log₂ (3 n)⌉` for `n` factors. -/
def RN.extra : RN → ℕ
  | .prod m => Nat.clog 2 (3 * (m.map Prod.snd).sum)
  | _ => 0

end ExactReal
