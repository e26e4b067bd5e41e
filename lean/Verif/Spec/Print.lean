import Verif.Model.Print
import Verif.Spec.Approx

/-!
# Reading a printed element

The grammar of the output and the terms it denotes: `s` denotes `ts` if reading `s` as a sum of signed terms gives the pairs of generator and coefficient `ts`,
in this order.
-/

namespace ExactReal
variable {R : Type} [CommRing R]

/-- One term without sign: a number, a generator, or a number times a generator. -/
inductive Tok.Term : List (Tok R) → RN → R → Prop
  | num (c : R) : Tok.Term [.num c] (.rat 1) c
  | gen (g : RN) : Tok.Term [.gen g] g 1
  | mul (c : R) (g : RN) : Tok.Term [.num c, .times, .gen g] g c

/-- A non-empty sum of signed terms. -/
inductive Tok.Sum : List (Tok R) → List (RN × R) → Prop
  | term {s g c} : Tok.Term s g c → Tok.Sum s [(g, c)]
  | neg {s g c} : Tok.Term s g c → Tok.Sum (.minus :: s) [(g, -c)]
  | add {s ts t g c} : Tok.Sum s ts → Tok.Term t g c → Tok.Sum (s ++ .plus :: t) (ts ++ [(g, c)])
  | sub {s ts t g c} : Tok.Sum s ts → Tok.Term t g c → Tok.Sum (s ++ .minus :: t) (ts ++ [(g, -c)])

/-- The output: a sum, or `0` for the empty sum. -/
inductive Tok.Denotes : List (Tok R) → List (RN × R) → Prop
  | zero : Tok.Denotes [.num 0] []
  | sum {s ts} : Tok.Sum s ts → Tok.Denotes s ts

namespace Print
variable {P : Type}

/-- The generator `g` as an element of the module it generates, over the given ring. -/
def genElt (ring : P) (g : RN) : Elt P R := ⟨⟨ring, [g]⟩, [1]⟩

/-- The comparison of the generators answers, and no two generators are equivalent. -/
def Comparable (ring : P) (eltLt : Elt P R → Elt P R → Out Bool) (basis : List RN) : Prop :=
  basis.Pairwise fun g h => ∃ a b, eltLt (genElt ring g) (genElt ring h) = .ok a ∧ eltLt (genElt ring h) (genElt ring g) = .ok b ∧ (a || b) = true

/-- In which order terms are written: positive coefficients first, then by the value of the generator. -/
def Before (num : R → ℝ) (val : RN → ℝ) (s t : RN × R) : Prop := (0 < num s.2 ∧ num t.2 < 0) ∨ (0 < num s.2 * num t.2 ∧ val s.1 < val t.1)

/-- The generators of a module are far enough apart for the comparison of elements, and none of them is zero. -/
def Separated (atoms : Atoms) (basis : List RN) : Prop :=
  (∀ g ∈ basis, g.real atoms ≠ 0) ∧
  basis.Pairwise fun g h => 2 ^ (-(61 : ℤ)) * (|g.real atoms| + |h.real atoms|) < |g.real atoms - h.real atoms|

end Print

end ExactReal
