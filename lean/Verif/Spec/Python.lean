import Verif.Model.Python
import Verif.Spec.Element
import Mathlib.Algebra.MvPolynomial.Basic

/-!
# What users of `ExactReals(K)` expect

The ring is the ring of polynomials with coefficients in `K` in the random numbers: `Py.poly` is the polynomial of an element.  A random number `i` is
the variable `X i`.
-/

namespace ExactReal.Py

variable {P : Type} [DecidableEq P] {R : Type} [CommRing R] [DecidableEq R] [CRing P R] [LawfulCRing P]

/-- The polynomial that an element stands for. -/
noncomputable def poly (x : Elt P R) : MvPolynomial ℕ AlgReal := x.value (MvPolynomial.C.comp (LawfulCRing.emb P)) MvPolynomial.X

/-- The base ring `K`, as a ring of numbers. -/
noncomputable def base (ring : P) : Subring AlgReal := (LawfulCRing.mem ring).map (LawfulCRing.emb P)

/-- Python elements of `ExactReals(K)` that a program can make from random elements and elements of `K` with the operations of the ring. -/
inductive Made [Build] (ring : P) : Elt P R → Prop
  | random {i : ℕ} {z : Elt P R} (h : Py.random ring i = .ok z) : Made ring z
  | coerce {c : R} {z : Elt P R} (hc : c ∈ LawfulCRing.mem ring) (h : Py.coerce ring c = .ok z) : Made ring z
  | lmul {c : R} {x z : Elt P R} (hx : Made ring x) (hc : c ∈ LawfulCRing.mem ring) (h : Py.lmul c x = .ok z) : Made ring z
  | add {x y z : Elt P R} (hx : Made ring x) (hy : Made ring y) (h : Py.add x y = .ok z) : Made ring z
  | sub {x y z : Elt P R} (hx : Made ring x) (hy : Made ring y) (h : Py.sub x y = .ok z) : Made ring z
  | neg {x z : Elt P R} (hx : Made ring x) (h : Py.neg x = .ok z) : Made ring z
  | mul {x y z : Elt P R} (hx : Made ring x) (hy : Made ring y) (h : Py.mul x y = .ok z) : Made ring z
  | div {x y z : Elt P R} {fuel : ℕ} (hx : Made ring x) (hy : Made ring y) (h : Py.div fuel x y = .ok (some z)) : Made ring z
  | simplify {x z : Elt P R} (hx : Made ring x) (h : x.simplify = .ok z) : Made ring z

end ExactReal.Py
