import Verif.Model.Python

/-!
# `ExactReals(K)` as a ring: constants of the parent, sample elements and expressions

Line numbers are those of `/repo/pyexactreal/src/pyexactreal/exact_reals.py` unless another file is named.
-/

namespace ExactReal.Py

variable {P : Type} [DecidableEq P] {R : Type} [CommRing R] [DecidableEq R] [CRing P R]

/-- `ExactReals(K).characteristic()`, lines 808-819. -/
def characteristic : ℕ := 0

/-- `ExactReals(K).is_field()`, lines 911-927. -/
def isField : Bool := false

/-- `ExactReals(K).is_integral_domain()`, lines 929-943. -/
def isIntegralDomain : Bool := true

/-- `ExactReals(K).some_elements()`, lines 764-793; `gen` is `base_ring().gen()` and `i` are the random numbers in the order in which they are created.  (`zero()` and
`one()` of SageMath's rings are the coercions of 0 and 1; `** 2` is the product of the element with itself, as in SageMath's generic power.) -/
def someElements [Build] (ring : P) (gen : R) (i : Fin 8 → ℕ) : Out (List (Elt P R)) := do
  let zero ← coerce ring 0
  let one ← coerce ring 1
  let g ← coerce ring gen
  let r0 ← random ring (i 0)
  let r1 ← random ring (i 1)
  let s1 ← add r1 one
  let r2 ← random ring (i 2)
  let s2 ← add r2 g
  let r3 ← random ring (i 3)
  let r4 ← random ring (i 4)
  let s3 ← add r3 r4
  let r5 ← random ring (i 5)
  let r6 ← random ring (i 6)
  let p ← mul r5 r6
  let r7 ← random ring (i 7)
  let q ← mul r7 r7
  .ok [zero, one, g, r0, s1, s2, s3, p, q]

/-- A Python expression with integer constants and variables, for example `(x + y)*(x - y) + 2*x`. -/
inductive RExpr
  | var (i : ℕ)
  | int (n : ℤ)
  | add (a b : RExpr)
  | sub (a b : RExpr)
  | mul (a b : RExpr)
  | neg (a : RExpr)
  | scale (n : ℤ) (a : RExpr)

/-- Evaluation of such an expression: `_add_`, `_sub_`, `_mul_`, `_neg_`, `_lmul_`, lines 164-269, 472-506, and coercion of integers, lines 947-964. -/
def RExpr.eval [Build] (ring : P) (x : ℕ → Elt P R) : RExpr → Out (Elt P R)
  | var i => .ok (x i)
  | int n => coerce ring n
  | add a b => do Py.add (← eval ring x a) (← eval ring x b)
  | sub a b => do Py.sub (← eval ring x a) (← eval ring x b)
  | mul a b => do Py.mul (← eval ring x a) (← eval ring x b)
  | neg a => do Py.neg (← eval ring x a)
  | scale n a => do Py.lmul (n : R) (← eval ring x a)

end ExactReal.Py
