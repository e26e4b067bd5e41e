import Verif.Model.PyExpr

/-!
# Arithmetic of balls with numbers of Python

`a - 1` and `1 - a` for an `Arb` (or `Arf`) `a` and an `int` (or `float`) of Python.  The C++ functions `add`, `sub`, `mul`, `truediv` of
`/repo/libexactreal/exact-real/cppyy.hpp:74-88` take both operands by reference to const; the expression that they return refers to the number
(`const int&`, `/repo/libexactreal/exact-real/yap/arb_expr.hpp:41-47`).  The C++ number is made by cppyy from the Python number for the call only; the lifelines of
`Yap` hold the Python number, not the C++ number.

Simplification: Python numbers are not objects of the model, so the lifelines to them are omitted; nothing refers to them.
Line numbers are those of `/repo/pyexactreal/src/pyexactreal/cppyy_exactreal.py` unless another file is named.
-/

namespace ExactReal.PyExpr

/-- The lambdas `x ∘ y` with a Python number as one of the operands: the C++ expression with the operands in the order of the program.  `t` is
the place of the C++ number, `/repo/libexactreal/exact-real/cppyy.hpp:74-88`. -/
def makeNumber {T : Type} (o : Op) (left : Bool) (p t : ℕ) : Obj T := if left then .bin o t p else .bin o p t

/-- The end of the call: the C++ number that cppyy made for the argument is gone. -/
def expire {T : Type} (h : ℕ → Option (Obj T)) (t : ℕ) : ℕ → Option (Obj T) := fun j => if j = t then none else h j

/-- `x ∘ n` (and, if `left`, `n ∘ x`) for an object `x` of a program and a Python number with the value `n`, until the C++ function returns; `t` is where cppyy puts the
C++ number, `e`, `u` and `w` are the addresses of new objects.  The result is the new heap and the result of the operation; `none` is a `TypeError`.

* For a number `x`: `binary` and `rbinary` in `enable_yap`, lines 161-164; both are `Yap.wrap(lhs)._op(implementation, rhs)`.  For `n ∘ x`, the wrapper at `w` is
  that of the Python number; its value is omitted.
* For a `Yap` object `x`: `__add__`, …, lines 264-330; there is no `__radd__`, ….
* For an expression that is not wrapped: `binary` and `rbinary` in `enable_arithmetic`, lines 116-119. -/
def buildNumber {T : Type} (h : ℕ → Option (Obj T)) (o : Op) (left : Bool) (x : ℕ) (n : T) (t e u w : ℕ) : Option ((ℕ → Option (Obj T)) × ℕ) :=
  match h x with
  | some (.num _) =>
    let (h, self) := if left then (h, x) else wrap h x w
    let h := alloc h t (.num n)
    let h := alloc h e (makeNumber o left x t)
    some (alloc h u (.yap e [x, self]), u)
  | some (.yap v _) =>
    if left then none else
      let h := alloc h t (.num n)
      let h := alloc h e (makeNumber o false v t)
      some (alloc h u (.yap e [v, x]), u)
  | some _ =>
    let h := alloc h t (.num n)
    some (alloc h e (makeNumber o left x t), e)
  | none => none

/-- `x ∘ n`, respectively `n ∘ x`: as in `buildNumber`; then the C++ number is gone. -/
def binaryNumber {T : Type} (h : ℕ → Option (Obj T)) (o : Op) (left : Bool) (x : ℕ) (n : T) (t e u w : ℕ) : Option ((ℕ → Option (Obj T)) × ℕ) := do
  let (h, r) ← buildNumber h o left x n t e u w
  some (expire h t, r)

end ExactReal.PyExpr
