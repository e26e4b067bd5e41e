import Verif.Model.BallSpecial

/-!
# Comparisons of balls in Python

Line numbers are those of `/repo/pyexactreal/src/pyexactreal/cppyy_exactreal.py`.  Operands are balls (`exactreal.Arb`) and Python integers.
-/

namespace ExactReal

/-- The comparison operators of Python. -/
inductive PyRel
  | lt | le | eq | ne | gt | ge
  deriving DecidableEq

/-- The method that Python tries on the right operand if the left one does not know it ("reflected" in Python's data model). -/
def PyRel.reflected : PyRel → PyRel
  | lt => gt | le => ge | eq => eq | ne => ne | gt => lt | ge => le

/-- The operator of C++ that cppyy has bound to `_cppyy_lt`, …, lines 188-191 (`src/arb.cc:177-232`). -/
def PyRel.cpp : PyRel → XBall → XBall → Option Bool
  | lt => XBall.lt | le => XBall.le | eq => XBall.eq | ne => XBall.ne | gt => XBall.gt | ge => XBall.ge

/-- Comparisons of Python's integers. -/
def PyRel.int : PyRel → ℤ → ℤ → Bool
  | lt, m, n => m < n | le, m, n => m ≤ n | eq, m, n => m = n | ne, m, n => m ≠ n | gt, m, n => n < m | ge, m, n => n ≤ m

/-- A Python object in a comparison.  cppyy passes an `int` as an integer of some type `type` of C++ that can hold it; `long` has 64 bits. -/
inductive PyOperand
  | ball (a : XBall)
  | int (type : IntType) (n : ℤ)

/-- What a Python comparison does: return a value or raise `PrecisionError`. -/
inductive PyAnswer
  | returns (b : Bool)
  | precisionError
  deriving DecidableEq

/-- `unwrap_logical_optional`, lines 181-186. -/
def PyAnswer.unwrap : Option Bool → PyAnswer
  | none => precisionError
  | some b => returns b

/-- `relation`, lines 188-194: the method `__lt__`, … of a ball. -/
def XBall.pyRelation (op : PyRel) (self : XBall) : PyOperand → PyAnswer
  | .ball rhs => .unwrap (op.cpp self rhs)
  | .int t n => .unwrap (self.cmpInt op.cpp 64 t n)

/-- `lhs op rhs` in Python: the method of the left operand; for an integer that does not know about balls the reflected method of the right operand. -/
def PyOperand.compare (op : PyRel) : PyOperand → PyOperand → PyAnswer
  | .ball a, y => a.pyRelation op y
  | x@(.int _ _), .ball b => b.pyRelation op.reflected x
  | .int _ m, .int _ n => .returns (op.int m n)

/-- A Python program that looks at its inputs (numbered by `I`) only through comparisons: sorting, `min`, `max`, `bisect`, ….
`attempt` is `try: … except PrecisionError: …` around a comparison. -/
inductive PyProg (I α : Type)
  | ret (a : α)
  | ask (op : PyRel) (i j : I) (next : Bool → PyProg I α)
  | attempt (op : PyRel) (i j : I) (next : Bool → PyProg I α) (handler : PyProg I α)

/-- The result of the program, `none` if it raises `PrecisionError`. -/
def PyProg.run {I α : Type} (input : I → PyOperand) : PyProg I α → Option α
  | ret a => some a
  | ask op i j next =>
    match (input i).compare op (input j) with
    | .returns b => (next b).run input
    | .precisionError => none
  | attempt op i j next handler =>
    match (input i).compare op (input j) with
    | .returns b => (next b).run input
    | .precisionError => handler.run input

end ExactReal
