import Verif.Model.Outcome
import Mathlib.Data.Nat.Notation
import Mathlib.Data.Int.Notation

/-!
# Arithmetic expressions of balls and floating point numbers in Python

`a + b` for `Arb`s (or `Arf`s) in Python is not evaluated but an object that refers to `a` and `b`.  The C++ expression that it contains has plain C++
references to its operands; Python knows nothing about these, so the wrapper `Yap` keeps the operands alive with "lifelines".  This is a model of the
Python objects, of the references that Python knows of and of the C++ references, with a garbage collector that may run at any time and with memory that
may be reused.

Line numbers are those of `/repo/pyexactreal/src/pyexactreal/cppyy_exactreal.py` unless another file is named.  Operands that are numbers of Python
are in `Verif/Model/PyExprNumber.lean`; those of SageMath are not modelled.
-/

namespace ExactReal.PyExpr

/-- The operators, lines 94-95. -/
inductive Op
  | add
  | sub
  | mul
  | truediv
  deriving DecidableEq

/-- The arithmetic of C++ with a precision. -/
structure Kernel (T : Type) where
  neg : ℤ → T → T
  bin : Op → ℤ → T → T → T

/-- Python objects; `ℕ` is the address of an object. -/
inductive Obj (T : Type)
  /-- A proxy that owns an `Arb` (or `Arf`). -/
  | num (v : T)
  /-- A proxy that owns a C++ expression with a C++ reference to its operand: `neg` in `/repo/libexactreal/exact-real/cppyy.hpp:89-90`. -/
  | neg (p : ℕ)
  /-- A proxy that owns a C++ expression with two C++ references, `/repo/libexactreal/exact-real/cppyy.hpp:74-88`. -/
  | bin (op : Op) (p q : ℕ)
  /-- A `Yap` object, lines 230-232.  The lists in which the lifelines are kept are flattened. -/
  | yap (value : ℕ) (lifelines : List ℕ)

/-- The references that Python knows of. -/
def Obj.refs {T : Type} : Obj T → List ℕ
  | .num _ => []
  | .neg _ => []
  | .bin _ _ _ => []
  | .yap value lifelines => value :: lifelines

/-- The objects and the variables of a Python program. -/
structure State (T : Type) where
  heap : ℕ → Option (Obj T)
  var : ℕ → Option ℕ

/-- A new object. -/
def alloc {T : Type} (h : ℕ → Option (Obj T)) (i : ℕ) (o : Obj T) : ℕ → Option (Obj T) := fun j => if j = i then some o else h j

/-- `Yap.wrap(x).value`, lines 234-238, 259: the proxy of the number or of the expression. -/
def value {T : Type} (h : ℕ → Option (Obj T)) (x : ℕ) : ℕ :=
  match h x with
  | some (.yap v _) => v
  | _ => x

/-- `Yap.wrap(x)`, lines 234-238; `w` is the address of the object that is created unless `x` already is a `Yap`. -/
def wrap {T : Type} (h : ℕ → Option (Obj T)) (x w : ℕ) : (ℕ → Option (Obj T)) × ℕ :=
  match h x with
  | some (.yap _ _) => (h, x)
  | _ => (alloc h w (.yap x []), w)

/-- `self._op(op, *rhs)`, lines 240-262; `make` is the effect of `op`, `e` and `u` are the addresses of the new objects. -/
def op {T : Type} (h : ℕ → Option (Obj T)) (self : ℕ) (make : List ℕ → Obj T) (rhs : List ℕ) (e u : ℕ) : ℕ → Option (Obj T) :=
  let operands := value h self :: rhs.map (value h)
  let lifelines := operands ++ [self] ++ rhs
  alloc (alloc h e (make operands)) u (.yap e lifelines)

/-- The C++ expression with the given operands. -/
def makeBin {T : Type} (o : Op) : List ℕ → Obj T
  | [p, q] => .bin o p q
  | _ => .neg 0

/-- The C++ expression with the given operand. -/
def makeNeg {T : Type} : List ℕ → Obj T
  | [p] => .neg p
  | _ => .neg 0

/-- `x ∘ y` for two objects of a program.  `e`, `u` and `w` are the addresses of new objects.  The result is the new heap and the result of the operation;
`none` is a `TypeError`.

* For a number `x`: `binary` in `enable_yap`, lines 161-162.
* For a `Yap` object `x`: `__add__`, …, lines 264-330, and, for the operator of the lambda, `binary` in `enable_arithmetic`, lines 116-117.
* For an expression that is not wrapped: `binary` in `enable_arithmetic`; it does not accept a `Yap` object. -/
def binary {T : Type} (h : ℕ → Option (Obj T)) (o : Op) (x y e u w : ℕ) : Option ((ℕ → Option (Obj T)) × ℕ) :=
  match h x, h y with
  | some (.num _), some _ =>
    let (h, self) := wrap h x w
    some (op h self (makeBin o) [y] e u, u)
  | some (.yap _ _), some _ => some (op h x (makeBin o) [y] e u, u)
  | some _, some (.yap _ _) => none
  | some _, some _ => some (alloc h e (.bin o x y), e)
  | _, _ => none

/-- `-x`.  For a `Yap` object, lines 332-345.  Numbers and expressions that are not wrapped use `__neg__` of `enable_arithmetic`, line 124, whose result is
not wrapped: `enable_yap` replaces the binary operators only. -/
def neg {T : Type} (h : ℕ → Option (Obj T)) (x e u : ℕ) : Option ((ℕ → Option (Obj T)) × ℕ) :=
  match h x with
  | some (.yap _ _) => some (op h x makeNeg [] e u, u)
  | some _ => some (alloc h e (.neg x), e)
  | none => none

/-- The evaluation of a C++ expression that follows the C++ references, `/repo/libexactreal/exact-real/cppyy.hpp:52-56`.  Following a reference to an object
that has been collected is undefined behaviour.  The depth of the expression is bounded by `fuel`. -/
def eval {T : Type} (K : Kernel T) (h : ℕ → Option (Obj T)) (prec : ℤ) : ℕ → ℕ → Out T
  | 0, _ => .pending
  | fuel + 1, p =>
    match h p with
    | some (.num v) => .ok v
    | some (.neg p) => do
      let v ← eval K h prec fuel p
      .ok (K.neg prec v)
    | some (.bin o p q) => do
      let v ← eval K h prec fuel p
      let w ← eval K h prec fuel q
      .ok (K.bin o prec v w)
    | _ => .ub

/-- `x(prec)`, `__call__`, lines 347-359, for a `Yap` object; for an expression that is not wrapped the call operator of C++. -/
def call {T : Type} (K : Kernel T) (h : ℕ → Option (Obj T)) (fuel : ℕ) (x : ℕ) (prec : ℤ) : Out T := eval K h prec fuel (value h x)

/-- The objects that Python can reach from an object. -/
inductive Reach {T : Type} (h : ℕ → Option (Obj T)) (x : ℕ) : ℕ → Prop
  | refl : Reach h x x
  | step {i j : ℕ} {o : Obj T} (hi : Reach h x i) (ho : h i = some o) (hj : j ∈ o.refs) : Reach h x j

/-- A statement of a Python program, with the addresses that are used for new objects, or a run of the garbage collector. -/
inductive Cmd (T : Type)
  /-- `x = Arb(v)` -/
  | new (x : ℕ) (v : T) (i : ℕ)
  /-- `x = y ∘ z` (and, with `x = y`, `x ∘= z`) -/
  | bin (x : ℕ) (o : Op) (y z : ℕ) (e u w : ℕ)
  /-- `x = -y` -/
  | neg (x y : ℕ) (e u : ℕ)
  /-- `x = y(prec)` -/
  | call (x y : ℕ) (prec : ℤ) (i : ℕ)
  /-- `x = y` -/
  | copy (x y : ℕ)
  /-- `del x` -/
  | del (x : ℕ)
  /-- The garbage collector deletes the object at an address. -/
  | collect (i : ℕ)

/-- Assign a variable. -/
def State.assign {T : Type} (s : State T) (h : ℕ → Option (Obj T)) (x : ℕ) (o : Option ℕ) : State T := ⟨h, fun y => if y = x then o else s.var y⟩

/-- Execution.  New objects are created at any addresses that are not in use.  The garbage collector may delete any object that cannot be reached from a
variable. -/
inductive Step {T : Type} (K : Kernel T) (s : State T) : Cmd T → State T → Prop
  | new {x i : ℕ} {v : T} (hi : s.heap i = none) : Step K s (.new x v i) (s.assign (alloc s.heap i (.num v)) x (some i))
  | bin {x y z a b e u w r : ℕ} {o : Op} {h : ℕ → Option (Obj T)} (hy : s.var y = some a) (hz : s.var z = some b)
      (he : s.heap e = none) (hu : s.heap u = none) (hw : s.heap w = none) (hne : e ≠ u ∧ e ≠ w ∧ u ≠ w)
      (hr : binary s.heap o a b e u w = some (h, r)) : Step K s (.bin x o y z e u w) (s.assign h x (some r))
  | neg {x y a e u r : ℕ} {h : ℕ → Option (Obj T)} (hy : s.var y = some a) (he : s.heap e = none) (hu : s.heap u = none) (hne : e ≠ u)
      (hr : PyExpr.neg s.heap a e u = some (h, r)) : Step K s (.neg x y e u) (s.assign h x (some r))
  | call {x y a i : ℕ} {prec : ℤ} {v : T} {fuel : ℕ} (hy : s.var y = some a) (hi : s.heap i = none) (hv : PyExpr.call K s.heap fuel a prec = .ok v) :
      Step K s (.call x y prec i) (s.assign (alloc s.heap i (.num v)) x (some i))
  | copy {x y : ℕ} : Step K s (.copy x y) (s.assign s.heap x (s.var y))
  | del {x : ℕ} : Step K s (.del x) (s.assign s.heap x none)
  | collect {i : ℕ} (hi : ∀ x a, s.var x = some a → ¬Reach s.heap a i) : Step K s (.collect i) ⟨fun j => if j = i then none else s.heap j, s.var⟩

/-- A run of a program. -/
inductive Run {T : Type} (K : Kernel T) : State T → List (Cmd T) → State T → Prop
  | nil {s : State T} : Run K s [] s
  | cons {s s' s'' : State T} {c : Cmd T} {cs : List (Cmd T)} (h : Step K s c s') (hs : Run K s' cs s'') : Run K s (c :: cs) s''

end ExactReal.PyExpr
