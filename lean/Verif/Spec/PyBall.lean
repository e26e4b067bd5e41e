import Verif.Model.PyBall
import Verif.Spec.BallSpecial

/-! # Specification vocabulary: comparisons of the numbers that balls stand for -/

namespace ExactReal

/-- The relation that an operator stands for. -/
def PyRel.Holds : PyRel → EReal → EReal → Prop
  | lt, x, y => x < y | le, x, y => x ≤ y | eq, x, y => x = y | ne, x, y => x ≠ y | gt, x, y => x > y | ge, x, y => x ≥ y

/-- The numbers that an operand may stand for. -/
def PyOperand.points : PyOperand → Set EReal
  | ball a => a.points
  | int _ n => {((n : ℝ) : EReal)}

/-- Radii are not negative, integers fit their type. -/
def PyOperand.Valid : PyOperand → Prop
  | ball a => a.WF
  | int t n => t.Holds n

/-- The operand is not an indeterminate. -/
def PyOperand.Determinate : PyOperand → Prop
  | ball a => a.mid ≠ .nan
  | int _ _ => True

/-- The documented meaning of a comparison in Python. -/
def PyAnswer.Right (r : PyAnswer) (R : EReal → EReal → Prop) (a b : Set EReal) : Prop :=
  (r = .returns true ↔ ∀ x ∈ a, ∀ y ∈ b, R x y) ∧ (r = .returns false ↔ ∀ x ∈ a, ∀ y ∈ b, ¬ R x y) ∧
    (r = .precisionError ↔ (∃ x ∈ a, ∃ y ∈ b, R x y) ∧ ∃ x ∈ a, ∃ y ∈ b, ¬ R x y)

open Classical in
/-- The program with exact numbers instead of balls: all comparisons are answered, and handlers are never used. -/
noncomputable def PyProg.exact {I α : Type} (x : I → EReal) : PyProg I α → α
  | ret a => a
  | ask op i j next => (next (decide (op.Holds (x i) (x j)))).exact x
  | attempt op i j next _ => (next (decide (op.Holds (x i) (x j)))).exact x

/-- `a` may be the result of the program for the exact numbers `x` if handlers may be entered at any comparison. -/
inductive PyProg.Exact {I α : Type} (x : I → EReal) : PyProg I α → α → Prop
  | ret (a : α) : Exact x (.ret a) a
  | ask {op : PyRel} {i j : I} {next : Bool → PyProg I α} {b : Bool} {a : α} (h : b = true ↔ op.Holds (x i) (x j)) (t : Exact x (next b) a) :
      Exact x (.ask op i j next) a
  | attempt {op : PyRel} {i j : I} {next : Bool → PyProg I α} {handler : PyProg I α} {b : Bool} {a : α} (h : b = true ↔ op.Holds (x i) (x j))
      (t : Exact x (next b) a) : Exact x (.attempt op i j next handler) a
  | handler {op : PyRel} {i j : I} {next : Bool → PyProg I α} {handler : PyProg I α} {a : α} (t : Exact x handler a) :
      Exact x (.attempt op i j next handler) a

/-- The program does not catch `PrecisionError`. -/
def PyProg.Plain {I α : Type} : PyProg I α → Prop
  | ret _ => True
  | ask _ _ _ next => ∀ b, (next b).Plain
  | attempt _ _ _ _ _ => False

end ExactReal
