import Verif.Model.PyExpr

/-!
# What users of arithmetic expressions in Python expect

Variables hold expressions; nothing is ever collected and there are no addresses.
-/

namespace ExactReal.PyExpr

/-- An expression. -/
inductive Expr (T : Type)
  | num (v : T)
  | neg (t : Expr T)
  | bin (o : Op) (t u : Expr T)

/-- The value of an expression. -/
def Expr.eval {T : Type} (K : Kernel T) (prec : ℤ) : Expr T → T
  | .num v => v
  | .neg t => K.neg prec (t.eval K prec)
  | .bin o t u => K.bin o prec (t.eval K prec) (u.eval K prec)

/-- Is this a number, not an expression that has not been evaluated yet? -/
def Expr.isNum {T : Type} : Expr T → Bool
  | .num _ => true
  | _ => false

/-- The effect of a statement on the values of the variables. -/
def specStep {T : Type} (K : Kernel T) (σ : ℕ → Option (Expr T)) : Cmd T → ℕ → Option (Expr T)
  | .new x v _ => fun y => if y = x then some (.num v) else σ y
  | .bin x o y z _ _ _ => fun w => if w = x then do some (.bin o (← σ y) (← σ z)) else σ w
  | .neg x y _ _ => fun w => if w = x then do some (.neg (← σ y)) else σ w
  | .call x y prec _ => fun w => if w = x then do some (.num ((← σ y).eval K prec)) else σ w
  | .copy x y => fun w => if w = x then σ y else σ w
  | .del x => fun w => if w = x then none else σ w
  | .collect _ => σ

/-- The effect of a program. -/
def specRun {T : Type} (K : Kernel T) (σ : ℕ → Option (Expr T)) : List (Cmd T) → ℕ → Option (Expr T)
  | [] => σ
  | c :: cs => specRun K (specStep K σ c) cs

/-- The program never negates a number that is not part of an expression: `-(a + b)` is fine, `-a` is not. -/
def NoPlainNeg {T : Type} (K : Kernel T) (σ : ℕ → Option (Expr T)) : List (Cmd T) → Prop
  | [] => True
  | c :: cs => (∀ x y e u t, c = .neg x y e u → σ y = some t → t.isNum = false) ∧ NoPlainNeg K (specStep K σ c) cs

/-- No variables, no objects. -/
def empty (T : Type) : State T := ⟨fun _ => none, fun _ => none⟩

end ExactReal.PyExpr
