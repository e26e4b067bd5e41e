import Verif.Model.Yap

/-!
# What an expression means

The value of an expression under an assignment of values to variables, with the parameters of the innermost enclosing call.
-/

namespace ExactReal.Yap

variable {T Mode : Type} (k : Kernel T Mode)

/-- The value of an expression; `none` if an operation does not have a precision (and rounding mode). `p` and `r` are the parameters of the innermost
enclosing calls. -/
def Expr.value (σ : ℕ → T) : Option ℤ → Option Mode → Expr T Mode → Option T
  | _, _, .var l => some (σ l)
  | _, _, .const c => some c
  | p, r, .neg e => (e.value σ p r).map k.neg
  | p, r, .bin op a b =>
    match a.value σ p r, b.value σ p r, p with
    | some x, some y, some p => if k.needsRound && r.isNone then none else some (k.bin op x y p r)
    | _, _, _ => none
  | _, r, .call e (.prec p) => e.value σ (some p) r
  | p, _, .call e (.round r) => e.value σ p (some r)

/-- The variables in an expression have been declared before. -/
def Expr.Below (n : ℕ) : Expr T Mode → Prop
  | .var l => l < n
  | .const _ => True
  | .neg e => e.Below n
  | .bin _ a b => a.Below n ∧ b.Below n
  | .call e _ => e.Below n

/-- Calls are only applied to a whole expression or a whole right operand, `(a * (b + c)(64))(32)`, not to left operands. -/
def Expr.Plain : Bool → Expr T Mode → Prop
  | _, .var _ => True
  | _, .const _ => True
  | _, .neg e => e.Plain false
  | _, .bin _ a b => a.Plain false ∧ b.Plain true
  | allowed, .call e _ => allowed = true ∧ e.Plain true

end ExactReal.Yap
