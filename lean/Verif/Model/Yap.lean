import Mathlib.Data.Nat.Basic

/-!
# Expression templates for `Arf` and `Arb`

Arithmetic on `Arf` and `Arb` builds expressions that are evaluated when they are assigned (`exact-real/yap`).  The evaluation writes intermediate
results into the variable that is assigned to, which may also occur in the expression.  Memory is modelled by numbered locations.

The model is generic in the type `T` of values and in the functions that `FLINT` provides.
-/

namespace ExactReal.Yap

/-- The supported binary operators, `exact-real/yap/arf.hpp:46-57`, `exact-real/yap/arb.hpp:39-49`. -/
inductive Op
  | plus
  | minus
  | multiplies
  | divides
  deriving DecidableEq

/-- What `FLINT` provides: `arf_add`, …, with a precision and a rounding mode of type `Mode`; for `Arb`, `needsRound` is false and the rounding mode
is not used. -/
structure Kernel (T Mode : Type) where
  needsRound : Bool
  neg : T → T
  bin : Op → T → T → ℤ → Option Mode → T

/-- A parameter of a call expression, `exact-real/yap/prec_expr.hpp:29-33`, `exact-real/yap/round_expr.hpp`. -/
inductive Param (Mode : Type)
  | prec (p : ℤ)
  | round (r : Mode)

/-- An expression, `exact-real/yap/arf_expr.hpp:31-67`, `exact-real/yap/arb_expr.hpp:28-55`.  A terminal refers to a variable or contains a value
(numbers of other types are converted losslessly). A call with two parameters is a nested call (`exact-real/yap/arf_expr.hpp:53-56`). -/
inductive Expr (T Mode : Type)
  | var (loc : ℕ)
  | const (value : T)
  | neg (e : Expr T Mode)
  | bin (op : Op) (l r : Expr T Mode)
  | call (e : Expr T Mode) (p : Param Mode)

/-- Memory: the values at all locations, and the first location that is free. -/
structure Mem (T : Type) where
  val : ℕ → T
  free : ℕ

/-- Write a location. -/
def Mem.set {T : Type} (m : Mem T) (loc : ℕ) (v : T) : Mem T := { m with val := fun l => if l = loc then v else m.val l }

/-- The parameters that are bound: the members `precision` and `round` of `ArfAssignTransformation`
(`exact-real/yap/arf_assign_transformation.hpp:36-37`). -/
structure Bound (Mode : Type) where
  prec : Option ℤ
  round : Option Mode

/-- Bind one more parameter, `exact-real/yap/arf_assign_transformation.hpp:45-55`, `exact-real/yap/arb_assign_transformation.hpp:81-84`. -/
def Bound.bind {Mode : Type} (b : Bound Mode) : Param Mode → Bound Mode
  | .prec p => { b with prec := some p }
  | .round r => { b with round := some r }

variable {T Mode : Type} (k : Kernel T Mode)

/-- `binary` in `exact-real/yap/arf_assign_transformation.hpp:80-107`, `exact-real/yap/arb_assign_transformation.hpp:56-74`: `value = value op rhs`.
The result is `none` when a `static_assert` fails because a parameter is not bound. -/
def binary (b : Bound Mode) (op : Op) (value : ℕ) (rhs : T) (m : Mem T) : Option (Mem T) :=
  match b.prec with
  | none => none
  | some p => if k.needsRound && b.round.isNone then none else some (m.set value (k.bin op (m.val value) rhs p b.round))

/-- The evaluation of an expression into the location `value`: `exact-real/yap/assign_transformation.hpp:41-59`,
`exact-real/yap/arf_assign_transformation.hpp:45-63`, `exact-real/yap/arb_assign_transformation.hpp:81-92`.  The result is `none` when the
program does not compile.

`derived` says whether the static type of the transformation is `ArfAssignTransformation` or its base `AssignTransformation`: line 50 and 57 of
`assign_transformation.hpp` pass `*this`, i.e., the base, which does not provide a function for calls with a single parameter; such an expression
does not compile (the generic function for binary operators would be instantiated, whose right operand is not a supported terminal). -/
def assign : Bool → Bound Mode → ℕ → Expr T Mode → Mem T → Option (Mem T)
  | _, _, value, .var l, m => some (m.set value (m.val l))
  | _, _, value, .const c, m => some (m.set value c)
  | _, b, value, .neg e, m =>
    match assign false b value e m with
    | none => none
    | some m => some (m.set value (k.neg (m.val value)))
  | _, b, value, .bin op l r, m =>
    -- `T rhs = eval(right)`: a new variable
    match assign true b m.free r { m with free := m.free + 1 } with
    | none => none
    | some m' =>
      let rhs := m'.val m.free
      -- the left operand is evaluated into `value`
      match assign false b value l { m' with free := m.free } with
      | none => none
      | some m => binary k b op value rhs m
  | true, b, value, .call e p, m => assign true (b.bind p) value e m
  | false, _, _, .call _ _, _ => none

/-- `Arf& operator=(expr)`, `exact-real/yap/arf.hpp:71-75`, `exact-real/yap/arb.hpp:65-69`; also the constructors
(`exact-real/yap/arf.hpp:61-69`), which assign to a new variable. -/
def assignTo (x : ℕ) (e : Expr T Mode) (m : Mem T) : Option (Mem T) := assign k true ⟨none, none⟩ x e m

/-- `PrecTransformation`, `exact-real/yap/prec_transformation.hpp:30-32`, `exact-real/yap/params_transformation.hpp:35-55`. `none` if there is no
precision. -/
def precOf : Expr T Mode → Option ℤ
  | .call _ (.prec p) => some p
  | .call e (.round _) => precOf e
  | _ => none

/-- `RoundTransformation`, `exact-real/yap/round_transformation.hpp:31-33`. -/
def roundOf : Expr T Mode → Option Mode
  | .call _ (.round r) => some r
  | .call e (.prec _) => roundOf e
  | _ => none

/-- `inplace_binop`, `exact-real/yap/arf.hpp:77-94`, `exact-real/yap/arb.hpp:71-84`: `x op= e` is evaluated as `x = (x op e)(prec)(round)` with the
parameters of `e`; the program does not compile when `e` has none. -/
def inplaceBinop (op : Op) (x : ℕ) (e : Expr T Mode) (m : Mem T) : Option (Mem T) :=
  match precOf e with
  | none => none
  | some p =>
    if k.needsRound then
      match roundOf e with
      | none => none
      | some r => assign k true ⟨none, none⟩ x (.call (.call (.bin op (.var x) e) (.prec p)) (.round r)) m
    else assign k true ⟨none, none⟩ x (.call (.bin op (.var x) e) (.prec p)) m

end ExactReal.Yap
