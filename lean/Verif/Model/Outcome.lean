/-!
# Outcomes of C++ calls

Every modelled function that can do something else than return a value returns an `Out`.
-/

namespace ExactReal

/-- The exception types thrown by the modelled code (`std::logic_error`, `std::invalid_argument`), see
`src/util/assert.ipp:72-111` (`LIBEXACTREAL_ASSERT` and `LIBEXACTREAL_UNREACHABLE` throw `std::logic_error`,
`LIBEXACTREAL_CHECK_ARGUMENT` throws `std::invalid_argument`).  Messages are not modelled. -/
inductive Exc
  | logicError
  | invalidArgument
  deriving DecidableEq, Repr

/-- Result of a C++ call: it returns, throws, terminates the process (e.g. `flint_abort`), has undefined behaviour,
or (for loops run with a step budget) has not returned yet. -/
inductive Out (α : Type _)
  | ok (a : α)
  | throws (e : Exc)
  | abort
  | ub
  | pending
  deriving DecidableEq, Repr

namespace Out

/-- Sequencing of calls: any outcome but `ok` is propagated. -/
@[inline] def bind {α β} (x : Out α) (f : α → Out β) : Out β :=
  match x with
  | ok a => f a
  | throws e => throws e
  | abort => abort
  | ub => ub
  | pending => pending

instance : Monad Out where
  pure := Out.ok
  bind := Out.bind

@[simp] theorem pure_eq {α} (a : α) : (pure a : Out α) = ok a := rfl
@[simp] theorem ok_bind {α β} (a : α) (f : α → Out β) : (Out.ok a >>= f) = f a := rfl
@[simp] theorem throws_bind {α β} (e : Exc) (f : α → Out β) : (Out.throws e >>= f) = throws e := rfl
@[simp] theorem abort_bind {α β} (f : α → Out β) : (Out.abort >>= f) = abort := rfl
@[simp] theorem ub_bind {α β} (f : α → Out β) : (Out.ub >>= f) = ub := rfl
@[simp] theorem pending_bind {α β} (f : α → Out β) : (Out.pending >>= f) = pending := rfl

theorem bind_eq_ok {α β} {x : Out α} {f : α → Out β} {b : β} :
    (x >>= f) = ok b ↔ ∃ a, x = ok a ∧ f a = ok b := by
  cases x <;> simp

@[simp] theorem map_eq {α β} (f : α → β) (x : Out α) : (f <$> x) = (x >>= fun a => ok (f a)) := rfl

/-- Did the call return? -/
def isOk {α} : Out α → Bool
  | ok _ => true
  | _ => false

end Out

/-- The build / runtime switches that influence control flow (`src/util/assert.ipp:55-67,93-101`): `asserts` is true in
a build without `NDEBUG` and without `LIBEXACTREAL_NOASSERT`/`LIBEXACTREAL_NOCHECK`; `checks` is false when the environment variable
`LIBEXACTREAL_NOCHECK` is set. All theorems hold for every value of these switches unless they say otherwise. -/
class Build where
  asserts : Bool
  checks : Bool

/-- `LIBEXACTREAL_ASSERT(cond, …)`, `src/util/assert.ipp:72-86,93-105`. -/
def assertThat [b : Build] (cond : Bool) : Out Unit :=
  if b.asserts && !cond then .throws .logicError else .ok ()

/-- `LIBEXACTREAL_CHECK_ARGUMENT(cond, …)`, `src/util/assert.ipp:72-91`. -/
def checkArgument [b : Build] (cond : Bool) : Out Unit :=
  if b.checks && !cond then .throws .invalidArgument else .ok ()

end ExactReal
