import Verif.Model.Storage

/-!
# What programs expect of objects

Programs expect that objects are like mathematical variables: an object is a value, and an operation changes the values of the objects it is
documented to change.  There is no memory here.
-/

namespace ExactReal.Storage

variable {V : Type}

/-- The values of the numbers that exist after an event; `none` if the program must not do this: objects are constructed once, and can be used until
they are destroyed.  The value is moved out of a number by the move constructor, which leaves `zero`; move assignment exchanges the values. -/
def numSpec (zero : V) (vals : ℕ → Option V) : NumEvent V → Option (ℕ → Option V)
  | .construct d => if vals d = none then some (Function.update vals d (some zero)) else none
  | .constructFrom d v => if vals d = none then some (Function.update vals d (some v)) else none
  | .copyConstruct d s =>
    match vals d, vals s with
    | none, some v => some (Function.update vals d (some v))
    | _, _ => none
  | .moveConstruct d s =>
    match vals d, vals s with
    | none, some v => some (Function.update (Function.update vals d (some v)) s (some zero))
    | _, _ => none
  | .copyAssign d s =>
    match vals d, vals s with
    | some _, some v => some (Function.update vals d (some v))
    | _, _ => none
  | .moveAssign a b | .swap a b =>
    match vals a, vals b with
    | some v, some w => some (Function.update (Function.update vals a (some w)) b (some v))
    | _, _ => none
  | .assign d v =>
    match vals d with
    | some _ => some (Function.update vals d (some v))
    | none => none
  | .operate d a b f =>
    match vals d, vals a, vals b with
    | some _, some v, some w => some (Function.update vals d (some (f v w)))
    | _, _, _ => none
  | .destroy d =>
    match vals d with
    | some _ => some (Function.update vals d none)
    | none => none

variable {P : Type} [DecidableEq P] {R : Type} [CommRing R] [DecidableEq R] [CRing P R]

/-- The same for elements.  `some none` is an element whose value was moved out: it can only be assigned to, moved again, swapped, or destroyed. -/
def eltSpec [Build] (vals : ℕ → Option (Option (Elt P R))) : EltEvent P R → Option (ℕ → Option (Option (Elt P R)))
  | .construct d v => if vals d = none then some (Function.update vals d (some (some v))) else none
  | .copyConstruct d s =>
    match vals d, vals s with
    | none, some (some v) => some (Function.update vals d (some (some v)))
    | _, _ => none
  | .moveConstruct d s =>
    match vals d, vals s with
    | none, some w => some (Function.update (Function.update vals s (some none)) d (some w))
    | _, _ => none
  | .copyAssign d s =>
    match vals d, vals s with
    | some _, some (some v) => some (Function.update vals d (some (some v)))
    | _, _ => none
  | .moveAssign d s =>
    match vals d, vals s with
    | some _, some w => if d = s then some vals else some (Function.update (Function.update vals s (some none)) d (some w))
    | _, _ => none
  | .swap a b tmp =>
    match vals a, vals b, vals tmp with
    | some v, some w, none => some (Function.update (Function.update vals a (some w)) b (some v))
    | _, _, _ => none
  | .add d s =>
    match vals d, vals s with
    | some (some x), some (some y) => some (Function.update vals d (some (some (x.addAssign y).self)))
    | _, _ => none
  | .operate d s f =>
    match vals d, vals s with
    | some (some x), some (some y) => some (Function.update vals d (some (some (f x y))))
    | _, _ => none
  | .destroy d =>
    match vals d with
    | some _ => some (Function.update vals d none)
    | none => none

/-- Histories of programs that use numbers: the memory and the values that the program expects. The allocator can return any address that is not in use. -/
inductive NumHist (cls : NumClass) (small : V → Bool) (zero : V) : Mem V → (ℕ → Option V) → Prop
  | start : NumHist cls small zero .start fun _ => none
  | step {m m' : Mem V} {vals vals' : ℕ → Option V} {e : NumEvent V} {fresh : ℕ} (h : NumHist cls small zero m vals) (hf : m.blocks fresh = none)
      (ha : numSpec zero vals e = some vals') (hs : numStep cls small zero fresh m e = some m') : NumHist cls small zero m' vals'

/-- Histories of programs that use elements. Elements have as many coefficients as their module has generators. -/
inductive EltHist [Build] : Mem (Elt P R) → (ℕ → Option (Option (Elt P R))) → Prop
  | start : EltHist .start fun _ => none
  | step {m m' : Mem (Elt P R)} {vals vals' : ℕ → Option (Option (Elt P R))} {e : EltEvent P R} {fresh : ℕ} (h : EltHist m vals)
      (hf : m.blocks fresh = none) (ha : eltSpec vals e = some vals') (hs : eltStep fresh m e = some m')
      (hw : ∀ o v, vals' o = some (some v) → v.coeffs.length = v.mod.basis.length) : EltHist m' vals'

end ExactReal.Storage
