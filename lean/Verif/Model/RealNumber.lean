import Verif.Model.Monomial
import Mathlib.Data.Rat.Defs

/-!
# Real numbers as exact objects

`RealNumber` objects are unique: `a == b` iff `&a == &b` (`src/real_number.cc:115-118`).  The exact layer of the model therefore
represents a real number by the data that determines it and uses structural equality for pointer equality; that the factories of the
code justify this in every history (with destruction and address reuse) is a separate model and theorem, see `Verif/Model/Heap.lean`.
-/

namespace ExactReal

/-- A real number: `RationalRealNumber` (`src/rational_real_number.cc:37-79`), an atom, i.e., a `RandomRealNumber`
(`src/random_real_number.cc:58-122`) or `ConstrainedRandomRealNumber` (`src/constrained_random_real_number.cc:71-134`)
identified by its `uniqueId`, or a `RealNumberProduct` (`src/real_number_product.cc:38-64`). -/
inductive RN
  | rat (q : ℚ)
  | atom (id : Nat)
  | prod (m : Mono)
  deriving DecidableEq

namespace RN

/-- `operator std::optional<mpq_class>`: `src/rational_real_number.cc:48-50`, `src/random_real_number.cc:94-96`,
`src/constrained_random_real_number.cc:101-103`, `src/real_number_product.cc:437-439`. -/
def rational? : RN → Option ℚ
  | rat q => some q
  | _ => none

/-- Is this a rational (has `optional<mpq_class>` a value)? -/
def isRat (x : RN) : Bool := x.rational?.isSome

/-- The monomials and exponents of a non-rational factor as used by `Key`: a product contributes its vectors, any other number
contributes itself with exponent 1; `src/real_number_product.cc:229-256,362-387`. -/
def factors : RN → Mono
  | prod m => m
  | atom i => [(i, 1)]
  | rat _ => []

/-- `Key::persist` on two non-rational factors, `src/real_number_product.cc:270-390`. -/
def persist (lhs rhs : RN) : RN :=
  if lhs = rhs then
    match lhs with
    | prod m => prod m.square
    | atom i => prod [(i, 2)]
    | rat q => rat q -- not reachable: operator* never calls persist on rationals
  else prod (Mono.merge lhs.factors rhs.factors)

/-- `RationalRealNumber::operator*`, `src/rational_real_number.cc:57-65`. -/
def ratMul (value : ℚ) (rhs : RN) : Out RN :=
  if value = 1 then .ok rhs
  else match rhs with
    | rat q => .ok (rat (value * q))
    | _ => .throws .logicError

/-- `RealNumber::operator*` with its override for rationals, `src/real_number_product.cc:594-602` and
`src/rational_real_number.cc:57-65`.  The product cache of the code returns an existing object equal to what `persist` would build
(`Verif/Model/Heap.lean`). -/
def mul (lhs rhs : RN) : Out RN :=
  match lhs with
  | rat q => ratMul q rhs
  | _ => match rhs with
    | rat q => ratMul q lhs
    | _ => .ok (persist lhs rhs)

/-- The final part of `RealNumberProduct::operator/` that rebuilds a number from the remaining exponents,
`src/real_number_product.cc:500-516`. -/
def rebuild (quotient : Mono) : RN :=
  match quotient.dropZeros with
  | [] => rat 1
  | [(i, 1)] => atom i
  | m => prod m

/-- `operator/`: `RealNumber::operator/` (`src/real_number.cc:85-97`) for rationals and atoms and `RealNumberProduct::operator/`
(`src/real_number_product.cc:441-517`) for products. -/
def div (lhs rhs : RN) : Out (Option RN) :=
  match lhs with
  | prod m =>
    match rhs with
    | rat q => if q = 1 then .ok (some lhs) else .throws .logicError
    | prod n => .ok ((Mono.divLoop m n).map rebuild)
    | atom j => .ok ((Mono.divAtom j m).map rebuild)
  | _ =>
    if lhs = rhs then .ok (some (rat 1))
    else match rhs with
      | rat q => if q = 1 then .ok (some lhs) else .throws .logicError
      | _ => .ok none

/-- `RealNumber::deglex`, `src/real_number_product.cc:604-679`. -/
def deglex (lhs rhs : RN) : Out Bool :=
  if lhs = rhs then .ok false
  else match lhs, rhs with
    | prod m, prod n => Mono.deglex m n
    | prod _, _ => .ok false
    | _, prod _ => .ok true
    | rat _, r => .ok !r.isRat
    | atom _, rat _ => .ok false
    | atom i, atom j => .ok (i < j)

/-- `deglex` as the comparator passed to `std::sort`; an exception thrown by the comparator is mapped to `false` here, which is
justified by `Props.deglex_never_throws`. -/
def lt (lhs rhs : RN) : Bool := deglex lhs rhs == .ok true

/-- `operator bool`, `src/real_number.cc:44-47`. -/
def toBool (x : RN) : Bool :=
  match x.rational? with
  | none => true
  | some q => q ≠ 0

end RN

end ExactReal

namespace ExactReal.RN

/-- The contribution of a factor to the hash of a `Factors` key: the stored hash of a product, the id of anything else,
`src/real_number_product.cc:121-127`.  (Which hash is stored in a product is modelled in `Verif/Model/Heap.lean`; here it is the hash
of its list.) -/
def hashOf : RN → UInt64
  | prod m => m.hash
  | atom i => UInt64.ofNat i
  | rat _ => 0 -- rationals are never factors of a product key

/-- Hash of a `Factors` key, `src/real_number_product.cc:119-130`. -/
def factorsHash (lhs rhs : RN) : UInt64 := lhs.hashOf * rhs.hashOf

/-- Hash that `Key::persist` stores in the new product object and in the cache key, `src/real_number_product.cc:331-336` (merge),
`351-355` (square of a product), `357-359` (square of an atom). -/
def persistHash (lhs rhs : RN) : UInt64 :=
  if lhs = rhs then
    match lhs with
    | prod m => m.hash * m.hash
    | atom i => UInt64.ofNat i * UInt64.ofNat i
    | rat _ => 0
  else factorsHash lhs rhs

/-- `Key::operator==` between the `Factors` key of a lookup and a stored `MonomialsExponents` key,
`src/real_number_product.cc:229-264`. -/
def keyMatches (lhs rhs : RN) (stored : Mono) : Bool := Mono.keyEq lhs.factors rhs.factors stored

end ExactReal.RN
