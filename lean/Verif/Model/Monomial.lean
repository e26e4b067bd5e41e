import Verif.Model.Outcome

/-!
# Products of atoms: the list algorithms of `src/real_number_product.cc`

A `RealNumberProduct` stores two parallel vectors `monomials` (pointers to atoms) and `exponents` (`int`).  All algorithms compare
the atoms by their `uniqueId` only, so we model the two vectors as one list of pairs `(uniqueId, exponent)`.

Simplification: exponents are unbounded naturals here; the 32 bit signed arithmetic of the code, with overflow as a distinct
outcome, is modelled in `Verif/Model/Overflow.lean` and proved to agree below degree 2^31.
-/

namespace ExactReal

/-- The `(monomials, exponents)` vectors of a `RealNumberProduct`, `src/real_number_product.cc:58-59`. -/
abbrev Mono := List (Nat × Nat)

namespace Mono

/-- The merge loop of `Key::persist`, `src/real_number_product.cc:274-337`. -/
def merge : Mono → Mono → Mono
  | [], rhs => rhs
  | lhs, [] => lhs
  | (i, a) :: lhs, (j, b) :: rhs =>
    if i < j then (i, a) :: merge lhs ((j, b) :: rhs)
    else if i = j then (i, a + b) :: merge lhs rhs
    else (j, b) :: merge ((i, a) :: lhs) rhs
  termination_by lhs rhs => lhs.length + rhs.length

/-- The shortcut of `Key::persist` for a square of a product, `src/real_number_product.cc:340-355`. -/
def square (m : Mono) : Mono := m.map fun p => (p.1, p.2 * 2)

/-- The comparison of the product of two factors with a stored list in `Key::operator==`,
`src/real_number_product.cc:149-227` (the lambda `eq`; `l` is `lhs_lhs`, `r` is `lhs_rhs`, `s` is `rhs`). -/
def keyEq : Mono → Mono → Mono → Bool
  | l, r, [] => l.isEmpty && r.isEmpty
  | (i, a) :: l, (j, b) :: r, (k, c) :: s =>
    if i < k then false
    else if j < k then false
    else if i = k ∧ j = k then
      if a + b ≠ c then false else keyEq l r s
    else if i = k then
      if a ≠ c then false else keyEq l ((j, b) :: r) s
    else if j = k then
      if b ≠ c then false else keyEq ((i, a) :: l) r s
    else false
  | (i, a) :: l, [], (k, c) :: s =>
    if i < k then false
    else if i ≠ k ∨ a ≠ c then false
    else keyEq l [] s
  | [], (j, b) :: r, (k, c) :: s =>
    if j ≠ k ∨ b ≠ c then false
    else keyEq [] r s
  | [], [], _ :: _ => false
  termination_by _ _ s => s.length

/-- The fast exponentiation loop of the hash, `src/real_number_product.cc:85-94` (`size_t` is 64 bits wide and wraps). -/
def powLoop (result base : UInt64) (exponent : Nat) : UInt64 :=
  if h : exponent = 0 then result
  else powLoop (if exponent % 2 = 1 then result * base else result) (base * base) (exponent / 2)
  termination_by exponent
  decreasing_by exact Nat.div_lt_self (Nat.pos_of_ne_zero h) (by decide)

/-- `pow` of `src/real_number_product.cc:85-94`. -/
def pow64 (base : UInt64) (exponent : Nat) : UInt64 := powLoop 1 base exponent

/-- Hash of a stored list, `src/real_number_product.cc:82-99`.  Ids are `size_t`. -/
def hash (m : Mono) : UInt64 :=
  m.foldl (fun h p => h * pow64 (UInt64.ofNat p.1) p.2) 1

/-- The loop of `RealNumberProduct::operator/` for a divisor that is itself a product,
`src/real_number_product.cc:453-486`.  The result is the vector `quotient` (which keeps zero exponents), paired with the ids. -/
def divLoop : Mono → Mono → Option Mono
  | lhs, [] => some lhs
  | [], _ :: _ => none
  | (i, a) :: lhs, (j, b) :: rhs =>
    if i < j then (divLoop lhs ((j, b) :: rhs)).map ((i, a) :: ·)
    else if i > j then none
    else if b > a then none
    else (divLoop lhs rhs).map ((i, a - b) :: ·)
  termination_by lhs rhs => lhs.length + rhs.length

/-- The loop of `RealNumberProduct::operator/` for a divisor that is an atom, `src/real_number_product.cc:488-498`. -/
def divAtom (j : Nat) : Mono → Option Mono
  | [] => none
  | (i, a) :: lhs => if i = j then some ((i, a - 1) :: lhs) else (divAtom j lhs).map ((i, a) :: ·)

/-- Dropping of zero exponents in `RealNumberProduct::operator/`, `src/real_number_product.cc:500-508`. -/
def dropZeros (m : Mono) : Mono := m.filter fun p => p.2 ≠ 0

/-- `RealNumberProduct::totalDegree`, `src/real_number_product.cc:555-560`. -/
def totalDegree (m : Mono) : Nat := m.foldl (fun d p => d + p.2) 0

/-- The loop of `RealNumber::deglex` for two products of the same total degree, `src/real_number_product.cc:645-676`.
Both statements marked `LIBEXACTREAL_UNREACHABLE` throw `std::logic_error`. -/
def deglexLoop : Mono → Mono → Out Bool
  | (i, a) :: lhs, (j, b) :: rhs =>
    if i < j then .ok true
    else if i > j then .ok false
    else if a < b then .ok false
    else if a > b then .ok true
    else deglexLoop lhs rhs
  | [], [] => .throws .logicError
  | _ :: _, [] => .throws .logicError
  | [], _ :: _ => .throws .logicError

/-- The comparison of two products in `RealNumber::deglex`, `src/real_number_product.cc:636-676`. -/
def deglex (lhs rhs : Mono) : Out Bool :=
  if lhs.totalDegree ≠ rhs.totalDegree then .ok (lhs.totalDegree < rhs.totalDegree)
  else deglexLoop lhs rhs

end Mono

end ExactReal
