import Verif.Model.RealNumber

/-!
# The 32 bit exponents of `RealNumberProduct`

`RealNumberProduct::Exponents` is `std::vector<int>` (`src/real_number_product.cc:42,58`).  `Verif/Model/Monomial.lean` computes with
unbounded naturals instead.  Here the same functions are modelled with the machine's arithmetic: every signed operation goes through
`int32`, which is undefined behaviour (`ub`) when the result does not fit, and the conversion of an exponent to `size_t` in the hash
wraps modulo 2^64.
-/

namespace ExactReal

/-- The result of a signed 32 bit operation with exact result `z`: undefined behaviour if it does not fit. -/
def int32 (z : ℤ) : Out ℤ := if -2 ^ 31 ≤ z ∧ z < 2 ^ 31 then .ok z else .ub

/-- The `(monomials, exponents)` vectors with `int` exponents, `src/real_number_product.cc:58-59`. -/
abbrev Mono32 := List (ℕ × ℤ)

namespace Mono32

/-- The merge loop of `Key::persist`, `src/real_number_product.cc:283-328`; the sum of line 301 may overflow. -/
def merge : Mono32 → Mono32 → Out Mono32
  | [], rhs => .ok rhs
  | lhs, [] => .ok lhs
  | (i, a) :: lhs, (j, b) :: rhs =>
    if i < j then do
      let rest ← merge lhs ((j, b) :: rhs)
      .ok ((i, a) :: rest)
    else if i = j then do
      let c ← int32 (a + b)
      let rest ← merge lhs rhs
      .ok ((i, c) :: rest)
    else do
      let rest ← merge ((i, a) :: lhs) rhs
      .ok ((j, b) :: rest)
  termination_by lhs rhs => lhs.length + rhs.length

/-- `e *= 2` of `Key::persist`, `src/real_number_product.cc:343-345`. -/
def square : Mono32 → Out Mono32
  | [] => .ok []
  | (i, a) :: m => do
    let c ← int32 (a * 2)
    let rest ← square m
    .ok ((i, c) :: rest)

/-- `Key::operator==`, `src/real_number_product.cc:149-227`; the sum of line 186 is only evaluated when both ids coincide with the
stored one, and may overflow. -/
def keyEq : Mono32 → Mono32 → Mono32 → Out Bool
  | l, r, [] => .ok (l.isEmpty && r.isEmpty)
  | (i, a) :: l, (j, b) :: r, (k, c) :: s =>
    if i < k then .ok false
    else if j < k then .ok false
    else if i = k ∧ j = k then do
      let e ← int32 (a + b)
      if e ≠ c then .ok false else keyEq l r s
    else if i = k then
      if a ≠ c then .ok false else keyEq l ((j, b) :: r) s
    else if j = k then
      if b ≠ c then .ok false else keyEq ((i, a) :: l) r s
    else .ok false
  | (i, a) :: l, [], (k, c) :: s =>
    if i < k then .ok false
    else if i ≠ k ∨ a ≠ c then .ok false
    else keyEq l [] s
  | [], (j, b) :: r, (k, c) :: s =>
    if j ≠ k ∨ b ≠ c then .ok false
    else keyEq [] r s
  | [], [], _ :: _ => .ok false
  termination_by _ _ s => s.length

/-- The loop of `pow` with its `size_t` exponent, `src/real_number_product.cc:85-94`. -/
def powLoop (result base exponent : UInt64) : UInt64 :=
  if h : exponent = 0 then result
  else powLoop (if exponent &&& 1 ≠ 0 then result * base else result) (base * base) (exponent >>> 1)
  termination_by exponent.toNat
  decreasing_by
    have h0 : exponent.toNat ≠ 0 := fun h' => h (UInt64.toNat_inj.1 (by simpa using h'))
    rw [UInt64.toNat_shiftRight]
    simpa [Nat.shiftRight_eq_div_pow] using Nat.div_lt_self (Nat.pos_of_ne_zero h0) (by decide)

/-- The hash of a list, `src/real_number_product.cc:82-99`; `pow(this->monomials[i], this->exponents[i])` converts the `int`
exponent to `size_t` (modulo 2^64). -/
def hash (m : Mono32) : UInt64 := m.foldl (fun h p => h * powLoop 1 (UInt64.ofNat p.1) (UInt64.ofInt p.2)) 1

/-- The loop of `RealNumberProduct::operator/` for a product, `src/real_number_product.cc:453-486`; `-=` in line 481. -/
def divLoop : Mono32 → Mono32 → Out (Option Mono32)
  | lhs, [] => .ok (some lhs)
  | [], _ :: _ => .ok none
  | (i, a) :: lhs, (j, b) :: rhs =>
    if i < j then do
      let rest ← divLoop lhs ((j, b) :: rhs)
      .ok (rest.map ((i, a) :: ·))
    else if i > j then .ok none
    else if b > a then .ok none
    else do
      let c ← int32 (a - b)
      let rest ← divLoop lhs rhs
      .ok (rest.map ((i, c) :: ·))
  termination_by lhs rhs => lhs.length + rhs.length

/-- The loop of `RealNumberProduct::operator/` for an atom, `src/real_number_product.cc:488-498`; `--` in line 491. -/
def divAtom (j : ℕ) : Mono32 → Out (Option Mono32)
  | [] => .ok none
  | (i, a) :: lhs =>
    if i = j then do
      let c ← int32 (a - 1)
      .ok (some ((i, c) :: lhs))
    else do
      let rest ← divAtom j lhs
      .ok (rest.map ((i, a) :: ·))

/-- Dropping of zero exponents, `src/real_number_product.cc:503-508`. -/
def dropZeros (m : Mono32) : Mono32 := m.filter fun p => p.2 ≠ 0

/-- The loop of `RealNumberProduct::totalDegree`, `src/real_number_product.cc:555-560`: the `int` accumulator may overflow. -/
def degreeLoop (d : ℤ) : Mono32 → Out ℤ
  | [] => .ok d
  | (_, a) :: m => do
    let d' ← int32 (d + a)
    degreeLoop d' m

/-- `RealNumberProduct::totalDegree`, `src/real_number_product.cc:555-560`. -/
def totalDegree (m : Mono32) : Out ℤ := degreeLoop 0 m

/-- The loop of `RealNumber::deglex`, `src/real_number_product.cc:645-676`. -/
def deglexLoop : Mono32 → Mono32 → Out Bool
  | (i, a) :: lhs, (j, b) :: rhs =>
    if i < j then .ok true
    else if i > j then .ok false
    else if a < b then .ok false
    else if a > b then .ok true
    else deglexLoop lhs rhs
  | [], [] => .throws .logicError
  | _ :: _, [] => .throws .logicError
  | [], _ :: _ => .throws .logicError

/-- The comparison of two products in `RealNumber::deglex`, `src/real_number_product.cc:636-676`. -/
def deglex (lhs rhs : Mono32) : Out Bool := do
  let l ← lhs.totalDegree
  let r ← rhs.totalDegree
  if l ≠ r then .ok (l < r) else deglexLoop lhs rhs

end Mono32

/-- A real number whose exponents are `int`s, as `RN` in `Verif/Model/RealNumber.lean`. -/
inductive RN32
  | rat (q : ℚ)
  | atom (id : ℕ)
  | prod (m : Mono32)
  deriving DecidableEq

namespace RN32

/-- As `RN.factors`, `src/real_number_product.cc:229-256,362-387`. -/
def factors : RN32 → Mono32
  | prod m => m
  | atom i => [(i, 1)]
  | rat _ => []

/-- `Key::persist`, `src/real_number_product.cc:270-390`. -/
def persist (lhs rhs : RN32) : Out RN32 :=
  if lhs = rhs then
    match lhs with
    | prod m => do
      let s ← m.square
      .ok (prod s)
    | atom i => .ok (prod [(i, 2)])
    | rat q => .ok (rat q) -- not reachable: operator* never calls persist on rationals
  else do
    let m ← Mono32.merge lhs.factors rhs.factors
    .ok (prod m)

/-- `RationalRealNumber::operator*`, `src/rational_real_number.cc:57-65`. -/
def ratMul (value : ℚ) (rhs : RN32) : Out RN32 :=
  if value = 1 then .ok rhs
  else match rhs with
    | rat q => .ok (rat (value * q))
    | _ => .throws .logicError

/-- `RealNumber::operator*`, `src/real_number_product.cc:594-602`, `src/rational_real_number.cc:57-65`. -/
def mul (lhs rhs : RN32) : Out RN32 :=
  match lhs with
  | rat q => ratMul q rhs
  | _ => match rhs with
    | rat q => ratMul q lhs
    | _ => persist lhs rhs

/-- The final part of `RealNumberProduct::operator/`, `src/real_number_product.cc:500-516`. -/
def rebuild (quotient : Mono32) : RN32 :=
  match quotient.dropZeros with
  | [] => rat 1
  | [(i, 1)] => atom i
  | m => prod m

/-- `operator/`, `src/real_number.cc:85-97`, `src/real_number_product.cc:441-517`. -/
def div (lhs rhs : RN32) : Out (Option RN32) :=
  match lhs with
  | prod m =>
    match rhs with
    | rat q => if q = 1 then .ok (some lhs) else .throws .logicError
    | prod n => do
      let q ← Mono32.divLoop m n
      .ok (q.map rebuild)
    | atom j => do
      let q ← Mono32.divAtom j m
      .ok (q.map rebuild)
  | _ =>
    if lhs = rhs then .ok (some (rat 1))
    else match rhs with
      | rat q => if q = 1 then .ok (some lhs) else .throws .logicError
      | _ => .ok none

/-- `RealNumber::deglex`, `src/real_number_product.cc:604-679`. -/
def deglex (lhs rhs : RN32) : Out Bool :=
  if lhs = rhs then .ok false
  else match lhs, rhs with
    | prod m, prod n => Mono32.deglex m n
    | prod _, _ => .ok false
    | _, prod _ => .ok true
    | rat _, rat _ => .ok false
    | rat _, atom _ => .ok true
    | atom _, rat _ => .ok false
    | atom i, atom j => .ok (i < j)

/-- Repeated squaring `x = x * x`, `n` times, as a client would write it. -/
def squarings (x : RN32) : ℕ → Out RN32
  | 0 => .ok x
  | n + 1 => do
    let y ← squarings x n
    mul y y

end RN32

end ExactReal
