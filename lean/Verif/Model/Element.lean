import Verif.Model.Module

/-!
# Elements, exact operations

`Element<Ring>` is a linear combination of the generators of its module.  In-place operations are modelled by a `Step`: the outcome together
with the state of the object afterwards.
-/

namespace ExactReal

/-- `ElementImplementation`, `src/element.cc:54-85`. -/
structure Elt (P R : Type) where
  mod : Mod P
  coeffs : List R
  deriving DecidableEq

variable {P : Type} [DecidableEq P] {R : Type} [CommRing R] [DecidableEq R] [CRing P R]

namespace Mod

/-- `Module::zero`, `src/module.cc:194-197`. -/
def zero (m : Mod P) : Elt P R := ⟨m, List.replicate m.basis.length 0⟩

/-- `Module::gen`, `src/module.cc:187-192`; writing past the end of the vector is undefined behaviour. -/
def gen (m : Mod P) (j : ℕ) : Out (Elt P R) :=
  if j < m.basis.length then .ok ⟨m, (List.replicate m.basis.length 0).set j 1⟩ else .ub

end Mod

namespace Elt

/-- Generators with their coefficients. -/
def terms (x : Elt P R) : List (RN × R) := x.mod.basis.zip x.coeffs

/-- Construct an element from a module and coefficients, `src/element.cc:62-65,124-126`. -/
def ofCoefficients [Build] (m : Mod P) (coefficients : List R) : Out (Elt P R) := do
  assertThat (coefficients.length = m.basis.length)
  .ok ⟨m, coefficients⟩

/-- `Element(const Ring::ElementClass&)`, `src/element.cc:146-148`; `parent` is the ring object the coefficient carries. -/
def ofScalar [Build] (parent : P) (value : R) : Out (Elt P R) := do
  let m ← Mod.make (CRing.ofValue parent value) [.rat 1]
  ofCoefficients m [value]

/-- `Element(const Element<S>&)` for a smaller ring `S` (ℤ → ℚ, ℤ → number field, ℚ → number field), `src/element.cc:128-144`:
the module is made over `Ring()`. -/
def convert [Build] {P' R' : Type} (f : R' → R) (x : Elt P' R') : Out (Elt P R) := do
  let m ← Mod.make (CRing.default : P) x.mod.basis
  ofCoefficients m (x.coeffs.map f)

/-- `Element()`, `src/element.cc:57,121-122`: the zero of the module without generators over `Ring()`. -/
def default : Elt P R := ⟨⟨CRing.default, []⟩, []⟩

/-- `operator[]`, `src/element.cc:150-153`: `none` means that `std::out_of_range` is thrown.  A negative index is converted to a `size_t` that is
larger than any size. -/
def coefficient? (x : Elt P R) (i : ℤ) : Option R := if i < 0 then none else x.coeffs[i.toNat]?

/-- `operator bool`, `src/element.cc:803-806`. -/
def toBool (x : Elt P R) : Bool := x.coeffs.any fun c => c ≠ 0

/-! ### promote -/

/-- The loop of `promote`, `src/element.cc:869-894`: `ours` are the remaining generators of this element with their coefficients, `theirs` the
remaining generators of the target module.  `ring` is the ring of the target module, `src` the ring of this element's module. -/
def promoteLoop [Build] (ring src : P) : List (RN × R) → List RN → Out (List R)
  | [], [] => .ok []
  | [], _ :: theirs => do
    let rest ← promoteLoop ring src [] theirs
    .ok (0 :: rest)
  | (_, c) :: ours, [] => do
    assertThat (c = 0)
    promoteLoop ring src ours []
  | (g, c) :: ours, t :: theirs =>
    if g = t then do
      let c' ← CRing.coerce ring src c
      let rest ← promoteLoop ring src ours theirs
      .ok (c' :: rest)
    else if g.lt t then promoteLoop ring src ours (t :: theirs)
    else do
      let rest ← promoteLoop ring src ((g, c) :: ours) theirs
      .ok (0 :: rest)
termination_by ours theirs => ours.length + theirs.length

/-- `promote`, `src/element.cc:854-897`.  The object is only assigned at the end, so it is unchanged if this throws. -/
def promote [Build] (x : Elt P R) (parent : Mod P) : Out (Elt P R) :=
  if x.mod = parent then .ok x
  else if !x.toBool then .ok parent.zero
  else do
    let coefficients ← promoteLoop parent.par x.mod.par x.terms parent.basis
    ofCoefficients parent coefficients

/-! ### additive operations -/

/-- Coefficientwise sum, `src/element.cc:215-218`. -/
def addSame (x y : Elt P R) : Elt P R := ⟨x.mod, List.zipWith (· + ·) x.coeffs y.coeffs⟩

/-- `operator+=`, `src/element.cc:209-220`.  The right operand of `+=` is evaluated before the left one (C++17). -/
def addAssign [Build] (x y : Elt P R) : Step (Elt P R) :=
  if x.mod ≠ y.mod then
    match Mod.span x.mod y.mod with
    | .ok parent =>
      match y.promote parent with
      | .ok y' => match x.promote parent with
        | .ok x' => .done (addSame x' y')
        | e => ⟨e >>= fun _ => .ok (), x⟩
      | e => ⟨e >>= fun _ => .ok (), x⟩
    | e => ⟨e >>= fun _ => .ok (), x⟩
  else .done (addSame x y)

/-- `x + y` -/
def add [Build] (x y : Elt P R) : Out (Elt P R) := (addAssign x y).result

/-- `operator-`, `src/element.cc:274-282`. -/
def neg (x : Elt P R) : Elt P R := ⟨x.mod, x.coeffs.map fun c => -c⟩

/-- `operator-=`, `src/element.cc:222-225`. -/
def subAssign [Build] (x y : Elt P R) : Step (Elt P R) := addAssign x y.neg

/-- `x - y` -/
def sub [Build] (x y : Elt P R) : Out (Elt P R) := (subAssign x y).result

/-! ### multiplication -/

/-- `products[gen] += value`, `src/element.cc:247`.  The map is keyed by pointers; its order plays no role since it is sorted later. -/
def accumulate (gen : RN) (value : R) : List (RN × R) → List (RN × R)
  | [] => [(gen, value)]
  | (g, c) :: rest => if g = gen then (g, c + value) :: rest else (g, c) :: accumulate gen value rest

/-- The inner loop over the terms of `rhs`, `src/element.cc:243-248`. -/
def mulRow (g : RN) (c : R) : List (RN × R) → List (RN × R) → Out (List (RN × R))
  | [], products => .ok products
  | (h, d) :: rest, products => do
    let gen ← g.mul h
    mulRow g c rest (accumulate gen (c * d) products)

/-- The outer loop over the terms of `this`, `src/element.cc:242-249`. -/
def mulRows : List (RN × R) → List (RN × R) → List (RN × R) → Out (List (RN × R))
  | [], _, products => .ok products
  | (g, c) :: rest, rhs, products => do
    let products ← mulRow g c rhs products
    mulRows rest rhs products

/-- `operator*=` for elements over the same ring, `src/element.cc:240-266`. -/
def mulSame [Build] (x y : Elt P R) : Step (Elt P R) :=
  match mulRows x.terms y.terms [] with
  | .ok products =>
    let sorted := products.insertionSort fun a b => (RN.lt b.1 a.1) = false
    let basis := sorted.map Prod.fst
    match Mod.make x.mod.par basis with
    | .ok parent => ⟨assertThat (parent.basis = basis), ⟨parent, sorted.map Prod.snd⟩⟩
    | e => ⟨e >>= fun _ => .ok (), x⟩
  | e => ⟨e >>= fun _ => .ok (), x⟩

/-- `operator*=`, `src/element.cc:227-267`. The right operand of the recursive `*=` is evaluated before the left one (C++17); the recursive
call checks for zeros again, which has no effect. -/
def mulAssign [Build] (x y : Elt P R) : Step (Elt P R) :=
  if !x.toBool then .done x
  else if !y.toBool then .done y
  else if x.mod.par ≠ y.mod.par then
    match (do
      let compositum ← CRing.compositum x.mod.par y.mod.par
      let my ← Mod.make compositum y.mod.basis
      let y' ← y.promote my
      let mx ← Mod.make compositum x.mod.basis
      let x' ← x.promote mx
      .ok (x', y') : Out (Elt P R × Elt P R)) with
    | .ok (x', y') => mulSame x' y'
    | e => ⟨e >>= fun _ => .ok (), x⟩
  else mulSame x y

/-- `x * y` -/
def mul [Build] (x y : Elt P R) : Out (Elt P R) := (mulAssign x y).result

/-- `operator*=(const RealNumber&)`, `src/element.cc:269-272`. -/
def mulRNAssign [Build] (x : Elt P R) (r : RN) : Step (Elt P R) :=
  match (do let m ← Mod.make x.mod.par [r]; m.gen 0 : Out (Elt P R)) with
  | .ok y => mulAssign x y
  | e => ⟨e >>= fun _ => .ok (), x⟩

/-! ### scalars -/

/-- The loops of `ElementImplementation::operator*=` and `operator/=`, `src/element.cc:67-81`: coefficients are updated in place one after
the other, an exception leaves the ones that have been processed modified. -/
def scaleLoop (f : R → Step R) : List R → Step (List R)
  | [] => .done []
  | c :: cs =>
    match f c with
    | ⟨.ok (), c'⟩ => let r := scaleLoop f cs; ⟨r.out, c' :: r.self⟩
    | ⟨e, c'⟩ => ⟨e, c' :: cs⟩

/-- Apply an in-place operation to all coefficients. -/
def scale (f : R → Step R) (x : Elt P R) : Step (Elt P R) := let r := scaleLoop f x.coeffs; ⟨r.out, ⟨x.mod, r.self⟩⟩

/-- `operator*=` for integer types and `mpz_class`, `src/element.cc:284-336`. -/
def imulZ (x : Elt P R) (n : ℤ) : Step (Elt P R) := x.scale fun c => CRing.imulZ P c n
/-- `operator*=(const mpq_class&)`, `src/element.cc:338-342`. -/
def imulQ (x : Elt P R) (q : ℚ) : Step (Elt P R) := x.scale fun c => CRing.imulQ P c q
/-- `operator*=(const Ring::ElementClass&)`, `src/element.cc:344-349`. -/
def imulR (x : Elt P R) (d : R) : Step (Elt P R) := x.scale fun c => CRing.imulR P c d
/-- `operator/=` for integer types and `mpz_class`, `src/element.cc:351-403`. -/
def idivZ (x : Elt P R) (n : ℤ) : Step (Elt P R) := x.scale fun c => CRing.idivZ P c n
/-- `operator/=(const mpq_class&)`, `src/element.cc:405-409`. -/
def idivQ (x : Elt P R) (q : ℚ) : Step (Elt P R) := x.scale fun c => CRing.idivQ P c q
/-- `operator/=(const Ring::ElementClass&)`, `src/element.cc:411-416`. -/
def idivR (x : Elt P R) (d : R) : Step (Elt P R) := x.scale fun c => CRing.idivR P c d

/-! ### conversions and comparisons -/

/-- The loop of `operator std::optional<mpq_class>`, `src/element.cc:746-763`. -/
def rationalLoop (P : Type) [DecidableEq P] {R : Type} [CommRing R] [DecidableEq R] [CRing P R] : ℚ → List (RN × R) → Option ℚ
  | ret, [] => some ret
  | ret, (g, c) :: rest =>
    if c ≠ 0 then
      match g.rational? with
      | some rational =>
        match CRing.rational P c with
        | some rationalCoefficient => rationalLoop P (ret + rational * rationalCoefficient) rest
        | none => none
      | none => none
    else rationalLoop P ret rest

/-- `operator std::optional<mpq_class>`, `src/element.cc:744-764`. -/
def rational? (x : Elt P R) : Option ℚ := rationalLoop P 0 x.terms

/-- `operator std::optional<mpz_class>`, `src/element.cc:734-742`. -/
def integer? (x : Elt P R) : Option ℤ :=
  match x.rational? with
  | some q => if q.den = 1 then some q.num else none
  | none => none

/-- `operator==(const mpq_class&)`, `src/element.cc:728-732`. -/
def eqQ (x : Elt P R) (q : ℚ) : Bool := x.rational? = some q

/-- `operator==` for integers, `src/element.cc:683-726`. -/
def eqZ (x : Elt P R) (n : ℤ) : Bool := x.eqQ n

/-- `operator==(const Element&)`, `src/element.cc:766-774`. -/
def eq [Build] (x y : Elt P R) : Out Bool :=
  if x.mod ≠ y.mod then do
    let parent ← Mod.span x.mod y.mod
    let x' ← x.promote parent
    let y' ← y.promote parent
    .ok (x'.coeffs = y'.coeffs)
  else .ok (x.coeffs = y.coeffs)

/-- The loop of `operator==(const RealNumber&)`, `src/element.cc:786-800`, on the terms of the element, `at_` being the generator found. -/
def eqRNLoop (at_ : RN) : List (RN × R) → Bool
  | [] => true
  | (g, c) :: rest =>
    if c = 0 then (if g = at_ then false else eqRNLoop at_ rest)
    else if c = 1 then (if g ≠ at_ then false else eqRNLoop at_ rest)
    else false

/-- `operator==(const RealNumber&)`, `src/element.cc:776-801`.  Without checks, a missing generator makes `at` the past-the-end position,
i.e., no position of the loop is equal to it. -/
def eqRN [Build] (x : Elt P R) (rhs : RN) : Out Bool :=
  if !x.toBool then .ok (!rhs.toBool)
  else do
    checkArgument (x.mod.basis.any fun g => g = rhs)
    .ok (eqRNLoop rhs x.terms)

/-- `simplify`, `src/element.cc:899-918`. -/
def simplify [Build] (x : Elt P R) : Out (Elt P R) :=
  if x.coeffs.all fun c => c ≠ 0 then .ok x
  else
    let gens := (x.terms.filter fun t => t.2 ≠ 0).map Prod.fst
    if gens.length = x.mod.basis.length then .ok x
    else do
      let parent ← Mod.make x.mod.par gens
      x.promote parent

/-- `unit`, `src/element.cc:522-538`: `gen(i)` converts to a rational iff the generator is rational. -/
def unit (x : Elt P R) : Bool :=
  x.toBool && x.terms.all fun t => t.2 = 0 || (t.1.isRat && CRing.unit P t.2)

/-! ### truediv -/

/-- The lambda `leading` of `truediv`, `src/element.cc:434-441`. -/
def leading (x : Elt P R) : Out (R × RN) :=
  match x.terms.reverse.find? fun t => t.2 ≠ 0 with
  | some (g, c) => .ok (c, g)
  | none => .throws .logicError

/-- The loop of `truediv`, `src/element.cc:443-462`, run for at most `fuel` iterations. -/
def truedivLoop [Build] (ring : P) (rhs : Elt P R) : ℕ → (remainder quotient : Elt P R) → Out (Option (Elt P R))
  | 0, _, _ => .pending
  | fuel + 1, remainder, quotient =>
    if !remainder.toBool then .ok (some quotient)
    else do
      let (a, g) ← remainder.leading
      let (b, h) ← rhs.leading
      let generatorQuotient ← g.div h
      match generatorQuotient with
      | none => .ok none
      | some gq =>
        let coefficientQuotient := CRing.quo P a b
        if coefficientQuotient * b ≠ a then do
          assertThat (!CRing.isField P)
          .ok none
        else do
          let m ← Mod.make ring [gq]
          let g0 ← m.gen 0
          let partialQuotient ← (g0.imulR coefficientQuotient).result
          let quotient ← quotient.add partialQuotient
          let product ← partialQuotient.mul rhs
          let remainder ← remainder.sub product
          truedivLoop ring rhs fuel remainder quotient

/-- `truediv` for operands in the same module, `src/element.cc:419-424,430-465`. -/
def truedivSame [Build] (fuel : ℕ) (x rhs : Elt P R) : Out (Option (Elt P R)) := do
  checkArgument (!rhs.eqZ 0)
  if rhs.eqZ 1 then .ok (some x)
  else truedivLoop x.mod.par rhs fuel x x.mod.zero

/-- `truediv`, `src/element.cc:418-465`, with at most `fuel` iterations of its loop. -/
def truediv [Build] (fuel : ℕ) (x rhs : Elt P R) : Out (Option (Elt P R)) := do
  checkArgument (!rhs.eqZ 0)
  if rhs.eqZ 1 then .ok (some x)
  else if x.mod ≠ rhs.mod then do
    let parent ← Mod.span x.mod rhs.mod
    let x' ← x.promote parent
    let rhs' ← rhs.promote parent
    truedivSame fuel x' rhs'
  else truedivLoop x.mod.par rhs fuel x x.mod.zero

end Elt

namespace Mod

/-- `Module::one`, `src/module.cc:199-214`.  `mpq_class(den, num)` is not canonical if `num ≤ 0`; computing with such a value is undefined
behaviour of GMP, modelled as `ub`. -/
def one (m : Mod P) : Out (Elt P R) :=
  match m.basis.findIdx? RN.isRat with
  | none => .throws .logicError
  | some g =>
    match (m.basis[g]?).bind RN.rational? with
    | none => .throws .logicError -- not reachable
    | some rational =>
      if CRing.isIntegers P then
        if rational.num = 1 then do
          let x ← m.gen g
          (Elt.imulZ x rational.den).result
        else .throws .logicError -- no further generator is rational
      else if rational.num ≤ 0 then .ub
      else do
        let x ← m.gen g
        (Elt.imulQ x (rational.den / rational.num)).result

end Mod

end ExactReal
