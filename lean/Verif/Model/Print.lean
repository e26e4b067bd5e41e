import Verif.Model.ElementApprox

/-!
# Printing elements

The output is modelled as a list of tokens: how a coefficient or a generator is written is left to `operator<<` of GMP, e-antic and
`RealNumber::operator>>`; blanks are not modelled.
-/

namespace ExactReal

/-- What is written to the stream. -/
inductive Tok (R : Type)
  /-- a coefficient -/
  | num (c : R)
  /-- a generator -/
  | gen (g : RN)
  /-- `*` -/
  | times
  /-- ` + ` -/
  | plus
  /-- `-` or ` - ` -/
  | minus

namespace Print

/-- `std::set<T>::insert` on the list of the entries of the set.  Simplification: the new entry is compared with the entries one after the other
while the search tree only compares it with some of them; the outcome is the same if all comparisons return and are consistent. -/
def setInsert {T : Type} (lt : T → T → Out Bool) (x : T) : List T → Out (List T)
  | [] => .ok [x]
  | y :: ys => do
    if ← lt x y then .ok (x :: y :: ys)
    else if ← lt y x then do
      let rest ← setInsert lt x ys
      .ok (y :: rest)
    else .ok (y :: ys)

variable {P : Type} [DecidableEq P] {R : Type} [CommRing R] [DecidableEq R] [CRing P R]

/-- A `std::tuple<bool, Element<Ring>, Ring::ElementClass>`, `src/element.cc:925`. -/
structure Entry (P R : Type) where
  negative : Bool
  elt : Elt P R
  coeff : R

/-- `operator<` of the tuples: lexicographic, every component is compared in both directions. -/
def Entry.lt (eltLt : Elt P R → Elt P R → Out Bool) (coeffLt : R → R → Bool) (a b : Entry P R) : Out Bool := do
  if !a.negative && b.negative then .ok true
  else if !b.negative && a.negative then .ok false
  else if ← eltLt a.elt b.elt then .ok true
  else if ← eltLt b.elt a.elt then .ok false
  else .ok (coeffLt a.coeff b.coeff)

/-- The loop that fills the set, `src/element.cc:926-931`. -/
def fill (ring : P) (eltLt : Elt P R → Elt P R → Out Bool) (coeffLt : R → R → Bool) : List (RN × R) → List (Entry P R) → Out (List (Entry P R))
  | [], coefficients => .ok coefficients
  | (g, c) :: rest, coefficients => do
    let m ← Mod.make ring [g]
    let e ← m.gen 0
    let coefficients ← setInsert (Entry.lt eltLt coeffLt) ⟨coeffLt c 0, e, c⟩ coefficients
    fill ring eltLt coeffLt rest coefficients

/-- The part of the loop that writes coefficient and generator, `src/element.cc:952-960`. -/
def writeTerm (c : R) (g : RN) : List (Tok R) :=
  if c ≠ 1 then .num c :: (if g ≠ .rat 1 then [.times, .gen g] else [])
  else [.gen g]

/-- The loop that writes the entries, `src/element.cc:933-964`: what is written in addition to `out`, and `empty` at the end. -/
def write (coeffLt : R → R → Bool) : List (Entry P R) → (empty : Bool) → Out (List (Tok R) × Bool)
  | [], empty => .ok ([], empty)
  | gc :: rest, empty =>
    let c := gc.coeff
    if c ≠ 0 then
      match gc.elt.mod.basis with
      | [] => .ub
      | g :: _ => do
        let (out, empty') ← write coeffLt rest false
        if coeffLt 0 c then .ok ((if empty then [] else [.plus]) ++ writeTerm c g ++ out, empty')
        else .ok (.minus :: writeTerm (-c) g ++ out, empty')
    else write coeffLt rest empty

/-- `operator<<(std::ostream&, const Element<Ring>&)`, `src/element.cc:920-967`; `eltLt` is `Element::operator<`, `coeffLt` is `<` of the coefficients. -/
def element (eltLt : Elt P R → Elt P R → Out Bool) (coeffLt : R → R → Bool) (x : Elt P R) : Out (List (Tok R)) := do
  let coefficients ← fill x.mod.par eltLt coeffLt x.terms []
  let (out, empty) ← write coeffLt coefficients true
  .ok (out ++ if empty then [.num 0] else [])

end Print

end ExactReal
