[
 {
  "file": "Model/Monomial.lean",
  "def": "Mono.merge",
  "old": "else if i = j then (i, a + b) :: merge lhs rhs",
  "new": "else if i = j then (i, a) :: merge lhs rhs",
  "edit": "colliding atoms keep the left exponent only",
  "claim": "C01: value of product"
 },
 {
  "file": "Model/Monomial.lean",
  "def": "Mono.merge",
  "old": "    else (j, b) :: merge ((i, a) :: lhs) rhs",
  "new": "    else (j, b) :: merge lhs rhs",
  "edit": "drops an atom of the left factor when the right one comes first",
  "claim": "C01"
 },
 {
  "file": "Model/Monomial.lean",
  "def": "Mono.square",
  "old": "(p.1, p.2 * 2)",
  "new": "(p.1, p.2 + 1)",
  "edit": "square adds one instead of doubling",
  "claim": "C01"
 },
 {
  "file": "Model/Monomial.lean",
  "def": "Mono.keyEq",
  "old": "if a + b ≠ c then false else keyEq l r s",
  "new": "if a ≠ c then false else keyEq l r s",
  "edit": "cache comparison ignores right exponent",
  "claim": "C03"
 },
 {
  "file": "Model/Monomial.lean",
  "def": "Mono.keyEq",
  "old": "  | l, r, [] => l.isEmpty && r.isEmpty",
  "new": "  | l, _, [] => l.isEmpty",
  "edit": "cache comparison ignores remaining right atoms",
  "claim": "C03"
 },
 {
  "file": "Model/Monomial.lean",
  "def": "Mono.keyEq",
  "old": "    if i < k then false\n    else if i ≠ k ∨ a ≠ c then false",
  "new": "    if i < k then false\n    else if a ≠ c then false",
  "edit": "cache comparison ignores id in the tail",
  "claim": "C03"
 },
 {
  "file": "Model/Monomial.lean",
  "def": "Mono.powLoop",
  "old": "(base * base) (exponent / 2)",
  "new": "base (exponent / 2)",
  "edit": "fast exponentiation does not square the base",
  "claim": "C04"
 },
 {
  "file": "Model/Monomial.lean",
  "def": "Mono.divLoop",
  "old": "else if b > a then none",
  "new": "else if b ≥ a then none",
  "edit": "division boundary: equal exponents not divisible",
  "claim": "C05 completeness"
 },
 {
  "file": "Model/Monomial.lean",
  "def": "Mono.divLoop",
  "old": "  | [], _ :: _ => none",
  "new": "  | [], _ :: _ => some []",
  "edit": "missed case: divisor atoms beyond the end ignored",
  "claim": "C05 soundness"
 },
 {
  "file": "Model/Monomial.lean",
  "def": "Mono.divAtom",
  "old": "some ((i, a - 1) :: lhs)",
  "new": "some ((i, a) :: lhs)",
  "edit": "dropped decrement",
  "claim": "C05"
 },
 {
  "file": "Model/Monomial.lean",
  "def": "Mono.dropZeros",
  "old": "p.2 ≠ 0",
  "new": "p.2 ≠ 1",
  "edit": "drops exponents one instead of zero",
  "claim": "C05"
 },
 {
  "file": "Model/Monomial.lean",
  "def": "Mono.deglexLoop",
  "old": "else if a < b then .ok false\n    else if a > b then .ok true",
  "new": "else if a < b then .ok true\n    else if a > b then .ok false",
  "edit": "swapped exponent comparison",
  "claim": "C06/C07"
 },
 {
  "file": "Model/Monomial.lean",
  "def": "Mono.deglex",
  "old": ".ok (lhs.totalDegree < rhs.totalDegree)",
  "new": ".ok (rhs.totalDegree < lhs.totalDegree)",
  "edit": "swapped degree comparison",
  "claim": "C07"
 },
 {
  "file": "Model/RealNumber.lean",
  "def": "RN.ratMul",
  "old": "| _ => .throws .logicError\n\n/-- `RealNumber::operator*`",
  "new": "| _ => .ok rhs\n\n/-- `RealNumber::operator*`",
  "edit": "rational times non-rational silently drops the rational",
  "claim": "C01"
 },
 {
  "file": "Model/RealNumber.lean",
  "def": "RN.rebuild",
  "old": "  | [] => rat 1",
  "new": "  | [] => rat 0",
  "edit": "empty quotient is 0",
  "claim": "C05"
 },
 {
  "file": "Model/RealNumber.lean",
  "def": "RN.rebuild",
  "old": "  | [(i, 1)] => atom i",
  "new": "  | [(i, _)] => atom i",
  "edit": "single factor ignores its exponent",
  "claim": "C05"
 },
 {
  "file": "Model/RealNumber.lean",
  "def": "RN.deglex",
  "old": "    | prod _, _ => .ok false\n    | _, prod _ => .ok true",
  "new": "    | prod _, _ => .ok true\n    | _, prod _ => .ok false",
  "edit": "products before atoms",
  "claim": "C06"
 },
 {
  "file": "Model/RealNumber.lean",
  "def": "RN.persistHash",
  "old": "    | prod m => m.hash * m.hash\n    | atom i => UInt64.ofNat i * UInt64.ofNat i",
  "new": "    | prod m => m.hash\n    | atom i => UInt64.ofNat i * UInt64.ofNat i",
  "edit": "hash of a square not squared",
  "claim": "C04"
 },
 {
  "file": "Model/Module.lean",
  "def": "Mod.extend",
  "old": "then basis else basis ++ [ngen]",
  "new": "then basis else basis",
  "edit": "span forgets the new generators",
  "claim": "C09"
 },
 {
  "file": "Model/Module.lean",
  "def": "Mod.spanSame",
  "old": "if n.submodule m then .ok m",
  "new": "if n.submodule m then .ok n",
  "edit": "span returns the smaller module",
  "claim": "C09"
 },
 {
  "file": "Model/Module.lean",
  "def": "Mod.submodule",
  "old": "self.basis.all fun gen => supermodule.basis.any",
  "new": "supermodule.basis.all fun gen => self.basis.any",
  "edit": "swapped arguments",
  "claim": "C10"
 },
 {
  "file": "Model/Module.lean",
  "def": "Mod.compatible",
  "old": "!(x.isRat && y.isRat) && !(x = y)",
  "new": "!(x = y)",
  "edit": "missing check for two rationals",
  "claim": "C08"
 },
 {
  "file": "Model/Element.lean",
  "def": "Elt.promoteLoop",
  "old": "    else if g.lt t then promoteLoop ring src ours (t :: theirs)",
  "new": "    else if t.lt g then promoteLoop ring src ours (t :: theirs)",
  "edit": "promotion walks in the wrong direction",
  "claim": "C11"
 },
 {
  "file": "Model/Element.lean",
  "def": "Elt.promote",
  "old": "else if !x.toBool then .ok parent.zero",
  "new": "else if x.toBool then .ok parent.zero",
  "edit": "inverted zero shortcut",
  "claim": "C11"
 },
 {
  "file": "Model/Element.lean",
  "def": "Elt.addAssign",
  "old": "| .ok x' => .done (addSame x' y')",
  "new": "| .ok x' => .done (addSame x' x')",
  "edit": "adds the left operand twice",
  "claim": "C12"
 },
 {
  "file": "Model/Element.lean",
  "def": "Elt.neg",
  "old": "⟨x.mod, x.coeffs.map fun c => -c⟩",
  "new": "⟨x.mod, x.coeffs⟩",
  "edit": "negation does nothing",
  "claim": "C13"
 },
 {
  "file": "Model/Element.lean",
  "def": "Elt.accumulate",
  "old": "(g, c + value) :: rest",
  "new": "(g, value) :: rest",
  "edit": "colliding products overwrite instead of accumulate",
  "claim": "C14"
 },
 {
  "file": "Model/Element.lean",
  "def": "Elt.mulSame",
  "old": "let sorted := products.insertionSort fun a b => (RN.lt b.1 a.1) = false",
  "new": "let sorted := products",
  "edit": "products not sorted",
  "claim": "C14 / assertion"
 },
 {
  "file": "Model/Element.lean",
  "def": "Elt.mulAssign",
  "old": "  else if !y.toBool then .done y",
  "new": "  else if !y.toBool then .done x",
  "edit": "x * 0 = x",
  "claim": "C14"
 },
 {
  "file": "Model/Element.lean",
  "def": "Elt.eqRNLoop",
  "old": "    if c = 0 then (if g = at_ then false else eqRNLoop at_ rest)",
  "new": "    if c = 0 then eqRNLoop at_ rest",
  "edit": "x == r does not look for coefficient 1",
  "claim": "C53"
 },
 {
  "file": "Model/Element.lean",
  "def": "Elt.simplify",
  "old": "let gens := (x.terms.filter fun t => t.2 ≠ 0).map Prod.fst",
  "new": "let gens := (x.terms.filter fun t => t.2 = 0).map Prod.fst",
  "edit": "keeps the unused generators",
  "claim": "C17"
 },
 {
  "file": "Model/Element.lean",
  "def": "Elt.unit",
  "old": "x.toBool && x.terms.all",
  "new": "x.terms.all",
  "edit": "zero is a unit",
  "claim": "C32"
 },
 {
  "file": "Model/Element.lean",
  "def": "Elt.truedivLoop",
  "old": "let remainder ← remainder.sub product",
  "new": "let remainder ← remainder.add product",
  "edit": "remainder grows",
  "claim": "C18/C19"
 },
 {
  "file": "Model/Element.lean",
  "def": "Elt.truedivLoop",
  "old": "        if coefficientQuotient * b ≠ a then do",
  "new": "        if False then do",
  "edit": "inexact coefficient quotient accepted",
  "claim": "C19 (termination over ZZ)"
 },
 {
  "file": "Model/Element.lean",
  "def": "Elt.leading",
  "old": "x.terms.reverse.find?",
  "new": "x.terms.find?",
  "edit": "smallest instead of leading term",
  "claim": "C19"
 },
 {
  "file": "Model/Element.lean",
  "def": "Elt.truedivSame",
  "old": "if rhs.eqZ 1 then .ok (some x)",
  "new": "if rhs.eqZ 1 then .ok (some rhs)",
  "edit": "x / 1 = 1",
  "claim": "C18"
 },
 {
  "file": "Model/Element.lean",
  "def": "Elt.scaleLoop",
  "old": "    | ⟨e, c'⟩ => ⟨e, c' :: cs⟩",
  "new": "    | ⟨e, _⟩ => ⟨e, c :: cs⟩",
  "edit": "failing step leaves the coefficient alone (fixes part of F7)",
  "claim": "C45 counterexamples"
 },
 {
  "file": "Model/Element.lean",
  "def": "Elt.eq",
  "old": "    .ok (x'.coeffs = y'.coeffs)\n",
  "new": "    .ok (x.coeffs = y.coeffs)\n",
  "edit": "compares unpromoted coefficients",
  "claim": "C16"
 },
 {
  "file": "Model/Element.lean",
  "def": "Mod.one",
  "old": "(Elt.imulZ x rational.den).result",
  "new": "(Elt.imulZ x rational.num).result",
  "edit": "one multiplies by the numerator",
  "claim": "C33"
 },
 {
  "file": "Model/Element.lean",
  "def": "Mod.one",
  "old": "(Elt.imulQ x (rational.den / rational.num)).result",
  "new": "(Elt.imulQ x (rational.num / rational.den)).result",
  "edit": "one multiplies by the generator instead of its inverse",
  "claim": "C33"
 },
 {
  "file": "Model/Ring.lean",
  "def": "IntegerRing.idivZ",
  "old": "else if Int.tmod lhs rhs ≠ 0 then .fail .invalidArgument lhs\n",
  "new": "",
  "edit": "integer division silently truncates",
  "claim": "C15"
 },
 {
  "file": "Model/Ring.lean",
  "def": "IntegerRing.imulQ",
  "old": "fun s => idivZ s rhs.den",
  "new": "fun s => .done s",
  "edit": "multiplication by a rational ignores the denominator",
  "claim": "C15"
 },
 {
  "file": "Model/Ring.lean",
  "def": "RationalField.floor",
  "old": "Int.tdiv x.num x.den",
  "new": "Int.fdiv x.num x.den",
  "edit": "floor fixed (counterexample must fail)",
  "claim": "C46 (negation theorem)"
 },
 {
  "file": "Model/Ring.lean",
  "def": "NumberField.compositum",
  "old": "  else if lhs.subfield = ⊥ then .ok rhs",
  "new": "  else if lhs.subfield = ⊥ then .ok lhs",
  "edit": "compositum returns ℚ instead of the larger field",
  "claim": "C50"
 },
 {
  "file": "Model/Ring.lean",
  "def": "NumberField.coerce",
  "old": "  else if (rational x).isSome then .ok x\n  else .throws .logicError",
  "new": "  else .ok x",
  "edit": "coerce accepts foreign elements",
  "claim": "C50/C11"
 }
]