[
 {
  "file": "Model/OrderHeap.lean",
  "def": "arfFrom",
  "old": "let missing : ℤ := ((prec : ℤ) + 1) - Arf.bits initial",
  "new": "let missing : ℤ := (prec : ℤ) - Arf.bits initial",
  "edit": "one digit fewer is requested from inner",
  "claim": "C84"
 },
 {
  "file": "Model/OrderHeap.lean",
  "def": "arfFrom",
  "old": "(e - 1))",
  "new": "e)",
  "edit": "the digits of inner are shifted by one place too few",
  "claim": "C84"
 },
 {
  "file": "Model/OrderHeap.lean",
  "def": "arfFrom",
  "old": "    else initial",
  "new": "    else Arf.shiftLeft initial 1",
  "edit": "initial is doubled when it has enough digits",
  "claim": "C84"
 },
 {
  "file": "Model/OrderHeap.lean",
  "def": "State.arfRandom",
  "old": "((gen.digits seed).arf prec)",
  "new": "((gen.digits 0).arf prec)",
  "edit": "the seed of the object is ignored",
  "claim": "C84"
 },
 {
  "file": "Model/OrderHeap.lean",
  "def": "State.innerDigits",
  "old": "| some ⟨_, _, .random seed⟩ => .ok (gen.digits seed)\n  | _ => .ub\n\n/-- `arf_` of an atom",
  "new": "| some ⟨_, _, .random seed⟩ => .ok (gen.digits (seed + 1))\n  | _ => .ub\n\n/-- `arf_` of an atom",
  "edit": "digits of another generator for inner",
  "claim": "C84"
 },
 {
  "file": "Model/OrderHeap.lean",
  "def": "State.prodLoop",
  "old": "let a ← s.arfAtom gen w p",
  "new": "let a ← s.arfAtom gen 1 p",
  "edit": "factors are approximated with too little precision",
  "claim": "C84"
 },
 {
  "file": "Model/OrderHeap.lean",
  "def": "State.prodLoop",
  "old": "(mulLoop w a n ret) rest",
  "new": "(mulLoop w a 1 ret) rest",
  "edit": "exponents are ignored",
  "claim": "C84"
 },
 {
  "file": "Model/OrderHeap.lean",
  "def": "State.arf",
  "old": "(workingPrec prec (f.map Prod.snd).sum)",
  "new": "(workingPrec prec f.length)",
  "edit": "working precision from the number of factors instead of the degree",
  "claim": "C84"
 },
 {
  "file": "Model/OrderHeap.lean",
  "def": "State.refine",
  "old": "(prec + 1)))⟩",
  "new": "(prec + 2)))⟩",
  "edit": "radius too small",
  "claim": "C84"
 },
 {
  "file": "Model/OrderHeap.lean",
  "def": "State.refine",
  "old": "if b.hasAccuracy prec then .ok b",
  "new": "if b.hasAccuracy 0 then .ok b",
  "edit": "an inaccurate ball is not refined",
  "claim": "C84"
 },
 {
  "file": "Model/OrderHeap.lean",
  "def": "Num.ltLoop",
  "old": "match self.lt other with",
  "new": "match other.lt self with",
  "edit": "operands swapped",
  "claim": "C84"
 },
 {
  "file": "Model/OrderHeap.lean",
  "def": "Num.ltLoop",
  "old": "ltLoop p q fuel (prec * 2) self other",
  "new": "ltLoop p q fuel prec self other",
  "edit": "precision is not increased",
  "claim": "C84"
 },
 {
  "file": "Model/OrderHeap.lean",
  "def": "Num.lt",
  "old": "if same then return false",
  "new": "if same then return true",
  "edit": "x < x",
  "claim": "C84"
 },
 {
  "file": "Model/OrderHeap.lean",
  "def": "Num.ltQ",
  "old": "return (r < q : Bool)",
  "new": "return (q < r : Bool)",
  "edit": "operands swapped for rationals",
  "claim": "C84"
 },
 {
  "file": "Model/OrderHeap.lean",
  "def": "Num.gtQ",
  "old": "(fun b => b.gtQ F q) fuel 64",
  "new": "(fun b => b.ltQ F q) fuel 64",
  "edit": "> uses <",
  "claim": "C84"
 },
 {
  "file": "Model/OrderHeap.lean",
  "def": "Num.gtQ",
  "old": "return (q < r : Bool)",
  "new": "return (q ≤ r : Bool)",
  "edit": "> holds for equal rationals",
  "claim": "C84"
 },
 {
  "file": "Model/OrderHeap.lean",
  "def": "HElt.arbSum",
  "old": "(coeff prec c)",
  "new": "(coeff 2 c)",
  "edit": "coefficients are approximated to 2 digits",
  "claim": "C84"
 },
 {
  "file": "Model/OrderHeap.lean",
  "def": "HElt.arbLoop",
  "old": "if ret.hasAccuracy accuracy then return ret",
  "new": "if ret.hasAccuracy 0 then return ret",
  "edit": "the requested accuracy is ignored",
  "claim": "C84"
 },
 {
  "file": "Model/OrderHeap.lean",
  "def": "HElt.arbLoop",
  "old": "arbLoop accuracy ts fuel (prec * 2)",
  "new": "arbLoop accuracy ts fuel prec",
  "edit": "precision is not increased",
  "claim": "C84"
 },
 {
  "file": "Model/OrderHeap.lean",
  "def": "HElt.arb",
  "old": "(accuracy + Nat.clog 2 o.basis.length)",
  "new": "0",
  "edit": "starts with precision 0 (never grows)",
  "claim": "C84"
 },
 {
  "file": "Model/OrderHeap.lean",
  "def": "HElt.ltLoop",
  "old": "| none => ltLoop op self fuel (prec * 2)",
  "new": "| none => return true",
  "edit": "undecided comparison answers true",
  "claim": "C84"
 },
 {
  "file": "Model/OrderHeap.lean",
  "def": "HElt.rational?",
  "old": "(Elt.rationalLoop P 0 ((o.basis.map st.base.rn).zip x.coeffs))",
  "new": "(Elt.rationalLoop P 1 ((o.basis.map st.base.rn).zip x.coeffs))",
  "edit": "sum starts at 1",
  "claim": "C84"
 },
 {
  "file": "Model/OrderHeap.lean",
  "def": "HElt.integer?",
  "old": "(if q.den = 1 then some q.num else none)",
  "new": "(some q.num)",
  "edit": "numerator of a fraction is its integer value",
  "claim": "C84"
 },
 {
  "file": "Model/OrderHeap.lean",
  "def": "HElt.eqRNLoop",
  "old": "if c = 0 then (if s.same g at_ then false",
  "new": "if c = 0 then (if s.same g at_ then true",
  "edit": "zero coefficient at the number itself",
  "claim": "C84"
 },
 {
  "file": "Model/OrderHeap.lean",
  "def": "HElt.eqRN",
  "old": "return (rational = some 0 : Bool)",
  "new": "return (rational = some 1 : Bool)",
  "edit": "zero element equals the number one",
  "claim": "C84"
 },
 {
  "file": "Model/OrderHeap.lean",
  "def": "HElt.eqRN",
  "old": "let _ ← Act.ret (checkArgument found)",
  "new": "let _ ← Act.ret (checkArgument (!found))",
  "edit": "argument check inverted",
  "claim": "C84"
 },
 {
  "file": "Model/OrderHeap.lean",
  "def": "HElt.lt",
  "old": "let equal ← x.eq (P := P) y\n  if equal then return false",
  "new": "let equal ← x.eq (P := P) y\n  if equal then return true",
  "edit": "x < x",
  "claim": "C84"
 },
 {
  "file": "Model/OrderHeap.lean",
  "def": "HElt.lt",
  "old": "let other ← y.arb gen F coeff fuel prec\n    return self.lt other",
  "new": "let other ← y.arb gen F coeff fuel 2\n    return self.lt other",
  "edit": "right operand with 2 digits only",
  "claim": "C84"
 },
 {
  "file": "Model/OrderHeap.lean",
  "def": "HElt.ltRN",
  "old": "let other ← Num.refine gen y Ball.zeroPmInf prec\n    return self.lt other",
  "new": "let other ← Num.refine gen y Ball.zeroPmInf prec\n    return other.lt self",
  "edit": "operands swapped",
  "claim": "C84"
 },
 {
  "file": "Model/OrderHeap.lean",
  "def": "HElt.ltQ",
  "old": "if rational = some q then return false\n  else ltLoop (fun _ self => return self.ltQ F q)",
  "new": "if rational = none then return false\n  else ltLoop (fun _ self => return self.ltQ F q)",
  "edit": "irrational elements are never less",
  "claim": "C84"
 },
 {
  "file": "Model/OrderHeap.lean",
  "def": "HElt.ltZ",
  "old": "if rational = some (n : ℚ) then return false\n  else ltLoop",
  "new": "if rational = some (n + 1 : ℚ) then return false\n  else ltLoop",
  "edit": "off by one in the exact case",
  "claim": "C84"
 },
 {
  "file": "Model/OrderHeap.lean",
  "def": "HElt.gtZ",
  "old": "return !r",
  "new": "return r",
  "edit": "negation dropped",
  "claim": "C84"
 },
 {
  "file": "Model/OrderHeap.lean",
  "def": "HElt.roundLoop",
  "old": "if round lower = round upper then return (round lower)",
  "new": "if round lower ≤ round upper then return (round lower)",
  "edit": "returns although the ends of the interval differ",
  "claim": "C84"
 },
 {
  "file": "Model/OrderHeap.lean",
  "def": "HElt.floor",
  "old": "| none => roundLoop Arf.floor",
  "new": "| none => roundLoop Arf.ceil",
  "edit": "floor rounds up",
  "claim": "C84"
 },
 {
  "file": "Model/OrderHeap.lean",
  "def": "HElt.ceil",
  "old": "| none => roundLoop Arf.ceil (fun prec => x.arb gen F coeff fuel prec) fuel 64",
  "new": "| none => roundLoop Arf.ceil (fun prec => x.arb gen F coeff fuel prec) fuel 0",
  "edit": "ceil starts with precision 0 (never grows)",
  "claim": "C84"
 },
 {
  "file": "Model/OrderHeap.lean",
  "def": "HElt.doubleLoop",
  "old": "if Double.ofArf lower = Double.ofArf upper then return (Double.ofArf lower)",
  "new": "if Double.ofArf lower = Double.ofArf lower then return (Double.ofArf lower)",
  "edit": "only the lower end is rounded",
  "claim": "C84"
 },
 {
  "file": "Model/OrderHeap.lean",
  "def": "HElt.toDouble",
  "old": "return (Double.ofArf (Arf.round .near 53 q))",
  "new": "return (Double.ofArf (Arf.round .near 24 q))",
  "edit": "rational rounded to float precision",
  "claim": "C84"
 },
 {
  "file": "Model/OrderHeap.lean",
  "def": "HElt.floordivLoop",
  "old": "let (lower, upper) ← Act.ret (F.div prec dividend div).interval",
  "new": "let (lower, upper) ← Act.ret (F.div prec div dividend).interval",
  "edit": "operands of the quotient swapped",
  "claim": "C84"
 },
 {
  "file": "Model/OrderHeap.lean",
  "def": "HElt.floordivSame",
  "old": "Elt.exactLoop P none (x.coeffs.zip rhs.coeffs)",
  "new": "Elt.exactLoop P none (rhs.coeffs.zip x.coeffs)",
  "edit": "operands of the exact quotient swapped",
  "claim": "C84"
 },
 {
  "file": "Model/OrderHeap.lean",
  "def": "HElt.floordiv",
  "old": "floordivSame gen F coeff fuel x' rhs'",
  "new": "floordivSame gen F coeff fuel x rhs",
  "edit": "promoted elements are not used",
  "claim": "C84"
 },
 {
  "file": "Model/OrderHeap.lean",
  "def": "HElt.floordiv",
  "old": "if same then floordivSame gen F coeff fuel x rhs",
  "new": "if !same then floordivSame gen F coeff fuel x rhs",
  "edit": "test for the same module inverted",
  "claim": "C84"
 }
]