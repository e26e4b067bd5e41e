[
 {
  "file": "Model/LongMore.lean",
  "def": "RN.ltArfLong",
  "old": "fuel 2 Ball.zeroPmInf",
  "new": "fuel 0 Ball.zeroPmInf",
  "edit": "starts with precision 0",
  "claim": "C90: same answers as the unbounded model"
 },
 {
  "file": "Model/LongMore.lean",
  "def": "RN.ltArfLong",
  "old": "if x.eqArf a then .ok false else ltArfLoopLong",
  "new": "if x.eqArf a then .ok true else ltArfLoopLong",
  "edit": "equal numbers compare as less",
  "claim": "C90"
 },
 {
  "file": "Model/LongMore.lean",
  "def": "RN.gtArfLong",
  "old": "    .ok !r\n\n/-- The loops",
  "new": "    .ok r\n\n/-- The loops",
  "edit": "> does not negate <",
  "claim": "C90"
 },
 {
  "file": "Model/LongMore.lean",
  "def": "RN.ltArfLoopLong",
  "old": "let p ← long (prec * 2)\n      ltArfLoopLong",
  "new": "let p ← long (prec * 2 ^ 62)\n      ltArfLoopLong",
  "edit": "the precision grows too fast and overflows",
  "claim": "C90: no overflow"
 },
 {
  "file": "Model/LongMore.lean",
  "def": "RN.cmpQLoopLong",
  "old": "let b ← x.arbLong atoms prec",
  "new": "let b ← x.arbLong atoms (prec / 2)",
  "edit": "half the precision",
  "claim": "C90"
 },
 {
  "file": "Model/LongMore.lean",
  "def": "RN.gtQLong",
  "old": "| none => cmpQLoopLong atoms x (fun b => b.gtQ F q) fuel 64",
  "new": "| none => cmpQLoopLong atoms x (fun b => b.ltQ F q) fuel 64",
  "edit": "> tests <",
  "claim": "C90"
 },
 {
  "file": "Model/LongMore.lean",
  "def": "RN.toDoubleLong",
  "old": "x.arfLong atoms 54",
  "new": "x.arfLong atoms 53",
  "edit": "one bit less than ARF_DOUBLE_PRECISION",
  "claim": "C90"
 },
 {
  "file": "Model/LongMore.lean",
  "def": "Elt.floordivLoopLong",
  "old": "| some false => .ub",
  "new": "| some false => .ok 0",
  "edit": "division by zero returns 0",
  "claim": "C90"
 },
 {
  "file": "Model/LongMore.lean",
  "def": "Elt.floordivLoopLong",
  "old": "(F.div prec dividend div)",
  "new": "(F.div prec div dividend)",
  "edit": "swapped quotient",
  "claim": "C90"
 },
 {
  "file": "Model/LongMore.lean",
  "def": "Elt.floordivSameLong",
  "old": "fuel 64\n\n/-- `Element::floordiv`",
  "new": "fuel (2 ^ 63)\n\n/-- `Element::floordiv`",
  "edit": "starts at a precision that cannot be doubled",
  "claim": "C90: no overflow"
 },
 {
  "file": "Model/LongMore.lean",
  "def": "Elt.floordivLong",
  "old": "let rhs' ← rhs.promote parent\n",
  "new": "let rhs' ← rhs.promote x.mod\n",
  "edit": "promotes to the wrong module",
  "claim": "C90"
 },
 {
  "file": "Model/LongMore.lean",
  "def": "Elt.doubleLoopLong",
  "old": "if Double.ofArf lower = Double.ofArf upper then",
  "new": "if lower = upper then",
  "edit": "compares the bounds before rounding them",
  "claim": "C90"
 },
 {
  "file": "Model/LongMore.lean",
  "def": "Elt.toDoubleLong",
  "old": "fuel prec) fuel 55",
  "new": "fuel prec) fuel 54",
  "edit": "starts at 54 bits",
  "claim": "C90"
 }
]