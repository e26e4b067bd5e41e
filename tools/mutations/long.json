[
 {
  "file": "Model/Long.lean",
  "def": "RN.refineLong",
  "old": "let p ← long (prec + 1)\n    let e ← long (logb - p)",
  "new": "let p ← long (prec + 1)\n    let e ← long (logb - p - 1)",
  "edit": "the radius is half as large",
  "claim": "C90: results are those of the unbounded model"
 },
 {
  "file": "Model/Long.lean",
  "def": "RN.refineLong",
  "old": "let exp ← long (Arf.logb midpoint + 1)",
  "new": "let exp ← long (Arf.logb midpoint * 16)",
  "edit": "exponent computed with a factor 16",
  "claim": "C90: no overflow below 2^60"
 },
 {
  "file": "Model/Long.lean",
  "def": "RN.ltLoopLong",
  "old": "let p ← long (prec * 2)\n      ltLoopLong x y fuel p.toNat self other",
  "new": "let p ← long (prec * prec)\n      ltLoopLong x y fuel p.toNat self other",
  "edit": "precision is squared instead of doubled",
  "claim": "C90"
 },
 {
  "file": "Model/Long.lean",
  "def": "RN.arfLong",
  "old": "let double ← long (n * 2)",
  "new": "let double ← long (n * 2 ^ 40)",
  "edit": "the number of factors is scaled",
  "claim": "C90: no overflow for products"
 },
 {
  "file": "Model/Long.lean",
  "def": "RN.arfLong",
  "old": "Nat.clog 2 (factors + 1).toNat",
  "new": "Nat.clog 2 (factors).toNat",
  "edit": "log of factors instead of factors + 1",
  "claim": "C90"
 },
 {
  "file": "Model/Long.lean",
  "def": "Atom.arfLong",
  "old": "let shift ← long (e - 1)",
  "new": "let shift ← long (e)",
  "edit": "digits shifted by e",
  "claim": "C90"
 },
 {
  "file": "Model/Long.lean",
  "def": "Atom.arfLong",
  "old": "let p ← long (missing - 1)",
  "new": "let p ← long (missing)",
  "edit": "asks for one digit more",
  "claim": "C90"
 },
 {
  "file": "Model/Long.lean",
  "def": "long",
  "old": "z < 2 ^ 63",
  "new": "z < 2 ^ 31",
  "edit": "32 bit long (as on Windows)",
  "claim": "C90: fits 64 bit"
 },
 {
  "file": "Model/Long.lean",
  "def": "Elt.arbLong",
  "old": "accuracy + Nat.clog 2 x.mod.basis.length",
  "new": "accuracy + 2 ^ 62",
  "edit": "starts at a huge precision",
  "claim": "C90"
 },
 {
  "file": "Model/Long.lean",
  "def": "Elt.roundLoopLong",
  "old": "if round lower = round upper then .ok (round lower)\n    else do\n      let p ← long (prec * 2)",
  "new": "if round lower = round upper then .ok (round lower)\n    else do\n      let p ← long (prec * 2 ^ 20)",
  "edit": "precision grows too fast",
  "claim": "C90: floor"
 }
]