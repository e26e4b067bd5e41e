[
 {
  "file": "Model/Assertions.lean",
  "def": "RN.cmpIsZero",
  "old": ".ok (c = 0)",
  "new": ".ok (c = -1)",
  "edit": "assert compares with -1",
  "claim": "no assertion fails (C56)"
 },
 {
  "file": "Model/Assertions.lean",
  "def": "RN.cmpIsZero",
  "old": "| none => .ok true",
  "new": "| none => .ok false",
  "edit": "0 +- inf is not accepted",
  "claim": "no assertion fails (C56)"
 },
 {
  "file": "Model/Assertions.lean",
  "def": "RN.refineDebug",
  "old": "some (2 ^ (Arf.logb midpoint - (prec + 1)))⟩\n    cAssert",
  "new": "some (2 ^ (Arf.logb midpoint - (prec + 2)))⟩\n    cAssert",
  "edit": "radius too small by a factor of two",
  "claim": "debug and release builds agree (C56)"
 },
 {
  "file": "Model/Assertions.lean",
  "def": "RN.refineDebug",
  "old": "!x.nonzero || ball.hasAccuracy prec",
  "new": "!x.nonzero || ball.hasAccuracy (prec + 1)",
  "edit": "assertion asks for one more bit",
  "claim": "no assertion fails (C56)"
 },
 {
  "file": "Model/Assertions.lean",
  "def": "RN.refineDebug",
  "old": "if b.hasAccuracy prec then .ok b",
  "new": "if b.hasAccuracy (prec + 1) then .ok b",
  "edit": "early return asks for one more bit",
  "claim": "debug and release builds agree (C56)"
 },
 {
  "file": "Model/Assertions.lean",
  "def": "RN.ltLoopDebug",
  "old": "(prec * 2) self other",
  "new": "(prec * 2) other self",
  "edit": "balls swapped between iterations",
  "claim": "no assertion fails (C56)"
 },
 {
  "file": "Model/Assertions.lean",
  "def": "RN.ltLoopDebug",
  "old": "let other ← y.refineDebug atoms other prec",
  "new": "let other ← x.refineDebug atoms other prec",
  "edit": "wrong number refined",
  "claim": "debug and release builds agree (C56)"
 },
 {
  "file": "Model/Assertions.lean",
  "def": "RN.ltRNDebug",
  "old": "fuel 2 Ball.zeroPmInf Ball.zeroPmInf",
  "new": "fuel 1 Ball.zeroPmInf Ball.zeroPmInf",
  "edit": "starts with precision 1",
  "claim": "debug and release builds agree (C56)"
 },
 {
  "file": "Model/Assertions.lean",
  "def": "RN.ltArfDebug",
  "old": "if x.eqArf a then .ok false else",
  "new": "if x.eqArf a then .ok true else",
  "edit": "equal numbers answer true",
  "claim": "debug and release builds agree (C56)"
 },
 {
  "file": "Model/Ball.lean",
  "def": "RN.refine",
  "old": "some (2 ^ (Arf.logb midpoint - (prec + 1)))⟩\n\n/-- `RealNumber::arb`",
  "new": "some (2 ^ (Arf.logb midpoint - (prec + 2)))⟩\n\n/-- `RealNumber::arb`",
  "edit": "radius too small by a factor of two",
  "claim": "accuracy (C25), no assertion fails (C56)"
 },
 {
  "file": "Model/Ball.lean",
  "def": "RN.cmp",
  "old": "max (Arf.bits lo) (Arf.bits hi) + 1",
  "new": "max (Arf.bits lo) (Arf.bits hi) - 1",
  "edit": "fewer digits than the end points have",
  "claim": "cmp is right (C27)"
 },
 {
  "file": "Model/Ball.lean",
  "def": "RN.cmp",
  "old": "max (Arf.bits lo) (Arf.bits hi) + 1",
  "new": "Arf.bits lo + 1",
  "edit": "digits of the upper end ignored",
  "claim": "cmp is right (C27)"
 },
 {
  "file": "Model/Ball.lean",
  "def": "Ball.interval",
  "old": "Arf.round .floor accuracy (b.mid - r)",
  "new": "Arf.round .near accuracy (b.mid - r)",
  "edit": "lower end rounded to nearest",
  "claim": "no assertion fails (C56)"
 },
 {
  "file": "Model/Approx.lean",
  "def": "Atom.arfConstrained",
  "old": "(inner.arf (missing - 1).toNat) (e - 1)",
  "new": "(inner.arf (missing - 1).toNat) e",
  "edit": "shift off by one",
  "claim": "approximations of constrained numbers (C24, C27)"
 },
 {
  "file": "Model/Approx.lean",
  "def": "Atom.arfConstrained",
  "old": "((prec : ℤ) + 1) - Arf.bits initial",
  "new": "((prec : ℤ) - 3) - Arf.bits initial",
  "edit": "too few digits requested",
  "claim": "approximations of constrained numbers (C24)"
 }
]