[
{
"file": "Model/Arf.lean",
"def": "nearInt",
"old": "else if ⌊y⌋ % 2 = 0 then ⌊y⌋ else ⌊y⌋ + 1",
"new": "else ⌊y⌋ + 1",
"edit": "ties are rounded up",
"claim": "rounding to nearest breaks ties to even"
},
{
"file": "Model/Arf.lean",
"def": "nearInt",
"old": "if y - ⌊y⌋ < 1 / 2 then",
"new": "if y - ⌊y⌋ < 3 / 4 then",
"edit": "wrong threshold",
"claim": "correct rounding"
},
{
"file": "Model/Arf.lean",
"def": "Rnd.toInt",
"old": "| down, y => if 0 ≤ y then",
"new": "| down, y => if y ≤ 0 then",
"edit": "down and up swapped",
"claim": "rounding direction"
},
{
"file": "Model/Arf.lean",
"def": "Rnd.toInt",
"old": "| ceil, y => ⌈y⌉",
"new": "| ceil, y => ⌊y⌋",
"edit": "ceil rounds down",
"claim": "rounding direction"
},
{
"file": "Model/Arf.lean",
"def": "ulp",
"old": "2 ^ (Int.log 2 |x| + 1 - prec)",
"new": "2 ^ (Int.log 2 |x| - prec)",
"edit": "one bit too many",
"claim": "result has at most prec bits"
},
{
"file": "Model/Arf.lean",
"def": "ulp",
"old": "2 ^ (Int.log 2 |x| + 1 - prec)",
"new": "2 ^ (Int.log 2 |x| + 2 - prec)",
"edit": "one bit too few",
"claim": "error at most half a unit"
},
{
"file": "Model/Arf.lean",
"def": "mantissaExponent",
"old": "(p.1, (p.2 : ℤ) - Nat.log 2 x.den)",
"new": "(p.1, (p.2 : ℤ) + Nat.log 2 x.den)",
"edit": "sign of exponent",
"claim": "mantissa and exponent reproduce the number"
},
{
"file": "Model/Arf.lean",
"def": "bits",
"old": "(mantissa x).natAbs + 1",
"new": "(mantissa x).natAbs",
"edit": "off by one",
"claim": "bits"
},
{
"file": "Model/Arf.lean",
"def": "shiftRight",
"old": "shiftLeft x (-n)",
"new": "shiftLeft x n",
"edit": "shifts left",
"claim": "shift is multiplication by a power of two"
},
{
"file": "Model/Arf.lean",
"def": "floor",
"old": "Rnd.near.toInt (⌊x⌋ : ℚ)",
"new": "Rnd.near.toInt (x : ℚ)",
"edit": "rounds to nearest",
"claim": "floor"
},
{
"file": "Model/Arf.lean",
"def": "ceil",
"old": "Rnd.near.toInt (⌈x⌉ : ℚ)",
"new": "Rnd.near.toInt (⌊x⌋ + 1 : ℚ)",
"edit": "wrong at integers",
"claim": "ceil"
},
{
"file": "Model/Arf.lean",
"def": "ofMantissaExponent",
"old": "m * 2 ^ e",
"new": "m * 2 ^ (-e)",
"edit": "sign of exponent",
"claim": "mantissa and exponent reproduce the number"
},
{
"file": "Model/Approx.lean",
"def": "Digits.loop",
"old": "if digits < prec + 1 then",
"new": "if digits < prec then",
"edit": "one digit too few",
"claim": "the loop returns arf"
},
{
"file": "Model/Approx.lean",
"def": "Digits.loop",
"old": "acc (-(pos : ℤ))",
"new": "acc (-(digits : ℤ))",
"edit": "leading zeros ignored",
"claim": "the loop returns arf"
},
{
"file": "Model/Approx.lean",
"def": "Digits.arf",
"old": "d.first + prec + 1",
"new": "d.first + prec",
"edit": "one digit too few",
"claim": "random arf is accurate"
},
{
"file": "Model/Approx.lean",
"def": "Digits.arf",
"old": "d.first + prec + 1",
"new": "prec + 1",
"edit": "leading zeros ignored",
"claim": "random arf is accurate"
},
{
"file": "Model/Approx.lean",
"def": "arfConstrained",
"old": "(e - 1))",
"new": "e)",
"edit": "shift by e instead of e-1",
"claim": "accuracy of constrained numbers"
},
{
"file": "Model/Approx.lean",
"def": "arfConstrained",
"old": "((prec : ℤ) + 1) - Arf.bits",
"new": "((prec : ℤ) - 1) - Arf.bits",
"edit": "missing too small",
"claim": "accuracy of constrained numbers"
},
{
"file": "Model/Approx.lean",
"def": "arfConstrained",
"old": "(inner.arf (missing - 1).toNat)",
"new": "(inner.arf 0)",
"edit": "inner not refined",
"claim": "convergence of constrained numbers"
},
{
"file": "Model/Approx.lean",
"def": "arfConstrained",
"old": "    else initial\n  Arf.round .near (prec + 1) ret",
"new": "    else initial\n  ret",
"edit": "not rounded",
"claim": "result has at most prec+1 bits"
},
{
"file": "Model/Approx.lean",
"def": "workingPrec",
"old": "Nat.clog 2 (3 * n)",
"new": "0",
"edit": "no extra bits",
"claim": "accuracy of products"
},
{
"file": "Model/Approx.lean",
"def": "prodLoop",
"old": "p.2 ret) ret",
"new": "(p.2 - 1) ret) ret",
"edit": "exponent off by one",
"claim": "value of products"
},
{
"file": "Model/Approx.lean",
"def": "mulLoop",
"old": "| 0, ret => ret",
"new": "| 0, _ => a",
"edit": "accumulator dropped",
"claim": "value of products"
},
{
"file": "Model/Approx.lean",
"def": "RN.arf_",
"old": "(if prec = 0 then 1 else prec) ((q.num",
"new": "(if prec = 0 then 1 else prec - 1) ((q.num",
"edit": "one bit too few for rationals",
"claim": "accuracy of rationals"
},
{
"file": "Model/Approx.lean",
"def": "RN.arf_",
"old": "| prod m => Arf.round .near",
"new": "| prod m => Arf.round .floor",
"edit": "wrong rounding mode",
"claim": "accuracy of products"
},
{
"file": "Model/Approx.lean",
"def": "RN.arf",
"old": "prec.toNat",
"new": "prec.natAbs",
"edit": "negative precision",
"claim": "negative precisions are treated as 0"
},
{
"file": "Model/Double.lean",
"def": "Double.ulp",
"old": "(-1074)",
"new": "(-1022)",
"edit": "subnormals flushed",
"claim": "conversion to double accuracy"
},
{
"file": "Model/Double.lean",
"def": "Double.ulp",
"old": "- 52)",
"new": "- 51)",
"edit": "52 bit mantissa",
"claim": "conversion to double"
},
{
"file": "Model/Double.lean",
"def": "Double.ofArf",
"old": "if 2 ^ 1024 ≤ near x then .posInf",
"new": "if 2 ^ 1023 ≤ near x then .posInf",
"edit": "early overflow",
"claim": "conversion to double"
},
{
"file": "Model/Double.lean",
"def": "RN.toDouble",
"old": "(x.arf atoms 54)",
"new": "(x.arf atoms 50)",
"edit": "too little precision",
"claim": "conversion to double accuracy"
},
{
"file": "Model/Random.lean",
"def": "randomIn",
"old": "else if upper ≤ lower then",
"new": "else if upper < lower then",
"edit": "empty interval accepted",
"claim": "logic_error for empty intervals"
},
{
"file": "Model/Random.lean",
"def": "randomIn",
"old": "if lower = 0 ∧ upper = 1 then",
"new": "if lower = 0 then",
"edit": "shortcut too wide",
"claim": "random in [a,b]"
},
{
"file": "Model/Random.lean",
"def": "randomIn",
"old": "if le < ue then (um * 2 ^ (ue - le).toNat, le)",
"new": "if le < ue then (um * 2 ^ (ue - le).toNat, ue)",
"edit": "exponent not updated",
"claim": "random in [a,b]"
},
{
"file": "Model/Random.lean",
"def": "randomIn",
"old": "if ue < le then (lm * 2 ^ (le - ue).toNat, ue)",
"new": "if ue < le then (lm, ue)",
"edit": "mantissa not scaled",
"claim": "random in [a,b]"
},
{
"file": "Model/Random.lean",
"def": "randomIn",
"old": "gen.urandomm seed (um - lm) + lm",
"new": "gen.urandomm seed (um - lm + 1) + lm",
"edit": "range off by one",
"claim": "random in [a,b]"
},
{
"file": "Model/Random.lean",
"def": "nextUp",
"old": "then x + Double.ulp x / 2 else x + Double.ulp x",
"new": "then x + Double.ulp x else x + Double.ulp x",
"edit": "wrong at powers of two",
"claim": "nextUp spec / random(double)"
},
{
"file": "Model/Random.lean",
"def": "randomNear",
"old": "let upper := r (r (r (2 * x) + nextUp x) / 3)",
"new": "let upper := r (r (r (2 * x) + 2 * nextUp x) / 3)",
"edit": "upper bound too large",
"claim": "random(x) converts to x"
},
{
"file": "Model/Random.lean",
"def": "randomNear",
"old": "let upper := r (r (r (2 * x) + nextUp x) / 3)",
"new": "let upper := nextUp x",
"edit": "upper bound is next double",
"claim": "random(x) converts to x"
},
{
"file": "Model/Random.lean",
"def": "randomDouble",
"old": "| _ => .throws .logicError",
"new": "| _ => .ok (.random (gen.digits seed))",
"edit": "infinite accepted",
"claim": "logic_error for non finite"
},
{
"file": "Model/Ball.lean",
"def": "allLt",
"old": "some r, some s => a.mid + r < b.mid - s",
"new": "some r, some s => a.mid + r ≤ b.mid - s",
"edit": "not strict",
"claim": "Arb comparison sound"
},
{
"file": "Model/Ball.lean",
"def": "allLt",
"old": "some r, some s => a.mid + r < b.mid - s",
"new": "some r, some s => a.mid < b.mid - s",
"edit": "radius ignored",
"claim": "Arb comparison sound"
},
{
"file": "Model/Ball.lean",
"def": "allEq",
"old": "a.rad = some 0 && b.rad = some 0 && a.mid",
"new": "a.rad = b.rad && a.mid",
"edit": "radius ignored",
"claim": "Arb comparison sound"
},
{
"file": "Model/Ball.lean",
"def": "Ball.lt",
"old": "if allLt a b then some true else if allLe b a then some false else none",
"new": "if allLt a b then some true else if allLt b a then some false else none",
"edit": "undecided for equal exact balls",
"claim": "Arb comparison decides whenever it can"
},
{
"file": "Model/Ball.lean",
"def": "Ball.le",
"old": "  match gt a b with\n  | some r => some !r",
"new": "  match gt a b with\n  | some r => some r",
"edit": "not negated",
"claim": "Arb <= sound"
},
{
"file": "Model/Ball.lean",
"def": "Ball.ge",
"old": "  match lt a b with\n  | some r => some !r",
"new": "  match le a b with\n  | some r => some !r",
"edit": "wrong operator",
"claim": "Arb >= sound"
},
{
"file": "Model/Ball.lean",
"def": "Ball.ne",
"old": "  match eq a b with\n  | some r => some !r",
"new": "  match eq a b with\n  | some r => some r",
"edit": "not negated",
"claim": "Arb != sound"
},
{
"file": "Model/Ball.lean",
"def": "Ball.interval",
"old": "(Arf.round .floor accuracy (b.mid - r), Arf.round .ceil accuracy (b.mid + r))",
"new": "(Arf.round .ceil accuracy (b.mid - r), Arf.round .floor accuracy (b.mid + r))",
"edit": "rounded inwards",
"claim": "interval contains the ball"
},
{
"file": "Model/Ball.lean",
"def": "Ball.scaled",
"old": "(exact q.den)",
"new": "(exact q.num)",
"edit": "numerator and denominator swapped",
"claim": "comparison with rationals"
},
{
"file": "Model/Ball.lean",
"def": "Ball.leQ",
"old": "(a : Ball) (q : ℚ) : Option Bool := (a.scaled F q).le (exact q.num)",
"new": "(a : Ball) (q : ℚ) : Option Bool := (a.scaled F q).lt (exact q.num)",
"edit": "< instead of <=",
"claim": "comparison with rationals"
},
{
"file": "Model/Ball.lean",
"def": "RN.refine",
"old": "2 ^ (Arf.logb midpoint - (prec + 1))",
"new": "2 ^ (Arf.logb midpoint - (prec + 9))",
"edit": "radius too small",
"claim": "containment"
},
{
"file": "Model/Ball.lean",
"def": "RN.refine",
"old": "2 ^ (Arf.logb midpoint - (prec + 1))",
"new": "2 ^ (Arf.logb midpoint - prec + 1)",
"edit": "radius too large",
"claim": "arb has the requested accuracy"
},
{
"file": "Model/Ball.lean",
"def": "RN.cmp",
"old": "if approx < lo then -1 else if hi < approx then 1",
"new": "if approx < lo then 1 else if hi < approx then -1",
"edit": "sign",
"claim": "cmp"
},
{
"file": "Model/Ball.lean",
"def": "RN.ltLoop",
"old": "ltLoop x y fuel (prec * 2) self other",
"new": "ltLoop x y fuel prec self other",
"edit": "precision not increased",
"claim": "comparison terminates"
},
{
"file": "Model/Ball.lean",
"def": "RN.ltRN",
"old": "if x = y then .ok false",
"new": "if x = y then .ok true",
"edit": "equal numbers compare less",
"claim": "irreflexive"
},
{
"file": "Model/Ball.lean",
"def": "RN.eqArf",
"old": "| some q => a * q.den = q.num",
"new": "| some q => a = q.num",
"edit": "denominator ignored",
"claim": "RealNumber == Arf"
},
{
"file": "Model/Ball.lean",
"def": "RN.gtArf",
"old": "    let r ← ltArf atoms fuel x a\n    .ok !r",
"new": "    let r ← ltArf atoms fuel x a\n    .ok r",
"edit": "not negated",
"claim": "RealNumber > Arf"
},
{
"file": "Model/Ball.lean",
"def": "RN.ltQ",
"old": "  | some r => .ok (r < q)",
"new": "  | some r => .ok (r ≤ q)",
"edit": "not strict",
"claim": "RealNumber < mpq"
},
{
"file": "Model/Ball.lean",
"def": "RN.cmpQLoop",
"old": "cmpQLoop x op fuel (prec * 2)",
"new": "cmpQLoop x op fuel prec",
"edit": "precision not increased",
"claim": "comparison terminates"
},
{
"file": "Model/ElementApprox.lean",
"def": "Elt.arbSum",
"old": "(F.add prec ret (F.mul",
"new": "(F.add prec (Ball.exact 0) (F.mul",
"edit": "accumulator dropped",
"claim": "Element::arb contains the value"
},
{
"file": "Model/ElementApprox.lean",
"def": "Elt.arbLoop",
"old": "if ret.hasAccuracy accuracy then",
"new": "if ret.hasAccuracy (accuracy - 1 : ℤ) then",
"edit": "accuracy off by one",
"claim": "Element::arb has the requested accuracy"
},
{
"file": "Model/ElementApprox.lean",
"def": "Elt.arbLoop",
"old": "arbLoop accuracy ts fuel (prec * 2)",
"new": "arbLoop accuracy ts fuel prec",
"edit": "precision not increased",
"claim": "Element::arb returns"
},
{
"file": "Model/ElementApprox.lean",
"def": "Elt.ltLoop",
"old": "ltLoop op self fuel (prec * 2)",
"new": "ltLoop op self fuel prec",
"edit": "precision not increased",
"claim": "comparison returns"
},
{
"file": "Model/ElementApprox.lean",
"def": "Elt.lt",
"old": "  if (← x.eq y) then .ok false",
"new": "  if (← x.eq y) then .ok true",
"edit": "equal elements compare less",
"claim": "irreflexive"
},
{
"file": "Model/ElementApprox.lean",
"def": "Elt.lt",
"old": "    .ok (self.lt other)) (fun",
"new": "    .ok (self.le other)) (fun",
"edit": "le instead of lt",
"claim": "order of elements"
},
{
"file": "Model/ElementApprox.lean",
"def": "Elt.ltQ",
"old": "if x.eqQ q then .ok false\n",
"new": "if x.eqQ q then .ok true\n",
"edit": "equal compare less",
"claim": "order of elements"
},
{
"file": "Model/ElementApprox.lean",
"def": "Elt.ltZ",
"old": "if x.eqZ n then .ok false\n",
"new": "if x.eqZ n then .ok true\n",
"edit": "equal compare less",
"claim": "order of elements"
},
{
"file": "Model/ElementApprox.lean",
"def": "Elt.gtOf",
"old": "  if (← eq) then .ok false",
"new": "  if (← eq) then .ok true",
"edit": "equal compare greater",
"claim": "order of elements"
},
{
"file": "Model/ElementApprox.lean",
"def": "Elt.gtOf",
"old": "    .ok !r",
"new": "    .ok r",
"edit": "not negated",
"claim": "order of elements"
},
{
"file": "Model/ElementApprox.lean",
"def": "Elt.roundLoop",
"old": "if round lower = round upper then",
"new": "if round lower ≤ round upper then",
"edit": "condition dropped",
"claim": "floor"
},
{
"file": "Model/ElementApprox.lean",
"def": "Elt.floor",
"old": "roundLoop Arf.floor",
"new": "roundLoop Arf.ceil",
"edit": "ceil",
"claim": "floor"
},
{
"file": "Model/ElementApprox.lean",
"def": "Elt.ceil",
"old": "roundLoop Arf.ceil",
"new": "roundLoop Arf.floor",
"edit": "floor",
"claim": "ceil"
},
{
"file": "Model/ElementApprox.lean",
"def": "Elt.exactLoop",
"old": "else if b * (f : R) ≠ a then none\n        ",
"new": "",
"edit": "check dropped",
"claim": "floordiv"
},
{
"file": "Model/ElementApprox.lean",
"def": "Elt.exactLoop",
"old": "if floor.isSome && floor ≠ some f then none\n        else if",
"new": "if",
"edit": "check dropped",
"claim": "floordiv"
},
{
"file": "Model/ElementApprox.lean",
"def": "Elt.exactLoop",
"old": "else if b ≠ 0 then none\n    else exactLoop",
"new": "else exactLoop",
"edit": "zero dividend coefficient ignored",
"claim": "floordiv"
},
{
"file": "Model/ElementApprox.lean",
"def": "Elt.floordivSame",
"old": "if !x.toBool then .ok 0\n  else match",
"new": "if !x.toBool then .ok 1\n  else match",
"edit": "wrong quotient",
"claim": "floordiv"
},
{
"file": "Model/ElementApprox.lean",
"def": "Elt.floordivLoop",
"old": "if Arf.floor lower = Arf.floor upper then",
"new": "if Arf.floor lower + 1 = Arf.floor upper then",
"edit": "wrong condition",
"claim": "floordiv"
},
{
"file": "Model/ElementApprox.lean",
"def": "Elt.floordivLoop",
"old": "F.div prec dividend div",
"new": "F.div prec div dividend",
"edit": "arguments swapped",
"claim": "floordiv"
},
{
"file": "Model/ElementApprox.lean",
"def": "Elt.floordiv",
"old": "let rhs' ← rhs.promote parent",
"new": "let rhs' ← x.promote parent",
"edit": "argument mixed up",
"claim": "floordiv"
},
{
"file": "Model/ElementApprox.lean",
"def": "Elt.doubleLoop",
"old": "if Double.ofArf lower = Double.ofArf upper then",
"new": "if lower ≤ upper then",
"edit": "condition dropped",
"claim": "double of elements"
},
{
"file": "Model/ElementApprox.lean",
"def": "Elt.toDouble",
"old": "(Arf.round .near 53 q)",
"new": "(Arf.round .near 52 q)",
"edit": "one bit too few",
"claim": "double of rational elements"
}
]