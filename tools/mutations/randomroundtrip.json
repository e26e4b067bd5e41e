[
{"file":"Model/Random.lean","def":"randomNear","old":"let lower := r (r (nextDown x + r (2 * x)) / 3)","new":"let lower := r (r (nextDown x + x) / 2)","edit":"the interval extends to the middle between two doubles","claim":"C95: double(random(d)) == d"},
{"file":"Model/Double.lean","def":"RN.toDouble","old":"Double.ofArf (x.arf atoms 54)","new":"Double.ofArf (x.arf atoms 53)","edit":"ARF_DOUBLE_PRECISION is 53","claim":"C95: double(random(d)) == d"},
{"file":"Model/Approx.lean","def":"Atom.arfConstrained","old":"  Arf.round .near (prec + 1) ret\n","new":"  Arf.round .up (prec + 1) ret\n","edit":"rounded away from zero","claim":"C95: double(random(d)) == d"},
{"file":"Model/Random.lean","def":"nextDown","old":"def nextDown (x : ℚ) : ℚ := -nextUp (-x)","new":"def nextDown (x : ℚ) : ℚ := x - Double.ulp x","edit":"the smaller gap below powers of two is missed","claim":"C95: double(random(d)) == d"},
{"file":"Model/ElementApprox.lean","def":"Elt.toDouble","old":"(fun prec => x.arb atoms F coeff fuel prec) fuel 55","new":"(fun prec => x.arb atoms F coeff fuel prec) fuel 52","edit":"starts with 52 bits","claim":"C95: float(random_element(d)) == d"},
{"file":"Model/PrintReal.lean","def":"Print.atomText","old":"if Double.ofArf initial = self then []","new":"if Double.ofArf initial ≠ self then []","edit":"the correction is printed when it is not needed","claim":"C95: no correction is printed"}
]
