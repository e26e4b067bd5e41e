[
{"file":"Model/Python.lean","def":"Py.mul","old":"  let z ← x.mul y\n  z.simplify","new":"  let z ← x.mul x\n  z.simplify","edit":"product of x with itself","claim":"C70: multiplication is the multiplication of polynomials"},
{"file":"Model/Python.lean","def":"Py.sub","old":":= x.sub y","new":":= y.sub x","edit":"swapped operands of _sub_","claim":"C70: subtraction"},
{"file":"Model/Python.lean","def":"Py.random","old":"  let m ← Mod.make ring [.atom i]\n  Elt.ofCoefficients m [1]","new":"  let m ← Mod.make ring [.rat 1, .atom i]\n  Elt.ofCoefficients m [1, 1]","edit":"random_element has an additional generator one","claim":"C70: random elements are variables"},
{"file":"Model/Python.lean","def":"Py.coerce","old":"  let one ← rational ring 1","new":"  let one ← rational ring 2","edit":"coercion multiplies rational(2) instead of rational(1)","claim":"C70: coercion of base ring elements"},
{"file":"Model/Python.lean","def":"Py.rational","old":"  let m ← Mod.make ring [.rat q]","new":"  let m ← Mod.make ring [.rat (-q)]","edit":"sign lost in rational","claim":"C70: coercion"},
{"file":"Model/Python.lean","def":"Py.div","old":"  match (← x.truediv fuel y) with\n  | none => .ok none","new":"  match (← x.truediv fuel y) with\n  | none => .ok (some x)","edit":"missing NotRepresentableError: the dividend is returned","claim":"C71: x / y * y == x"},
{"file":"Model/Python.lean","def":"Py.div","old":"  match (← x.truediv fuel y) with","new":"  match (← y.truediv fuel x) with","edit":"swapped operands","claim":"C71"},
{"file":"Model/Python.lean","def":"Py.invert","old":"  div fuel one x","new":"  div fuel x one","edit":"invert divides by one","claim":"C71: ~x is the inverse"},
{"file":"Model/Python.lean","def":"Py.isUnit","old":": Bool := x.unit","new":": Bool := x.toBool","edit":"is_unit is bool(x)","claim":"C71: is_unit"},
{"file":"Model/Python.lean","def":"Py.algebraicLoop","old":"(ret + ι c * algebraMap ℚ A q)","new":"(ret + ι c)","edit":"value of the generator ignored","claim":"C73 (generator is always one in the ring, so the value is unchanged)"},
{"file":"Model/Python.lean","def":"Py.algebraicLoop","old":"(i + 1) (ret + ι c * algebraMap ℚ A q)","new":"(i + 1) (ι c * algebraMap ℚ A q)","edit":"sum overwritten","claim":"C73 (at most one rational generator, so the value is unchanged)"},
{"file":"Model/Python.lean","def":"Py.algebraicLoop","old":"      | none => .ok none\n      | some q => algebraicLoop","new":"      | none => algebraicLoop ι m cs (i + 1) ret\n      | some q => algebraicLoop","edit":"transcendental generators are skipped","claim":"C73: TypeError for values that are not algebraic"},
{"file":"Model/Python.lean","def":"Py.algebraicLoop","old":"    else algebraicLoop ι m cs (i + 1) ret","new":"    else algebraicLoop ι m cs i ret","edit":"index not advanced past zero coefficients","claim":"C73"},
{"file":"Model/Python.lean","def":"Py.algebraicLoop","old":"    if c ≠ 0 then do","new":"    if true then do","edit":"zero coefficients are not skipped","claim":"C73: 0·a + 1 is algebraic"},
{"file":"Model/Python.lean","def":"Py.richcmp","old":"  else if (← x.eq y) then .ok .eq","new":"  else if (← x.eq x) then .ok .eq","edit":"compares x with itself","claim":"C70/C72"},
{"file":"Model/Python.lean","def":"Py.richcmp","old":"  if (← Elt.lt atoms F coeff fuel x y) then .ok .lt","new":"  if (← Elt.lt atoms F coeff fuel y x) then .ok .lt","edit":"swapped operands","claim":"C72"},
{"file":"Model/Python.lean","def":"Py.le","old":"def le (fuel : ℕ) (x y : Elt P R) : Out Bool := do .ok ((← richcmp atoms F coeff fuel x y) ≠ .gt)","new":"def le (fuel : ℕ) (x y : Elt P R) : Out Bool := do .ok ((← richcmp atoms F coeff fuel x y) = .lt)","edit":"<= is <","claim":"C72"},
{"file":"Model/Python.lean","def":"Py.divides","old":"    match (← div fuel y x) with","new":"    match (← div fuel x y) with","edit":"swapped operands","claim":"C71"},
{"file":"Model/Python.lean","def":"Py.divides","old":"    let zero ← coerce ring 0\n    eq atoms F coeff fuel y zero\n  else do","new":"    .ok true\n  else do","edit":"zero divides everything","claim":"C71: divides"},
{"file":"Model/Python.lean","def":"Py.gcd","old":"  else if (← divides atoms F coeff ring fuel y x) then .ok (some y)","new":"  else if (← divides atoms F coeff ring fuel y x) then .ok (some x)","edit":"returns x if y divides x","claim":"C71: gcd divides both"},
{"file":"Model/Python.lean","def":"Py.abs","old":"if (← ge atoms F coeff fuel x zero) then .ok x else neg x","new":"if (← gt atoms F coeff fuel zero x) then .ok x else neg x","edit":"wrong comparison","claim":"C72: abs"}
]
