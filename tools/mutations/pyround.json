[
{"file":"Model/PythonRound.lean","def":"Py.floordiv","old":"Elt.floordiv atoms F coeff fuel x y","new":"Elt.floordiv atoms F coeff fuel y x","edit":"operands of // swapped","claim":"C93"},
{"file":"Model/PythonRound.lean","def":"Py.ceil","old":": Out ℤ := Elt.ceil atoms F coeff fuel x","new":": Out ℤ := do .ok ((← Elt.floor atoms F coeff fuel x) + 1)","edit":"ceil as floor plus one","claim":"C93"},
{"file":"Model/PythonRound.lean","def":"Py.floor","old":": Out ℤ := Elt.floor atoms F coeff fuel x","new":": Out ℤ := do .ok ((← Elt.ceil atoms F coeff fuel x) - 1)","edit":"floor as ceil minus one","claim":"C93"},
{"file":"Model/PythonSquare.lean","def":"Py.toInteger","old":".ok x.integer?","new":".ok (x.rational?.map Rat.floor)","edit":"ZZ(x) rounds rationals","claim":"C93"},
{"file":"Model/PythonSquare.lean","def":"Py.toRational","old":".ok x.rational?","new":".ok (x.integer?.map (fun n => (n : ℚ)))","edit":"QQ(x) only for integers","claim":"C93"},
{"file":"Model/PythonRound.lean","def":"Py.anElement","old":": Elt P R := Elt.default","new":": Elt P R := ⟨⟨CRing.default, [.rat 1]⟩, [1]⟩","edit":"an_element is one","claim":"C93"},
{"file":"Model/PythonRound.lean","def":"Py.hash","old":"Elt.hash atoms F coeff hashDouble fuel x","new":"do .ok (hashDouble (← Elt.toDouble atoms F coeff fuel x) + x.coeffs.length.toUInt64)","edit":"the number of coefficients goes into the hash","claim":"C93"},
{"file":"Model/PythonRound.lean","def":"Py.float","old":": Out Double := Elt.toDouble atoms F coeff fuel x","new":": Out Double := Elt.doubleLoop (fun prec => x.arb atoms F coeff fuel prec) fuel 55","edit":"float without the shortcut for rationals (does not return for ties)","claim":"C93"}
]
