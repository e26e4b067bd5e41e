[
{"file":"Model/PythonRound.lean","def":"Py.ceil","old":": Out ℤ := Elt.ceil atoms F coeff fuel x","new":": Out ℤ := Elt.floor atoms F coeff fuel x","edit":"ceil calls floor","claim":"C93","tightened":["py_rounding_partial added: it survived before"]},
{"file":"Model/PythonRound.lean","def":"Py.float","old":": Out Double := Elt.toDouble atoms F coeff fuel x","new":": Out Double := do .ok (Double.ofArf ((← Elt.floor atoms F coeff fuel x : ℤ) : ℚ))","edit":"float of the floor","claim":"C93","tightened":["py_rounding_partial added"]}
]
