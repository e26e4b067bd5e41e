[
{"file":"Model/RandomSpecial.lean","def":"randomInX","old":"if asserts && length ≤ 0 then .abort","new":"if asserts && length < 0 then .abort","edit":"assertion length > 0 weakened to length >= 0","claim":"(none: the division by zero ends the process anyway)"},
{"file":"Model/RandomSpecial.lean","def":"randomInX","old":"else if length = 0 then .abort","new":"else if length ≤ 1 then .abort","edit":"intervals with a single cell end the process","claim":"C41/C81"},
{"file":"Model/RandomSpecial.lean","def":"randomInX","old":"else if lower.ge upper then","new":"else if upper.lt lower then","edit":"a = b and NaN not rejected","claim":"C81"},
{"file":"Model/RandomSpecial.lean","def":"randomDoubleX","old":"if asserts && !(lower.toDouble = x && upper.toDouble = x) then .abort","new":"if asserts && !(lower.toDouble = x || upper.toDouble = x) then .abort","edit":"assertion weakened to one of the bounds","claim":"C52/F23"},
{"file":"Model/RandomSpecial.lean","def":"third","old":"/ 3))","new":"/ 2))","edit":"midpoint divided by 2 instead of 3","claim":"C52"},
{"file":"Model/RandomSpecial.lean","def":"mantissa","old":"| fin q => Arf.mantissa q\n  | _ => 0","new":"| fin q => Arf.mantissa q\n  | _ => 1","edit":"infinities have mantissa 1","claim":"C81"},
{"file":"Model/RandomSpecial.lean","def":"previous","old":"if q = -Double.largest then negInf","new":"if q = Double.largest then negInf","edit":"neighbour of the wrong extreme is infinite","claim":"C52"}
]
