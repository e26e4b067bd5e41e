[
{"file":"Model/ArfSpecial.lean","old":"  | fin _, posInf => -1\n","new":"  | fin _, posInf => 1\n","def":"XArf.cmp","edit":"finite numbers above +inf","claim":"C59 order"},
{"file":"Model/ArfSpecial.lean","old":"def le (a b : XArf) : Bool := !lt b a","new":"def le (a b : XArf) : Bool := !lt a b","def":"XArf.le","edit":"swapped arguments in <=","claim":"C59 order"},
{"file":"Model/ArfSpecial.lean","old":"def longLe (n : ℤ) (a : XArf) : Bool := !ltLong a n","new":"def longLe (n : ℤ) (a : XArf) : Bool := !gtLong a n","def":"XArf.longLe","edit":"n <= a uses > instead of <","claim":"C59 order with integers"},
{"file":"Model/ArfSpecial.lean","old":"  | negInf => posInf\n  | nan => nan","new":"  | negInf => negInf\n  | nan => nan","def":"XArf.neg","edit":"-(-inf) is -inf","claim":"C59 negation"},
{"file":"Model/ArfSpecial.lean","old":"  | fin q => fin |q|","new":"  | fin q => fin q","def":"XArf.abs","edit":"abs forgets the sign","claim":"C59 abs"},
{"file":"Model/ArfSpecial.lean","old":"  | .num .negInf => negInf\n  | .nan => nan","new":"  | .num .negInf => posInf\n  | .nan => nan","def":"XArf.ofDouble","edit":"sign of infinity lost","claim":"C59 double round trip"},
{"file":"Model/Double.lean","old":"2 ^ max (Int.log 2 |x| - 52) (-1074)","new":"2 ^ max (Int.log 2 |x| - 51) (-1074)","def":"Double.ulp","edit":"52 binary digits","claim":"C59 double round trip"},
{"file":"Model/ArfSpecial.lean","old":"++ ['='] ++ f.int (Arf.mantissa q) ++ ['p'] ++ f.int (Arf.exponent q)","new":"++ ['='] ++ f.int (Arf.mantissa q) ++ f.int (Arf.exponent q)","def":"XArf.print","edit":"no separator between mantissa and exponent","claim":"C60"},
{"file":"Model/ArfSpecial.lean","old":"else if 0 ≤ Arf.exponent q then","new":"else if -1 ≤ Arf.exponent q then","def":"XArf.print","edit":"half-integers printed as double only","claim":"C60"},
{"file":"Model/ArfSpecial.lean","old":"  | fin q => .ok (Arf.floor q)\n  | _ => .abort","new":"  | fin q => .ok (Arf.floor q)\n  | _ => .ok 0","def":"XArf.floor","edit":"floor of infinity is 0","claim":"C59 floor"}
]
