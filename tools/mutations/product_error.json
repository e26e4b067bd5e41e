[
{"file":"Model/Approx.lean","def":"workingPrec","old":"prec + Nat.clog 2 (3 * n)","new":"prec + Nat.log 2 (3 * n)","edit":"floor instead of ceiling of the logarithm","claim":"C24: documented bound for two factors"},
{"file":"Model/Approx.lean","def":"RN.arf_","old":"Arf.round .near (prec + 1) (prodLoop","new":"Arf.round .near prec (prodLoop","edit":"product is rounded to prec bits","claim":"C24: documented bound for two factors"},
{"file":"Model/Approx.lean","def":"RN.arf_","old":"Arf.round .near (prec + 1) (prodLoop","new":"Arf.round .down (prec + 1) (prodLoop","edit":"product is truncated","claim":"C24: documented bound for two factors"},
{"file":"Model/Approx.lean","def":"workingPrec","old":"prec + Nat.clog 2 (3 * n)","new":"prec + Nat.clog 2 (n + 2)","edit":"too few extra bits","claim":"C24: documented bound for six factors"}
]
