[
{"file":"Model/ArfLong.lean","def":"shiftRightLong","old":"let n ← long (-rhs)","new":"let n ← long rhs","edit":"shift in the wrong direction","claim":"C48: >> divides by a power of two"},
{"file":"Model/ArfLong.lean","def":"logbLong","old":"long (e - 1)","new":"long e","edit":"the exponent of frexp instead of the logarithm","claim":"C48: logb"},
{"file":"Model/ArfLong.lean","def":"logbLong","old":"Int.log 2 |x| + 1)\n","new":"Int.log 2 |x|)\n","edit":"mantissa in [1, 2)","claim":"C48: logb"},
{"file":"Model/ArfLong.lean","def":"fmpzGetSi","old":"e < 2 ^ 63","new":"e ≤ 2 ^ 63","edit":"boundary","claim":"C48: F42"}
]
