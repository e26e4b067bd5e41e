[
{"file":"Model/PyExpr.lean","def":"binary","old":"| some _, some (.yap _ _) => none","new":"| none, some (.yap _ _) => none","edit":"a bare expression accepts a wrapped operand (found by automutate)","claim":"C74","tightened":"py_neg_type_error added"},
{"file":"Model/PyExpr.lean","def":"binary","old":"some (alloc h e (.bin o x y), e)","new":"some (alloc h e (.bin o y x), e)","edit":"operands of bare expressions swapped (found by automutate)","claim":"C74","tightened":"py_expression_alive added"},
{"file":"Model/PyExpr.lean","def":"neg","old":"| some _ => some (alloc h e (.neg x), e)","new":"| some _ => some (h, x)","edit":"plain negation returns its operand","claim":"C74","tightened":"py_expression_alive added"}
]
