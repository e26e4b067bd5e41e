[
{"file":"Model/PyExprNumber.lean","def":"makeNumber","old":"if left then .bin o t p else .bin o p t","new":"if left then .bin o p t else .bin o t p","edit":"operands swapped","claim":"C74: n - y is the difference in this order"},
{"file":"Model/PyExprNumber.lean","def":"binaryNumber","old":"some (expire h t, r)","new":"some (h, r)","edit":"the C++ number lives on","claim":"C74: finding F40 would not exist"},
{"file":"Model/PyExprNumber.lean","def":"buildNumber","old":"let h := alloc h e (makeNumber o false v t)","new":"let h := alloc h e (makeNumber o false x t)","edit":"the expression refers to the Yap object instead of its value","claim":"C74: value of y - n for an expression y"},
{"file":"Model/PyExprNumber.lean","def":"buildNumber","old":"if left then none else","new":"if false then none else","edit":"n - y computes y - n for expressions","claim":"C74: n - y is an error"}
]
