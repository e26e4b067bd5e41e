[
{
"file": "Model/PyExpr.lean",
"def": "op",
"old": "let lifelines := operands ++ [self] ++ rhs",
"new": "let lifelines := operands ++ rhs",
"edit": "self is dropped from the lifelines",
"claim": "C74: nested expressions are collected"
},
{
"file": "Model/PyExpr.lean",
"def": "op",
"old": "let lifelines := operands ++ [self] ++ rhs",
"new": "let lifelines := operands ++ [self]",
"edit": "rhs is dropped from the lifelines",
"claim": "C74"
},
{
"file": "Model/PyExpr.lean",
"def": "op",
"old": "let lifelines := operands ++ [self] ++ rhs",
"new": "let lifelines := operands",
"edit": "only the operands are kept alive",
"claim": "C74"
},
{
"file": "Model/PyExpr.lean",
"def": "op",
"old": "let lifelines := operands ++ [self] ++ rhs",
"new": "let lifelines := [self] ++ rhs",
"edit": "the operands themselves are dropped: equivalent since they are held by self and rhs (comment at lines 242-250)",
"claim": "none (equivalent)"
},
{
"file": "Model/PyExpr.lean",
"def": "op",
"old": "rhs.map (value h)",
"new": "rhs",
"edit": "rhs is not unwrapped",
"claim": "C74: evaluation reads a Yap object as an expression"
},
{
"file": "Model/PyExpr.lean",
"def": "makeBin",
"old": "| [p, q] => .bin o p q",
"new": "| [p, q] => .bin o q p",
"edit": "swapped operands",
"claim": "C74: value"
},
{
"file": "Model/PyExpr.lean",
"def": "wrap",
"old": "| some (.yap _ _) => (h, x)\n  | _ => (alloc h w (.yap x []), w)",
"new": "| _ => (alloc h w (.yap w []), w)",
"edit": "wraps itself",
"claim": "C74"
},
{
"file": "Model/PyExpr.lean",
"def": "neg",
"old": "| some (.yap _ _) => some (op h x makeNeg [] e u, u)\n  | some _ =>",
"new": "| some _ =>",
"edit": "Yap.__neg__ missing: negation of expressions is not wrapped",
"claim": "C74"
},
{
"file": "Model/PyExpr.lean",
"def": "binary",
"old": "some (op h self (makeBin o) [y] e u, u)",
"new": "some (alloc h e (.bin o x (value h y)), e)",
"edit": "enable_yap does not wrap the operators of numbers",
"claim": "C74"
},
{
"file": "Model/PyExpr.lean",
"def": "Obj.refs",
"old": "| .yap value lifelines => value :: lifelines",
"new": "| .yap value lifelines => [value]",
"edit": "lifelines ignored by the collector",
"claim": "C74"
},
{
"file": "Model/PyExpr.lean",
"def": "eval",
"old": "let v \u2190 eval K h prec fuel p\n      let w \u2190 eval K h prec fuel q",
"new": "let v \u2190 eval K h prec fuel p\n      let w \u2190 eval K h prec fuel p",
"edit": "second operand ignored",
"claim": "C74: value"
},
{
"file": "Model/PyExpr.lean",
"def": "value",
"old": "| some (.yap v _) => v\n  | _ => x",
"new": "| _ => x",
"edit": "value of a Yap not unwrapped",
"claim": "C74"
}
]