[
{
"file": "Model/BallBounds.lean",
"def": "ofBounds",
"old": "Arf.round .up 30 (upper - lower)",
"new": "Arf.round .down 30 (upper - lower)",
"edit": "radius rounded downwards",
"claim": "C76: contains all numbers between the bounds"
},
{
"file": "Model/BallBounds.lean",
"def": "ofBounds",
"old": "if mid = sum then 0 else Arf.ulp prec sum",
"new": "0",
"edit": "error of the midpoint dropped",
"claim": "C76"
},
{
"file": "Model/BallBounds.lean",
"def": "ofBounds",
"old": "if mid = sum then 0 else Arf.ulp prec sum",
"new": "if mid = sum then 0 else Arf.ulp (prec + 1) sum",
"edit": "only half an ulp for a directed rounding",
"claim": "C76"
},
{
"file": "Model/BallBounds.lean",
"def": "ofBounds",
"old": "\u27e8mid / 2, some (rad / 2)\u27e9",
"new": "\u27e8mid / 2, some (rad / 4)\u27e9",
"edit": "radius halved twice",
"claim": "C76"
},
{
"file": "Model/BallBounds.lean",
"def": "ofBounds",
"old": "\u27e8mid / 2, some (rad / 2)\u27e9",
"new": "\u27e8mid / 2, some rad\u27e9",
"edit": "radius not halved",
"claim": "C76: tight"
},
{
"file": "Model/BallBounds.lean",
"def": "ofBounds",
"old": "let sum := lower + upper",
"new": "let sum := lower + lower",
"edit": "upper bound ignored",
"claim": "C76"
},
{
"file": "Model/BallBounds.lean",
"def": "ofBounds",
"old": "if upper < lower then",
"new": "if upper \u2264 lower then",
"edit": "equal bounds rejected",
"claim": "C76"
},
{
"file": "Model/Ball.lean",
"def": "interval",
"old": "Arf.round .floor accuracy (b.mid - r)",
"new": "Arf.round .ceil accuracy (b.mid - r)",
"edit": "lower bound rounded upwards",
"claim": "C76"
},
{
"file": "Model/Ball.lean",
"def": "interval",
"old": "Arf.round .ceil accuracy (b.mid + r)",
"new": "Arf.round .near accuracy (b.mid + r)",
"edit": "upper bound rounded to nearest",
"claim": "C76"
}
]