[
{
"file": "Model/Format.lean",
"def": "decimal",
"old": "if m = 10 ^ P then (10 ^ (P - 1), e + 1)",
"new": "if m = 10 ^ P then (10 ^ (P - 1), e)",
"edit": "no carry into the exponent",
"claim": "C79"
},
{
"file": "Model/Format.lean",
"def": "decimal",
"old": "let e := Int.log 10 x",
"new": "let e := Int.log 10 x + 1",
"edit": "one significant digit less",
"claim": "C79"
},
{
"file": "Model/Format.lean",
"def": "digitsOf",
"old": "m / 10 ^ i % 10",
"new": "m / 10 ^ (i + 1) % 10",
"edit": "last digit dropped",
"claim": "C79"
},
{
"file": "Model/Format.lean",
"def": "stripZeros",
"old": "(s.reverse.dropWhile (\u00b7 = '0')).reverse",
"new": "s.dropWhile (\u00b7 = '0')",
"edit": "strips leading instead of trailing zeros",
"claim": "C79"
},
{
"file": "Model/Format.lean",
"def": "fraction",
"old": "if stripZeros s = [] then [] else '.' ::",
"new": "if stripZeros s = [] then [] else ',' ::",
"edit": "decimal comma",
"claim": "C79"
},
{
"file": "Model/Format.lean",
"def": "exponent",
"old": "if e < 0 then '-' else '+'",
"new": "if e < 0 then '+' else '-'",
"edit": "sign of the exponent swapped",
"claim": "C79"
},
{
"file": "Model/Format.lean",
"def": "positive",
"old": "0 \u2264 d.2 then s.take (d.2.toNat + 1)",
"new": "0 \u2264 d.2 then s.take (d.2.toNat)",
"edit": "point one place too far left",
"claim": "C79"
},
{
"file": "Model/Format.lean",
"def": "positive",
"old": "(-d.2 - 1).toNat '0'",
"new": "(-d.2).toNat '0'",
"edit": "one zero too many behind the point",
"claim": "C79"
},
{
"file": "Model/Format.lean",
"def": "double",
"old": "if q < 0 then '-' ::",
"new": "if q < 0 then '+' ::",
"edit": "wrong sign",
"claim": "C79"
},
{
"file": "Model/PrintReal.lean",
"def": "randomText",
"old": "d.arf 54",
"new": "d.arf 5",
"edit": "random number approximated by 5 bits",
"claim": "C79"
},
{
"file": "Model/PrintReal.lean",
"def": "realText",
"old": "if q.den = 1 then [] else '/' ::",
"new": "if q.den = 2 then [] else '/' ::",
"edit": "denominator omitted at the wrong time",
"claim": "C79"
},
{
"file": "Model/PrintReal.lean",
"def": "realText",
"old": "f.int q.num ++",
"new": "f.int q.num.natAbs ++",
"edit": "sign of a rational omitted",
"claim": "C79"
},
{
"file": "Model/PrintReal.lean",
"def": "factorText",
"old": "if p.2 \u2260 1 then '^' :: f.int p.2 else []",
"new": "[]",
"edit": "exponents omitted",
"claim": "C79"
},
{
"file": "Model/PrintReal.lean",
"def": "factorText",
"old": "if p.2 \u2260 1 then '^' ::",
"new": "if p.2 \u2260 1 then",
"edit": "caret omitted",
"claim": "C79"
},
{
"file": "Model/PrintReal.lean",
"def": "realText",
"old": "join ['*'] (m.map",
"new": "join [] (m.map",
"edit": "products without a separator",
"claim": "C79"
},
{
"file": "Model/PrintReal.lean",
"def": "join",
"old": "s ++ sep ++ join sep (t :: ss)",
"new": "s ++ sep ++ join sep ss",
"edit": "every other factor skipped",
"claim": "C79"
},
{
"file": "Model/PrintReal.lean",
"def": "moduleText",
"old": "join \", \".toList (basis.map (realText f atoms))",
"new": "join \", \".toList (basis.tail.map (realText f atoms))",
"edit": "first generator not printed",
"claim": "C79"
},
{
"file": "Model/PrintReal.lean",
"def": "atomText",
"old": "\"p\".toList ++ f.int e ++",
"new": "\"p\".toList ++ f.int (e - 1) ++",
"edit": "the fix of finding F37",
"claim": "C79"
},
{
"file": "Model/PrintReal.lean",
"def": "RingName.text",
"old": "| rationals => \"\u211a-Module(\".toList",
"new": "| rationals => \"\u2124-Module(\".toList",
"edit": "wrong name of the ring",
"claim": "C79"
},
{
"file": "Model/Text.lean",
"def": "detectBase",
"old": "| '0' :: 'B' :: cs => (2, cs)",
"new": "| '0' :: 'B' :: cs => (3, cs)",
"edit": "wrong base for 0B",
"claim": "C78",
"tightened": "mpz_text_base (new)"
},
{
"file": "Model/Text.lean",
"def": "isSpace",
"old": "(9 \u2264 c.toNat",
"new": "(9 < c.toNat",
"edit": "tab is not white space",
"claim": "C78",
"tightened": "mpz_text_space (new)"
}
]