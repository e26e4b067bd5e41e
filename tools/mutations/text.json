[
{
"file": "Model/Text.lean",
"def": "saveMpz",
"old": "def saveMpz (z : \u2124) : Str := getStr 10 z",
"new": "def saveMpz (z : \u2124) : Str := getStr 16 z",
"edit": "integers written in base 16 but read in base 10",
"claim": "C78"
},
{
"file": "Model/Text.lean",
"def": "saveMpq",
"old": "if q.den = 1 then []",
"new": "if q.den = 2 then []",
"edit": "denominator omitted at the wrong time",
"claim": "C78"
},
{
"file": "Model/Text.lean",
"def": "getStr",
"old": "if z < 0 then ['-'] else []",
"new": "if z \u2264 0 then ['-'] else []",
"edit": "minus sign for zero",
"claim": "C78 (harmless: -0 is read as 0; the example with literals does not see it)"
},
{
"file": "Model/Text.lean",
"def": "getStr",
"old": "if z < 0 then ['-'] else []",
"new": "if z < 0 then [] else []",
"edit": "sign dropped",
"claim": "C78"
},
{
"file": "Model/Text.lean",
"def": "detectBase",
"old": "  | '0' :: cs => (8, cs)",
"new": "  | '0' :: cs => (8, cs)\n  | '1' :: cs => (8, cs)",
"edit": "base 8 for a leading one",
"claim": "C78"
},
{
"file": "Model/Text.lean",
"def": "splitAt",
"old": "then some ([], ds)",
"new": "then some ([d], ds)",
"edit": "separator kept",
"claim": "C78"
},
{
"file": "Model/Text.lean",
"def": "dumpArf",
"old": "| .negInf => getStr 16 0 ++ ' ' :: getStr 16 (-2)",
"new": "| .negInf => getStr 16 0 ++ ' ' :: getStr 16 (-1)",
"edit": "-inf written like +inf",
"claim": "C78"
},
{
"file": "Model/Text.lean",
"def": "parseArf",
"old": "if m = 0 \u2227 e \u2260 0 then",
"new": "if m = 0 then",
"edit": "zero treated like a special value",
"claim": "C78"
},
{
"file": "Model/Text.lean",
"def": "parseArb",
"old": "parseArf (m ++ ' ' :: e), parseMag rad",
"new": "parseArf (m ++ ' ' :: e), parseMag e",
"edit": "radius parsed from the exponent",
"claim": "C78"
},
{
"file": "Model/Text.lean",
"def": "setDigits",
"old": "n * base + digitValue c",
"new": "n + base * digitValue c",
"edit": "digits combined in the wrong order",
"claim": "C78"
},
{
"file": "Model/Text.lean",
"def": "loadMpq",
"old": "match mpqSetStr 0 s with",
"new": "match mpqSetStr 8 s with",
"edit": "rationals read in base 8",
"claim": "C78"
}
]