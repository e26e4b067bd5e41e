[
{
"file": "Model/Element.lean",
"def": "Elt.simplify",
"old": "if x.coeffs.all fun c => c ≠ 0 then .ok x",
"new": "if x.coeffs.any fun c => c ≠ 0 then .ok x",
"edit": "simplify returns early if any coefficient is not zero",
"claim": "C96: after simplify the rank is the number of non-zero coefficients"
},
{
"file": "Model/Module.lean",
"def": "Mod.spanSame",
"old": "  if n.submodule m then .ok m\n  else if m.submodule n then .ok n\n  else make m.par (extend m.basis n.basis)",
"new": "  if n.submodule m then .ok m\n  else if m.submodule n then .ok n\n  else make m.par (m.basis ++ n.basis)",
"edit": "generators in common are appended twice",
"claim": "C96: rank of a span"
},
{
"file": "Model/Double.lean",
"def": "Double.ofArf",
"old": "if 2 ^ 1024 ≤ near x then .posInf",
"new": "if 2 ^ 1023 ≤ near x then .posInf",
"edit": "overflow one binade early",
"claim": "C34, C95: double(x) is a neighbour of x"
},
{
"file": "Model/Approx.lean",
"def": "Atom.arfConstrained",
"old": "let initial := Arf.ofMantissaExponent m e\n  let missing",
"new": "let initial := Arf.round .near 54 (Arf.ofMantissaExponent m e)\n  let missing",
"edit": "the initial interval is rounded to a double",
"claim": "C34, C95: double(random(a, b)) is in [a, b]"
}
]