[
 {
  "file": "Model/Program.lean",
  "def": "Cmd.exec add",
  "old": "s.inplace d ((s.elt d).addAssign (s.elt a))",
  "new": "s.inplace d ((s.elt d).subAssign (s.elt a))",
  "edit": "+= subtracts",
  "claim": "C66"
 },
 {
  "file": "Model/Program.lean",
  "def": "Cmd.exec sub",
  "old": "s.inplace d ((s.elt d).subAssign (s.elt a))",
  "new": "s.inplace d ((s.elt a).subAssign (s.elt d))",
  "edit": "operands of -= swapped",
  "claim": "C66"
 },
 {
  "file": "Model/Program.lean",
  "def": "Cmd.exec truediv",
  "old": "s.assign? d (Elt.truediv fuel (s.elt a) (s.elt b))",
  "new": "s.assign? d (Elt.truediv fuel (s.elt b) (s.elt a))",
  "edit": "operands of truediv swapped",
  "claim": "C66"
 },
 {
  "file": "Model/Program.lean",
  "def": "Cmd.exec linear",
  "old": "Elt.ofCoefficients m (m.basis.map fun g => ((terms.find? fun t => s.num t.1 = g).map Prod.snd).getD 0)",
  "new": "Elt.ofCoefficients m (terms.map Prod.snd)",
  "edit": "coefficients in the order of the arguments instead of the order of the basis",
  "claim": "C66"
 },
 {
  "file": "Model/Program.lean",
  "def": "Cmd.exec gen",
  "old": "m.gen (m.basis.idxOf (s.num g))",
  "new": "m.gen (gens.idxOf g)",
  "edit": "index in the argument list instead of the basis",
  "claim": "C66"
 },
 {
  "file": "Model/Program.lean",
  "def": "Vars.inplace",
  "old": "(x.out >>= fun _ => .ok true, s.setElt d x.self)",
  "new": "(x.out >>= fun _ => .ok true, s)",
  "edit": "in-place result dropped",
  "claim": "C66"
 },
 {
  "file": "Model/Program.lean",
  "def": "Vars.setElt",
  "old": "⟨s.num, Function.update s.elt d x⟩",
  "new": "⟨s.num, fun i => if i ≤ d then x else s.elt i⟩",
  "edit": "assignment changes other variables",
  "claim": "C66"
 },
 {
  "file": "Model/Program.lean",
  "def": "Cmd.exec promote",
  "old": "if (s.elt d).mod.submodule (s.elt a).mod then",
  "new": "if (s.elt a).mod.submodule (s.elt d).mod then",
  "edit": "promote to a submodule",
  "claim": "C66"
 },
 {
  "file": "Model/Program.lean",
  "def": "Cmd.exec neg",
  "old": "s.setElt d (s.elt a).neg",
  "new": "s.setElt d (s.elt a)",
  "edit": "negation returns its operand",
  "claim": "C66"
 },
 {
  "file": "Model/Program.lean",
  "def": "Cmd.exec zero",
  "old": "s.setElt d (s.elt a).mod.zero",
  "new": "s.setElt d (s.elt a)",
  "edit": "zero() returns the element",
  "claim": "C66"
 },
 {
  "file": "Model/Element.lean",
  "def": "Elt.ofScalar",
  "old": "let m ← Mod.make (CRing.ofValue parent value) [.rat 1]",
  "new": "let m ← Mod.make (CRing.ofValue parent value) [.rat 2]",
  "edit": "scalar over the generator 2",
  "claim": "C65/C66"
 },
 {
  "file": "Model/Element.lean",
  "def": "Elt.convert",
  "old": "ofCoefficients m (x.coeffs.map f)",
  "new": "ofCoefficients m (x.coeffs.reverse.map f)",
  "edit": "conversion reverses the coefficients",
  "claim": "C65/C66"
 },
 {
  "file": "Model/Element.lean",
  "def": "Elt.convert",
  "old": "ofCoefficients m (x.coeffs.map f)",
  "new": "ofCoefficients m (x.coeffs.map fun c => f c + f c)",
  "edit": "conversion doubles",
  "claim": "C65/C66"
 },
 {
  "file": "Model/Element.lean",
  "def": "Elt.coefficient?",
  "old": "if i < 0 then none else x.coeffs[i.toNat]?",
  "new": "x.coeffs[i.toNat]?",
  "edit": "negative index not rejected",
  "claim": "C65/C66"
 },
 {
  "file": "Model/Element.lean",
  "def": "Elt.coefficient?",
  "old": "x.coeffs[i.toNat]?",
  "new": "x.coeffs[i.toNat + 1]?",
  "edit": "index off by one",
  "claim": "C65/C66"
 },
 {
  "file": "Model/Element.lean",
  "def": "Elt.mulRNAssign",
  "old": "let m ← Mod.make x.mod.par [r]; m.gen 0",
  "new": "let m ← Mod.make x.mod.par [.rat 1]; m.gen 0",
  "edit": "multiplies with one",
  "claim": "C65/C66"
 }
]