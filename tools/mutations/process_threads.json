[
 {
  "file": "Model/ElementHeap.lean",
  "def": "HElt.simplify",
  "old": "      let parent ← Act.makeModule o.ring gens\n      x.promote parent",
  "new": "      let found ← Act.look fun st => .ok ((st.mods.find? fun m => m.2.basis.map st.base.addrOf = gens.map st.base.addrOf).map Prod.fst)\n      match found with\n      | some parent => x.promote parent\n      | none => do\n        let parent ← Act.makeModule o.ring gens\n        x.promote parent",
  "edit": "simplify looks the module up without taking a reference",
  "claim": "C85"
 },
 {
  "file": "Model/ElementHeap.lean",
  "def": "HElt.mulRow",
  "old": "    let gen ← Act.call (.mul g h)\n",
  "new": "    let gen ← Act.look fun st => (st.base.mul (fun _ => 0) g h).2\n",
  "edit": "the product is looked up without a reference",
  "claim": "C85"
 },
 {
  "file": "Model/ElementHeap.lean",
  "def": "HVars.inplace",
  "old": "  let x ← x\n  return (x.out >>= fun _ => .ok true, s.setElt d x.self)",
  "new": "  let x ← x\n  return (.ok true, s.setElt d x.self)",
  "edit": "in-place operations report success when they throw",
  "claim": "C85"
 },
 {
  "file": "Model/ElementHeap.lean",
  "def": "NumOp.args",
  "old": "  | mul p q => [p, q]",
  "new": "  | mul p q => [p, q, 0]",
  "edit": "the factory uses a number that nobody refers to",
  "claim": "C85"
 },
 {
  "file": "Model/ElementHeap.lean",
  "def": "HVars.modSet",
  "old": "def modSet (s : HVars R) : Set Ptr := Set.range fun d => (s.elt d).mod",
  "new": "def modSet (_ : HVars R) : Set Ptr := ∅",
  "edit": "variables do not keep their modules alive",
  "claim": "C85"
 },
 {
  "file": "Model/ElementHeap.lean",
  "def": "HVars.numSet",
  "old": "def numSet (s : HVars R) : Set Ptr := Set.range s.num",
  "new": "def numSet (s : HVars R) : Set Ptr := {s.num 0}",
  "edit": "only the first variable keeps its number alive",
  "claim": "C85"
 },
 {
  "file": "Model/ElementHeap.lean",
  "def": "World.afterDiv",
  "old": "  | (s, .ok (some p)) => w.addNum s p",
  "new": "  | (s, .ok (some _)) => ⟨{ w.st with base := s }, w.nums, w.mods⟩",
  "edit": "the quotient is a raw pointer",
  "claim": "C85"
 },
 {
  "file": "Model/ElementHeap.lean",
  "def": "HCmd.exec",
  "old": "  | call (.zero d a) => s.assign d (HElt.zero (s.elt a).mod)",
  "new": "  | call (.zero d a) => s.assign a (HElt.zero (s.elt d).mod)",
  "edit": "zero assigned to the other variable",
  "claim": "C85"
 },
 {
  "file": "Model/ElementHeap.lean",
  "def": "HVars.assign",
  "old": "    | .ok x => return (.ok true, s.setElt d x)\n    | e => return (e >>= fun _ => .ok false, s)",
  "new": "    | .ok x => return (.ok true, (s.setElt d x).setElt (d + 1) x)\n    | e => return (e >>= fun _ => .ok false, s)",
  "edit": "the next variable is overwritten as well",
  "claim": "C85"
 }
]