[
 {
  "file": "Model/ModuleHeap.lean",
  "def": "mstep destroy",
  "old": "if st.mroots.contains m then none\n",
  "new": "if ¬(st.mroots.contains m) then none\n",
  "edit": "a module is destroyed only while somebody refers to it",
  "claim": "C55 (referenced modules are alive)",
  "tightened": [
   "module_alive (new; the mutant survived before)"
  ]
 },
 {
  "file": "Model/ModuleHeap.lean",
  "def": "mstep copy",
  "old": "| .copy m => if st.mroots.contains m",
  "new": "| .copy m => if ¬(st.mroots.contains m)",
  "edit": "a pointer can be copied only if there is none",
  "claim": "C55",
  "tightened": [
   "module_alive (new; the mutant survived before)"
  ]
 },
 {
  "file": "Model/ModuleHeap.lean",
  "def": "mstep destroy",
  "old": "base := { st.base with roots := st.base.roots.diff o.basis }",
  "new": "base := { st.base with roots := st.base.roots.diff (o.basis ++ o.basis) }",
  "edit": "destroying a module releases its generators twice",
  "claim": "C55"
 },
 {
  "file": "Model/ArfSpecial.lean",
  "def": "XArf.floor",
  "old": "  | fin q => .ok (Arf.floor q)",
  "new": "  | fin q => .ok (Arf.ceil q)",
  "edit": "floor returns the ceiling",
  "claim": "C59",
  "tightened": [
   "arf_floor_special (the mutant survived before)"
  ]
 },
 {
  "file": "Model/BallSpecial.lean",
  "def": "XBall.zeroPmInf",
  "old": "def zeroPmInf : XBall := ⟨.fin 0, none⟩",
  "new": "def zeroPmInf : XBall := ⟨.fin 1, none⟩",
  "edit": "midpoint of zero_pm_inf is one",
  "claim": "C61",
  "tightened": [
   "xball_constants (the mutant survived before)"
  ]
 },
 {
  "file": "Model/Element.lean",
  "def": "Elt.promoteLoop",
  "old": "    assertThat (c = 0)\n",
  "new": "    assertThat (c ≠ 0)\n",
  "edit": "assertion negated",
  "claim": "C67/C68"
 },
 {
  "file": "Model/Element.lean",
  "def": "Elt.promoteLoop",
  "old": "    assertThat (c = 0)\n    promoteLoop ring src ours []",
  "new": "    promoteLoop ring src ours []",
  "edit": "assertion dropped",
  "claim": "C67 (promote_depends_on_build)"
 },
 {
  "file": "Model/Element.lean",
  "def": "Elt.truedivLoop",
  "old": "          let remainder ← remainder.sub product\n",
  "new": "",
  "edit": "remainder is not reduced",
  "claim": "C68/C19"
 },
 {
  "file": "Model/Element.lean",
  "def": "Elt.truedivLoop",
  "old": "let remainder ← remainder.sub product",
  "new": "let remainder ← remainder.add product",
  "edit": "remainder grows",
  "claim": "C68/C19"
 },
 {
  "file": "Model/Element.lean",
  "def": "Elt.truedivLoop",
  "old": "          assertThat (!CRing.isField P)\n          .ok none",
  "new": "          assertThat (CRing.isField P)\n          .ok none",
  "edit": "assertion on fields negated",
  "claim": "C67/C68"
 },
 {
  "file": "Model/Element.lean",
  "def": "Elt.truediv",
  "old": "def truediv [Build] (fuel : ℕ) (x rhs : Elt P R) : Out (Option (Elt P R)) := do\n  checkArgument (!rhs.eqZ 0)\n  if rhs.eqZ 1 then .ok (some x)",
  "new": "def truediv [Build] (fuel : ℕ) (x rhs : Elt P R) : Out (Option (Elt P R)) := do\n  assertThat (!rhs.eqZ 0)\n  if rhs.eqZ 1 then .ok (some x)",
  "edit": "argument check replaced by an assertion",
  "claim": "C67/C19"
 },
 {
  "file": "Model/Element.lean",
  "def": "Elt.truediv",
  "old": "def truediv [Build] (fuel : ℕ) (x rhs : Elt P R) : Out (Option (Elt P R)) := do\n  checkArgument (!rhs.eqZ 0)\n  if rhs.eqZ 1 then .ok (some x)",
  "new": "def truediv [Build] (fuel : ℕ) (x rhs : Elt P R) : Out (Option (Elt P R)) := do\n  checkArgument (!rhs.eqZ 0)\n  if rhs.eqZ 1 then .ok none",
  "edit": "division by one has no result",
  "claim": "C19/C68"
 },
 {
  "file": "Model/Program.lean",
  "def": "Cmd.exec promote",
  "old": "if (s.elt d).mod.submodule (s.elt a).mod then s.assign d",
  "new": "if (s.elt a).mod.submodule (s.elt d).mod then s.assign d",
  "edit": "promotes to submodules instead",
  "claim": "C67/C68"
 },
 {
  "file": "Model/Program.lean",
  "def": "Cmd.exec one",
  "old": "| one d a => s.assign d (s.elt a).mod.one",
  "new": "| one d a => (.ok true, s.setElt d (s.elt a).mod.zero)",
  "edit": "one is zero",
  "claim": "C66"
 }
]