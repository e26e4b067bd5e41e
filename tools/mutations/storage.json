[
 {
  "file": "Model/Storage.lean",
  "def": "numStep moveConstruct",
  "old": "some ((m.setObj d x).init zero s)",
  "new": "some (m.setObj d x)",
  "edit": "Arb move constructor does not reinitialize the source",
  "claim": "C69"
 },
 {
  "file": "Model/Storage.lean",
  "def": "numStep moveConstruct",
  "old": "| .arf => (m.init zero d).swap d s",
  "new": "| .arf => m.swap d s",
  "edit": "Arf move constructor swaps with an object that is not initialized",
  "claim": "C69"
 },
 {
  "file": "Model/Storage.lean",
  "def": "Mem.store",
  "old": "do let m ← m.free p; some (m.setObj o (.inline v))",
  "new": "some (m.setObj o (.inline v))",
  "edit": "storing a small value does not free the block",
  "claim": "C69"
 },
 {
  "file": "Model/Storage.lean",
  "def": "Mem.store",
  "old": "else if (m.blocks p).isSome then some (m.setBlock p v) else none",
  "new": "else some ((m.setBlock fresh v).setObj o (.owner fresh))",
  "edit": "storing a large value always allocates",
  "claim": "C69"
 },
 {
  "file": "Model/Storage.lean",
  "def": "numStep destroy",
  "old": "    let m ← m.clear d\n    some (m.remove d)",
  "new": "    some (m.remove d)",
  "edit": "destructor does not free",
  "claim": "C69"
 },
 {
  "file": "Model/Storage.lean",
  "def": "numStep moveAssign",
  "old": "| .moveAssign d s => m.swap d s",
  "new": "| .moveAssign d s => (m.objs s).map fun x => m.setObj d x",
  "edit": "move assignment copies the bytes",
  "claim": "C69"
 },
 {
  "file": "Model/Storage.lean",
  "def": "numStep copyAssign",
  "old": "    if d = s then some m\n    else do\n      let v ← m.read s\n      m.store small fresh d v\n",
  "new": "    do\n      let v ← m.read d\n      m.store small fresh s v\n",
  "edit": "copy assignment in the wrong direction",
  "claim": "C69"
 },
 {
  "file": "Model/Storage.lean",
  "def": "numStep operate",
  "old": "    let y ← m.read b\n    m.store",
  "new": "    let y ← m.read d\n    m.store",
  "edit": "second operand is read from the target",
  "claim": "C69"
 },
 {
  "file": "Model/Storage.lean",
  "def": "Mem.eltMoveAssign",
  "old": "      let m ← m.delete d\n      some ((m.setObj s .null).setObj d x)",
  "new": "      some ((m.setObj s .null).setObj d x)",
  "edit": "move assignment leaks the old implementation",
  "claim": "C69"
 },
 {
  "file": "Model/Storage.lean",
  "def": "Mem.eltMoveAssign",
  "old": "      let m ← m.delete d\n      some ((m.setObj s .null).setObj d x)",
  "new": "      let m ← m.delete d\n      some (m.setObj d x)",
  "edit": "move assignment keeps the pointer in the source",
  "claim": "C69"
 },
 {
  "file": "Model/Storage.lean",
  "def": "Mem.eltMoveAssign",
  "old": "  if d = s then some m\n  else match m.objs s with\n    | some x =>",
  "new": "  match m.objs s with\n    | some x =>",
  "edit": "no check for self move assignment",
  "claim": "C69"
 },
 {
  "file": "Model/Storage.lean",
  "def": "Mem.eltCopyAssign",
  "old": "      some (m.setObj d (.owner fresh))",
  "new": "      some (m.setObj d (.owner p))",
  "edit": "copy assignment shares the implementation",
  "claim": "C69"
 },
 {
  "file": "Model/Storage.lean",
  "def": "Mem.eltCopyConstruct",
  "old": "some ((m.setBlock fresh v).setObj d (.owner fresh))\n  | _",
  "new": "some (m.setObj d (.owner p))\n  | _",
  "edit": "copy constructor shares the implementation",
  "claim": "C69"
 },
 {
  "file": "Model/Storage.lean",
  "def": "Mem.eltMoveConstruct",
  "old": "some ((m.setObj s .null).setObj d x)\n  | none => none\n\n/-- `operator=(Element&&)`",
  "new": "some (m.setObj d x)\n  | none => none\n\n/-- `operator=(Element&&)`",
  "edit": "move constructor keeps the pointer in the source",
  "claim": "C69"
 },
 {
  "file": "Model/Storage.lean",
  "def": "eltStep destroy",
  "old": "    let m ← m.delete d\n    some (m.remove d)",
  "new": "    some (m.remove d)",
  "edit": "destructor of elements does not delete",
  "claim": "C69"
 },
 {
  "file": "Model/Storage.lean",
  "def": "eltStep swap",
  "old": "    let m ← m.eltMoveAssign b tmp\n",
  "new": "    let m ← m.eltMoveAssign b a\n",
  "edit": "swap moves from the wrong object",
  "claim": "C69"
 },
 {
  "file": "Model/Storage.lean",
  "def": "addLoop",
  "old": "x.coeffs.set i (a + b)",
  "new": "x.coeffs.set i (b + b)",
  "edit": "adds the right operand twice",
  "claim": "C69"
 },
 {
  "file": "Model/Storage.lean",
  "def": "addLoop",
  "old": "addLoop p q n (i + 1)",
  "new": "addLoop p q n i",
  "edit": "index is not advanced",
  "claim": "C69"
 },
 {
  "file": "Model/Storage.lean",
  "def": "eltStep add",
  "old": "addLoop p q x.mod.basis.length 0 m",
  "new": "addLoop q p x.mod.basis.length 0 m",
  "edit": "result is written to the right operand",
  "claim": "C69"
 }
]