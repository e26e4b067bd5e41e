[
{"file":"Model/ArchiveStream.lean","def":"Writer.writeElement","old":".element (.shared (w.tab.idxOf o.addr + 1)) coefficients","new":".element (.shared (w.tab.idxOf o.addr)) coefficients","edit":"wrong number for a module that has been written","claim":"C80"},
{"file":"Model/ArchiveStream.lean","def":"Writer.writeElement","old":"w.proc.base.saveBasis (w.tab ++ [o.addr]) o.basis","new":"w.proc.base.saveBasis w.tab o.basis","edit":"the module is not registered","claim":"C80"},
{"file":"Model/ArchiveStream.lean","def":"Writer.writeElement","old":".module (w.tab.length + 1) ts o.ring","new":".module w.tab.length ts o.ring","edit":"module number off by one","claim":"C80"},
{"file":"Model/ArchiveStream.lean","def":"Writer.register","old":"(w.proc.base.heap.filter fun x => x.2.addr ∈ tab ∧ x.2.addr ∉ w.tab)","new":"(w.proc.base.heap.filter fun x => x.2.addr ∈ w.tab)","edit":"new numbers are not kept alive","claim":"C80"},
{"file":"Model/ArchiveStream.lean","def":"Writer.register","old":"(w.proc.mods.filter fun x => x.2.addr ∈ tab ∧ x.2.addr ∉ w.tab)","new":"(w.proc.mods.filter fun x => x.2.addr ∈ w.tab)","edit":"modules are not kept alive","claim":"C80"},
{"file":"Model/ArchiveStream.lean","def":"Writer.writeNumber","old":"some (w.register retain tab, .number t)","new":"some (w, .number t)","edit":"addresses are not remembered","claim":"C80"},
{"file":"Model/ArchiveStream.lean","def":"Reader.read","old":"modules := (id, m) :: r.modules }, .element m cs)","new":"modules := r.modules }, .element m cs)","edit":"the reader forgets the module","claim":"C80"},
{"file":"Model/ArchiveStream.lean","def":"Reader.read","old":"{ s with roots := p :: s.roots } }, numbers := tab }, .number p)","new":"{ s with roots := p :: s.roots } } }, .number p)","edit":"the reader forgets numbers","claim":"C80"},
{"file":"Model/ArchiveStream.lean","def":"Reader.read","old":"| (st, .ok m) => ({ proc := st, numbers := tab,","new":"| (st, .ok m) => ({ proc := st, numbers := r.numbers,","edit":"the reader forgets generators of modules","claim":"C80"},
{"file":"Model/ArchiveStream.lean","def":"Reader.read","old":"loadBasis alloc r.numbers ts","new":"loadBasis alloc [] ts","edit":"generators are not looked up","claim":"C80"},
{"file":"Model/ArchiveStream.lean","def":"Reader.read","old":"match r.modules.lookup id with","new":"match r.numbers.lookup id with","edit":"modules are looked up among the numbers","claim":"C80"}
]
