[
{"file":"Model/ModuleHeap.lean","def":"mstep","old":"base := { st.base with roots := st.base.roots.diff o.basis }\n        mods","new":"mods","edit":"a destroyed module does not release its generators","claim":"C83: generators of destroyed modules are freed"},
{"file":"Model/ModuleHeap.lean","def":"MState.make","old":"| some e => ({ st with mroots := e.2 :: st.mroots }, .ok e.2)","new":"| some e => ({ st with base := { st.base with roots := sorted ++ st.base.roots }, mroots := e.2 :: st.mroots }, .ok e.2)","edit":"the constructor arguments of a module that exists already are leaked","claim":"C83: references are accounted for"},
{"file":"Model/ModuleHeap.lean","def":"MState.make","old":"| some e => ({ st with mroots := e.2 :: st.mroots }, .ok e.2)","new":"| some e => ({ st with mroots := e.2 :: e.2 :: st.mroots }, .ok e.2)","edit":"the factory keeps a strong reference to a module that it finds","claim":"C83: references are accounted for"},
{"file":"Model/Heap.lean","def":"State.randomIn","old":"({ s with roots := s.roots.erase inner }, .ok p)","new":"(s, .ok p)","edit":"the reference to the inner random number is leaked","claim":"C83: a call adds one reference, to its result"},
{"file":"Model/Heap.lean","def":"State.get","old":"| some e => ({ s with roots := e.2 :: s.roots }, e.2)","new":"| some e => (s, e.2)","edit":"the factory returns an object without taking a reference","claim":"C83: a call adds one reference, to its result"},
{"file":"Model/Heap.lean","def":"step","old":"| .forget k p => if (s.live p).isNone then","new":"| .forget k p => if (s.live p).isNone && k.refs.isEmpty then","edit":"entries of constrained random numbers are never removed from the factory (they keep the inner number alive)","claim":"C83: the factories only have entries for living numbers, and inner random numbers are freed"},
{"file":"Model/Heap.lean","def":"step","old":"if (s.live p).isSome && !s.referenced p then","new":"if (s.live p).isSome && !s.referenced p && !(s.cache.any fun e => e.2 = p) then","edit":"the factories hold strong references to their objects","claim":"C83: unreferenced numbers are freed"},
{"file":"Model/Heap.lean","def":"step","old":"if (s.live p).isSome && !s.referenced p then","new":"if (s.live p).isSome && !s.roots.contains p then","edit":"parts of products are destroyed while the product is alive","claim":"C83: what is needed stays"},
{"file":"Model/ModuleHeap.lean","def":"mstep","old":"if st.mroots.contains m then none\n","new":"if st.mroots.contains m && false then none\n","edit":"modules are destroyed while there are references","claim":"C83: what is needed stays"},
{"file":"Model/ModuleHeap.lean","def":"mstep","old":"| .forget k m => if (st.live m).isNone then some","new":"| .forget k m => if (st.live m).isNone && k.1.isEmpty then some","edit":"entries of destroyed modules stay in the factory","claim":"C83: the factories only have entries for living modules"},
{"file":"Model/Heap.lean","def":"State.div (rebuild)","old":"| [(i, 1)] => ({ s with roots := i :: s.roots }, i)","new":"| [(i, 1)] => ({ s with roots := i :: i :: s.roots }, i)","edit":"a quotient that is an atom is referenced twice","claim":"C83: a call adds one reference"},
{"file":"Model/Heap.lean","def":"Key.refs","old":"| constrained _ _ inner => [inner]\n  | _ => []","new":"| _ => []","edit":"keys do not keep the inner random number alive","claim":"(no claim: the model would then free inner numbers earlier)"}
]
