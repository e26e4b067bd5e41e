[
{"file":"Model/ElementHeap.lean","def":"State.same","old":"def State.same (s : State) (p q : Ptr) : Bool := s.addrOf p = s.addrOf q","new":"def State.same (s : State) (p q : Ptr) : Bool := s.idOf p % 2 = s.idOf q % 2","edit":"numbers are compared by the last bit of their identity","claim":"C82: computations are exact in every process"},
{"file":"Model/ElementHeap.lean","def":"MState.sameModule","old":"Bool := (st.live m).map MObj.addr = (st.live n).map MObj.addr","new":"Bool := (st.live m).map (fun o => o.basis.length) = (st.live n).map (fun o => o.basis.length)","edit":"modules are the same if they have the same rank","claim":"C82"},
{"file":"Model/ElementHeap.lean","def":"submodule","old":"self.all fun gen => super.any fun sgen => s.same gen sgen","new":"self.any fun gen => super.any fun sgen => s.same gen sgen","edit":"submodule if one generator is shared","claim":"C82"},
{"file":"Model/ElementHeap.lean","def":"extend","old":"then basis else basis ++ [ngen]) rest","new":"then basis else basis) rest","edit":"span forgets to append","claim":"C82"},
{"file":"Model/ElementHeap.lean","def":"spanSame","old":"if nm then return m\n","new":"if nm then return n\n","edit":"span returns the submodule","claim":"C82"},
{"file":"Model/ElementHeap.lean","def":"span","old":"let m' ← Act.makeModule parameters a.basis\n","new":"let m' ← Act.makeModule a.ring a.basis\n","edit":"span keeps the ring of the left module","claim":"C82"},
{"file":"Model/ElementHeap.lean","def":"HElt.promoteLoop","old":"else if RN.lt (s.rn g) (s.rn t) then","new":"else if RN.lt (s.rn t) (s.rn g) then","edit":"comparison swapped in promote","claim":"C82"},
{"file":"Model/ElementHeap.lean","def":"HElt.promote","old":"else if !x.toBool then zero parent","new":"else if !x.toBool then return x","edit":"promotion of zero stays in its module","claim":"C82: call outcome (module of the result)"},
{"file":"Model/ElementHeap.lean","def":"HElt.accumulate","old":"then (g, c + value) :: rest","new":"then (g, value) :: rest","edit":"products overwrite instead of accumulating","claim":"C82"},
{"file":"Model/ElementHeap.lean","def":"HElt.mulRow","old":"(accumulate st.base gen (c * d) products)","new":"(accumulate st.base gen c products)","edit":"coefficient of rhs dropped","claim":"C82"},
{"file":"Model/ElementHeap.lean","def":"HElt.assemble","old":"return ⟨assertThat same, ⟨parent, sorted.map Prod.snd⟩⟩","new":"return ⟨assertThat same, ⟨parent, products.map Prod.snd⟩⟩","edit":"coefficients not sorted with their generators","claim":"C82"},
{"file":"Model/ElementHeap.lean","def":"HElt.mulAssign","old":"let y' ← y.promote my\n","new":"let y' ← y.promote x.mod\n","edit":"wrong module for promotion","claim":"C82"},
{"file":"Model/ElementHeap.lean","def":"HElt.eq","old":"let y' ← y.promote (P := P) parent\n    return","new":"let y' ← y.promote (P := P) x.mod\n    return","edit":"y is promoted to the module of x only","claim":"C82: comparisons are right"},
{"file":"Model/ElementHeap.lean","def":"HElt.simplify","old":"filter fun t => t.2 ≠ 0).map Prod.fst","new":"filter fun t => t.2 = 0).map Prod.fst","edit":"simplify keeps the zero terms","claim":"C82"},
{"file":"Model/ElementHeap.lean","def":"HElt.truedivLoop","old":"let remainder ← result (P := P) (remainder.subAssign product)","new":"let remainder ← result (P := P) (remainder.addAssign product)","edit":"remainder grows","claim":"C82"},
{"file":"Model/ElementHeap.lean","def":"World.afterNum","old":"| (s, .ok p) => w.addNum s p\n  | (s, _) => ⟨{ w.st with base := s }, w.nums, w.mods⟩\n\n/-- `operator/`","new":"| (s, _) => ⟨{ w.st with base := s }, w.nums, w.mods⟩\n\n/-- `operator/`","edit":"the result of a factory is not kept alive (raw pointer)","claim":"C82: no call follows a pointer to a destroyed object"},
{"file":"Model/ElementHeap.lean","def":"World.afterMake","old":"| (st, .ok m) => ⟨st, w.nums, insert m w.mods⟩\n","new":"| (st, .ok _) => ⟨st, w.nums, w.mods⟩\n","edit":"modules are returned as raw pointers","claim":"C82: no call follows a pointer to a destroyed object"},
{"file":"Model/ElementHeap.lean","def":"HCmd.exec","old":"| call (.copy d a) => return (.ok true, s.setElt d (s.elt a))","new":"| call (.copy d a) => return (.ok true, s.setElt d (s.elt d))","edit":"copy does nothing","claim":"C82"},
{"file":"Model/ElementHeap.lean","def":"HCmd.exec","old":"| random d seed => s.assignNum d (Act.call (.random seed))","new":"| random d seed => s.assignNum d (Act.call (.random 0))","edit":"seed ignored","claim":"C82"},
{"file":"Model/ElementHeap.lean","def":"HElt.one","old":"CRing.imulQ P c (rational.den / rational.num)","new":"CRing.imulQ P c (rational.num / rational.den)","edit":"reciprocal in one()","claim":"C82"},
{"file":"Model/ElementHeap.lean","def":"HElt.ofScalar","old":"let g ← Act.call (.rational 1)","new":"let g ← Act.call (.rational 2)","edit":"scalar in the module with the generator 2","claim":"C82"}
]
