[
{"file":"Model/Print.lean","old":"    if ← lt x y then .ok (x :: y :: ys)","new":"    if ← lt x y then .ok (x :: ys)","def":"Print.setInsert","edit":"insertion overwrites the next entry","claim":"C61 every term once"},
{"file":"Model/Print.lean","old":"    else .ok (y :: ys)","new":"    else .ok (x :: y :: ys)","def":"Print.setInsert","edit":"multiset instead of set (no effect for distinct generators)","claim":"none: equivalent for comparable generators"},
{"file":"Model/Print.lean","old":"  if !a.negative && b.negative then .ok true\n  else if !b.negative && a.negative then .ok false","new":"  if !a.negative && b.negative then .ok false\n  else if !b.negative && a.negative then .ok true","def":"Entry.lt","edit":"negative terms first","claim":"C61 positive terms first"},
{"file":"Model/Print.lean","old":"  if c ≠ 1 then .num c :: (if g ≠ .rat 1 then [.times, .gen g] else [])","new":"  if c ≠ 1 then .num c :: (if g.isRat = false then [.times, .gen g] else [])","def":"Print.writeTerm","edit":"generator omitted for all rational generators","claim":"C61 value"},
{"file":"Model/Print.lean","old":"  else [.gen g]","new":"  else if g = .rat 1 then [] else [.gen g]","def":"Print.writeTerm","edit":"1*1 printed as nothing","claim":"C61"},
{"file":"Model/Print.lean","old":"        else .ok (.minus :: writeTerm (-c) g ++ out, empty')","new":"        else .ok (.minus :: writeTerm c g ++ out, empty')","def":"Print.write","edit":"coefficient not negated after writing the minus sign","claim":"C61 value"},
{"file":"Model/Print.lean","old":"(if empty then [] else [.plus])","new":"[]","def":"Print.write","edit":"no plus sign","claim":"C61"},
{"file":"Model/Print.lean","old":"        let (out, empty') ← write coeffLt rest false","new":"        let (out, empty') ← write coeffLt rest empty","def":"Print.write","edit":"empty not updated","claim":"C61"},
{"file":"Model/Print.lean","old":"    if c ≠ 0 then\n","new":"    if c ≠ 1 then\n","def":"Print.write","edit":"skips terms with coefficient one instead of zero","claim":"C61"},
{"file":"Model/Print.lean","old":"⟨coeffLt c 0, e, c⟩","new":"⟨false, e, c⟩","def":"Print.fill","edit":"sign not part of the sort key","claim":"C61 positive terms first"}
]
