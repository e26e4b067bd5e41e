[
{"file":"Model/Approx.lean","def":"prodLoop","old":"((atoms p.1).arf w)","new":"((atoms (p.1 + 1)).arf w)","edit":"the loop multiplies with the approximation of the wrong factor","claim":"C97: approximations depend only on the random numbers that occur"},
{"file":"Model/Element.lean","def":"Elt.truedivLoop","old":"let m ← Mod.make ring [gq]","new":"let m ← Mod.make ring [g]","edit":"the partial quotient uses the generator of the remainder","claim":"C97, C18: generators of quotients"},
{"file":"Model/RealNumber.lean","def":"RN.div","old":"    | atom j => .ok ((Mono.divAtom j m).map rebuild)","new":"    | atom j => .ok ((Mono.divAtom j m).map fun q => rebuild (q ++ [(j, 1)]))","edit":"the divisor is put back into the quotient","claim":"C97: a quotient involves only random numbers of the dividend"}
]
