[
{"file":"Model/Embedding.lean","def":"embed","old":"let level := max level prec","new":"let level := level","edit":"the field is not refined","claim":"C92: arb has the requested accuracy; returns"},
{"file":"Model/Embedding.lean","def":"embed","old":"let level := max level prec","new":"let level := prec","edit":"refinement forgets digits","claim":"C92 (equivalence of arb with the level kept)"},
{"file":"Model/Embedding.lean","def":"arbSumE","old":"arbSumE prec (F.add prec ret (F.mul prec (g.arb atoms prec) b)) rest level","new":"arbSumE prec (F.mul prec (g.arb atoms prec) b) rest level","edit":"sum dropped","claim":"C92: arb"},
{"file":"Model/Embedding.lean","def":"arbLoopE","old":"if ret.hasAccuracy accuracy then .ok (ret, level)","new":"if ret.hasAccuracy 0 then .ok (ret, level)","edit":"wrong accuracy","claim":"C92: accuracy"},
{"file":"Model/Embedding.lean","def":"ltE","old":".ok (self.lt other, level)) (fun","new":".ok (other.lt self, level)) (fun","edit":"swapped","claim":"C92: lt"},
{"file":"Model/Embedding.lean","def":"ltRNE","old":".ok (self.lt (y.arb atoms prec), level)","new":".ok ((y.arb atoms prec).lt self, level)","edit":"swapped","claim":"C92: lt with real numbers"},
{"file":"Model/Embedding.lean","def":"ltZE","old":"if x.eqZ n then .ok (false, level)","new":"if x.eqZ n then .ok (true, level)","edit":"equal means less","claim":"C92: lt with integers"},
{"file":"Model/Embedding.lean","def":"ltLoopE","old":"| none => ltLoopE op self fuel (prec * 2) level","new":"| none => ltLoopE op self fuel prec level","edit":"precision not increased","claim":"C92: effort"},
{"file":"Model/Embedding.lean","def":"roundLoopE","old":"if round lower = round upper then .ok (round lower, level)","new":"if true then .ok (round lower, level)","edit":"bounds not compared","claim":"C92: floor, ceil"},
{"file":"Model/Embedding.lean","def":"ceilE","old":"roundLoopE Arf.ceil","new":"roundLoopE Arf.floor","edit":"floor instead of ceil","claim":"C92: ceil"},
{"file":"Model/Embedding.lean","def":"toDoubleE","old":"fuel 55 level","new":"fuel 20 level","edit":"starts with too little precision","claim":"C92: double up to 3*2^-53"},
{"file":"Model/Embedding.lean","def":"doubleLoopE","old":".ok (Double.ofArf lower, level) else","new":".ok (Double.ofArf 0, level) else","edit":"wrong bound","claim":"C92: double"},
{"file":"Model/Embedding.lean","def":"floordivLoopE","old":"(F.div prec dividend div).interval","new":"(F.div prec div dividend).interval","edit":"swapped","claim":"C92: floordiv"},
{"file":"Model/Embedding.lean","def":"floordivE","old":"if !x.toBool then .ok (0, level)\n  else if x.mod","new":"if !x.toBool then .ok (1, level)\n  else if x.mod","edit":"zero dividend","claim":"C92: floordiv"}
]
