[
{"file":"Model/ElementApprox.lean","def":"Elt.arbLoop","old":"if ret.hasAccuracy accuracy then .ok ret else arbLoop accuracy ts fuel (prec * 2)","new":"if ret.hasAccuracy accuracy then .ok ret else arbLoop accuracy ts fuel (prec + 64)","edit":"the precision grows by 64 bits instead of being doubled","claim":"C88"},
{"file":"Model/ElementApprox.lean","def":"Elt.arbLoop","old":"if ret.hasAccuracy accuracy then .ok ret else arbLoop accuracy ts fuel (prec * 2)","new":"if ret.hasAccuracy (2 * accuracy) then .ok ret else arbLoop accuracy ts fuel (prec * 2)","edit":"twice the accuracy is demanded: still right, but more precision than needed","claim":"C88"},
{"file":"Model/ElementApprox.lean","def":"Elt.ltLoop","old":"    | some r => .ok r\n    | none => ltLoop op self fuel (prec * 2)","new":"    | some r => .ok r\n    | none => ltLoop op self fuel (prec * 4)","edit":"the precision is quadrupled: bits beyond the stated precision are read","claim":"C88"},
{"file":"Model/Ball.lean","def":"RN.ltLoop","old":"ltLoop x y fuel (prec * 2)","new":"ltLoop x y fuel (prec + 2)","edit":"the precision of comparisons of real numbers grows linearly","claim":"C88"},
{"file":"Model/ElementApprox.lean","def":"Elt.floor","old":"  | none => roundLoop Arf.floor (fun prec => x.arb atoms F coeff fuel prec) fuel 64","new":"  | none => roundLoop Arf.floor (fun prec => x.arb atoms F coeff fuel prec) fuel 128","edit":"floor starts with a precision of 128: still right, but reads more bits","claim":"C88"},
{"file":"Model/ElementApprox.lean","def":"Elt.arb","old":"fuel (accuracy + Nat.clog 2 x.mod.basis.length)","new":"fuel (accuracy * 2 + Nat.clog 2 x.mod.basis.length)","edit":"arb starts with twice the precision","claim":"C88"}
]
