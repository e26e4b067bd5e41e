[
{"file":"Model/DerivedOrder.lean","def":"RN.leRN","old":"def leRN (fuel : ℕ) (x y : RN) : Out Bool := (ltRN atoms fuel y x).not","new":"def leRN (fuel : ℕ) (x y : RN) : Out Bool := (ltRN atoms fuel x y).not","edit":"arguments not swapped","claim":"C64 <="},
{"file":"Model/DerivedOrder.lean","def":"Elt.le","old":"def le [Build] (fuel : ℕ) (x y : Elt P R) : Out Bool := (lt atoms F coeff fuel y x).not","new":"def le [Build] (fuel : ℕ) (x y : Elt P R) : Out Bool := lt atoms F coeff fuel x y","edit":"<= is <","claim":"C22 <="},
{"file":"Model/DerivedOrder.lean","def":"Elt.leZ","old":"def leZ (fuel : ℕ) (x : Elt P R) (n : ℤ) : Out Bool := (gtZ atoms F coeff fuel x n).not","new":"def leZ (fuel : ℕ) (x : Elt P R) (n : ℤ) : Out Bool := ltZ atoms F coeff fuel x n","edit":"<= is <","claim":"C22 <= integers"},
{"file":"Model/DerivedOrder.lean","def":"RN.geQ","old":"def geQ (F : Arith) (fuel : ℕ) (x : RN) (q : ℚ) : Out Bool := (ltQ atoms F fuel x q).not","new":"def geQ (F : Arith) (fuel : ℕ) (x : RN) (q : ℚ) : Out Bool := gtQ atoms F fuel x q","edit":">= is >","claim":"C23 >= mpq"},
{"file":"Model/Ball.lean","def":"RN.refine","old":"⟨midpoint, some (2 ^ (Arf.logb midpoint - (prec + 1)))⟩","new":"⟨midpoint, some (2 ^ (Arf.logb midpoint - (prec + 2)))⟩","edit":"radius halved again","claim":"C64 soundness"},
{"file":"Model/Ball.lean","def":"RN.ltLoop","old":"    let other := y.refine atoms other prec\n    match self.lt other with","new":"    let other := y.refine atoms other (prec + 1)\n    match self.lt other with","edit":"different precision for the right hand side","claim":"C64 asymmetry/transitivity"},
{"file":"Model/Approx.lean","def":"RN.arf_","old":"  | rat q => Arf.round .near (if prec = 0 then 1 else prec) ((q.num : ℚ) / q.den)","new":"  | rat q => Arf.round .up (if prec = 0 then 1 else prec) ((q.num : ℚ) / q.den)","edit":"round away","claim":"C64 soundness (crossing)"}
]
