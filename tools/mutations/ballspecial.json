[
{"file":"Model/BallSpecial.lean","def":"XBall.lt","old":"def lt (a b : XBall) : Option Bool := if allLt a b then some true else if allLe b a then some false else none","new":"def lt (a b : XBall) : Option Bool := if allLt a b then some true else if allLt b a then some false else none","edit":"arb_gt instead of arb_ge","claim":"C63 completeness"},
{"file":"Model/BallSpecial.lean","def":"XBall.gt","old":"def gt (a b : XBall) : Option Bool := if allLt b a then some true else if allLe a b then some false else none","new":"def gt (a b : XBall) : Option Bool := if allLe b a then some true else if allLe a b then some false else none","edit":"arb_ge instead of arb_gt","claim":"C63 soundness"},
{"file":"Model/BallSpecial.lean","def":"XBall.eq","old":"if allEq a b then some true else if allNe a b then some false else none","new":"if a = b then some true else if allNe a b then some false else none","edit":"arb_equal instead of arb_eq","claim":"C63 =="},
{"file":"Model/BallSpecial.lean","def":"IntType.toSupported","old":"if long.min ≤ t.min ∧ t.max ≤ long.max then","new":"if long.min ≤ t.min then","edit":"upper limit not checked","claim":"C63 integers"},
{"file":"Model/BallSpecial.lean","def":"IntType.toSupported","old":"let long : IntType := ⟨t.signed, longBits⟩","new":"let long : IntType := ⟨true, longBits⟩","edit":"always slong","claim":"(value preserving still)"},
{"file":"Model/BallSpecial.lean","def":"XBall.ne","old":"  match eq a b with\n  | some r => some !r","new":"  match eq a b with\n  | some r => some r","edit":"dropped negation","claim":"C63 !="},
{"file":"Model/BallSpecial.lean","def":"XBall.negInf","old":"def negInf : XBall := ofArf (.ofDouble (.num .negInf))","new":"def negInf : XBall := ofArf (.ofDouble (.num .posInf))","edit":"sign lost","claim":"C63 constants"},
{"file":"Model/BallSpecial.lean","def":"XBall.lower","old":"  | x, some _ => x\n  | _, none => .negInf","new":"  | x, some _ => x\n  | x, none => if x = .posInf then .posInf else .negInf","edit":"[inf +/- inf] taken for inf","claim":"C63"}
]
