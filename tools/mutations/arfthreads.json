[
{"file":"Model/ArfThreads.lean","old":"    | none => compute.bind fun v => .write x .arf54 (some v) (.ret ())).bind fun _ =>","new":"    | none => compute.bind fun _ => .ret ()).bind fun _ =>","def":"arf54Prog","edit":"result not stored","claim":"C62 returned value / refinement"},
{"file":"Model/ArfThreads.lean","old":"    | none => compute.bind fun v => .write x .arf64 (some v) (.ret ())).bind fun _ =>","new":"    | none => compute.bind fun v => .write x .arf54 (some v) (.ret ())).bind fun _ =>","def":"arf64Prog","edit":"stored in the wrong member","claim":"C62 returned value"},
{"file":"Model/ArfThreads.lean","old":"if prec = 54 then arf54Prog x compute else if prec = 64","new":"if prec = 53 then arf54Prog x compute else if prec = 64","def":"arfProg","edit":"wrong precision for the slot","claim":"C62"},
{"file":"Model/ArfThreads.lean","old":"insertLarge (prec : ℕ) (v : ℚ) (l : List (ℕ × ℚ)) : List (ℕ × ℚ) := (prec, v) :: ","new":"insertLarge (prec : ℕ) (v : ℚ) (l : List (ℕ × ℚ)) : List (ℕ × ℚ) := (prec + 1, v) :: ","def":"insertLarge","edit":"wrong key","claim":"C62 returned value"},
{"file":"Model/ArfThreads.lean","old":"  .access x .large .bracket (bracketLarge prec) fun l => .ret ((l.lookup prec).getD 0)","new":"  .read x .large fun l => .ret ((l.lookup prec).getD 0)","def":"largeProg","edit":"find instead of operator[] (a fix)","claim":"threads_race_large: no race when everything is cached"},
{"file":"Model/ArfThreads.lean","old":"      (if l.length ≥ 128 then Prog.write x .large [] (.ret ()) else .ret ()).bind fun _ =>\n","new":"","def":"largeProg","edit":"cache never cleared","claim":"refinement of the bounded cache"},
{"file":"Model/ArfThreads.lean","old":"(arfProg (.atom (I.inner i)) (missing - 1).toNat","new":"(arfProg (.atom i) (missing - 1).toNat","def":"Inner.atomProg","edit":"asks itself instead of inner","claim":"C62 returned value"},
{"file":"Model/ArfThreads.lean","old":"  | (i, e) :: m, ret => (I.mulProg w i e ret).bind fun ret => prodProg w m ret","new":"  | (i, e) :: m, ret => (I.mulProg w i e ret).bind fun _ => prodProg w m ret","def":"Inner.prodProg","edit":"dropped update","claim":"C62 returned value"},
{"file":"Model/ArfThreads.lean","old":"  | .read => c\n","new":"  | .read => g c\n","def":"Prog.effect","edit":"a read may modify","claim":"no effect for programs whose reads are the identity; lemma structure only"},
{"file":"Model/ArfThreads.lean","old":".prod m => arfProg (.prod m) prec.toNat <|\n    (I.prodProg (workingPrec prec.toNat (m.map Prod.snd).sum) m 1).bind fun ret => .ret (Arf.round .near (prec.toNat + 1) ret)","new":".prod m =>\n    (I.prodProg (workingPrec prec.toNat (m.map Prod.snd).sum) m 1).bind fun ret => .ret (Arf.round .near (prec.toNat + 1) ret)","def":"Inner.prog","edit":"products not cached","claim":"threads_race for products; refinement"}
]
