import json
M=[]
def m(f,d,o,n,e,c): M.append({"file":"Model/"+f+".lean","def":d,"old":o,"new":n,"edit":e,"claim":c})
A="Arf"
m(A,"nearInt","else if ⌊y⌋ % 2 = 0 then ⌊y⌋ else ⌊y⌋ + 1","else ⌊y⌋ + 1","ties are rounded up","rounding to nearest breaks ties to even")
m(A,"nearInt","if y - ⌊y⌋ < 1 / 2 then","if y - ⌊y⌋ < 3 / 4 then","wrong threshold","correct rounding")
m(A,"Rnd.toInt","| down, y => if 0 ≤ y then","| down, y => if y ≤ 0 then","down and up swapped","rounding direction")
m(A,"Rnd.toInt","| ceil, y => ⌈y⌉","| ceil, y => ⌊y⌋","ceil rounds down","rounding direction")
m(A,"ulp","2 ^ (Int.log 2 |x| + 1 - prec)","2 ^ (Int.log 2 |x| - prec)","one bit too many","result has at most prec bits")
m(A,"ulp","2 ^ (Int.log 2 |x| + 1 - prec)","2 ^ (Int.log 2 |x| + 2 - prec)","one bit too few","error at most half a unit")
m(A,"mantissaExponent","(p.1, (p.2 : ℤ) - Nat.log 2 x.den)","(p.1, (p.2 : ℤ) + Nat.log 2 x.den)","sign of exponent","mantissa and exponent reproduce the number")
m(A,"bits","(mantissa x).natAbs + 1","(mantissa x).natAbs","off by one","bits")
m(A,"shiftRight","shiftLeft x (-n)","shiftLeft x n","shifts left","shift is multiplication by a power of two")
m(A,"floor","Rnd.near.toInt (⌊x⌋ : ℚ)","Rnd.near.toInt (x : ℚ)","rounds to nearest","floor")
m(A,"ceil","Rnd.near.toInt (⌈x⌉ : ℚ)","Rnd.near.toInt (⌊x⌋ + 1 : ℚ)","wrong at integers","ceil")
m(A,"ofMantissaExponent","m * 2 ^ e","m * 2 ^ (-e)","sign of exponent","mantissa and exponent reproduce the number")
A="Approx"
m(A,"Digits.loop","if digits < prec + 1 then","if digits < prec then","one digit too few","the loop returns arf")
m(A,"Digits.loop","acc (-(pos : ℤ))","acc (-(digits : ℤ))","leading zeros ignored","the loop returns arf")
m(A,"Digits.arf","d.first + prec + 1","d.first + prec","one digit too few","random arf is accurate")
m(A,"Digits.arf","d.first + prec + 1","prec + 1","leading zeros ignored","random arf is accurate")
m(A,"arfConstrained","(e - 1))","e)","shift by e instead of e-1","accuracy of constrained numbers")
m(A,"arfConstrained","((prec : ℤ) + 1) - Arf.bits","((prec : ℤ) - 1) - Arf.bits","missing too small","accuracy of constrained numbers")
m(A,"arfConstrained","(inner.arf (missing - 1).toNat)","(inner.arf 0)","inner not refined","convergence of constrained numbers")
m(A,"arfConstrained","    else initial\n  Arf.round .near (prec + 1) ret","    else initial\n  ret","not rounded","result has at most prec+1 bits")
m(A,"workingPrec","Nat.clog 2 (3 * n)","0","no extra bits","accuracy of products")
m(A,"prodLoop","p.2 ret) ret","(p.2 - 1) ret) ret","exponent off by one","value of products")
m(A,"mulLoop","| 0, ret => ret","| 0, _ => a","accumulator dropped","value of products")
m(A,"RN.arf_","(if prec = 0 then 1 else prec) ((q.num","(if prec = 0 then 1 else prec - 1) ((q.num","one bit too few for rationals","accuracy of rationals")
m(A,"RN.arf_","| prod m => Arf.round .near","| prod m => Arf.round .floor","wrong rounding mode","accuracy of products")
m(A,"RN.arf","prec.toNat","prec.natAbs","negative precision","negative precisions are treated as 0")
A="Double"
m(A,"Double.ulp","(-1074)","(-1022)","subnormals flushed","conversion to double accuracy")
m(A,"Double.ulp","- 52)","- 51)","52 bit mantissa","conversion to double")
m(A,"Double.ofArf","if 2 ^ 1024 ≤ near x then .posInf","if 2 ^ 1023 ≤ near x then .posInf","early overflow","conversion to double")
m(A,"RN.toDouble","(x.arf atoms 54)","(x.arf atoms 50)","too little precision","conversion to double accuracy")
A="Random"
m(A,"randomIn","else if upper ≤ lower then","else if upper < lower then","empty interval accepted","logic_error for empty intervals")
m(A,"randomIn","if lower = 0 ∧ upper = 1 then","if lower = 0 then","shortcut too wide","random in [a,b]")
m(A,"randomIn","if le < ue then (um * 2 ^ (ue - le).toNat, le)","if le < ue then (um * 2 ^ (ue - le).toNat, ue)","exponent not updated","random in [a,b]")
m(A,"randomIn","if ue < le then (lm * 2 ^ (le - ue).toNat, ue)","if ue < le then (lm, ue)","mantissa not scaled","random in [a,b]")
m(A,"randomIn","gen.urandomm seed (um - lm) + lm","gen.urandomm seed (um - lm + 1) + lm","range off by one","random in [a,b]")
m(A,"nextUp","then x + Double.ulp x / 2 else x + Double.ulp x","then x + Double.ulp x else x + Double.ulp x","wrong at powers of two","nextUp spec / random(double)")
m(A,"randomNear","let upper := r (r (r (2 * x) + nextUp x) / 3)","let upper := r (r (r (2 * x) + 2 * nextUp x) / 3)","upper bound too large","random(x) converts to x")
m(A,"randomNear","let upper := r (r (r (2 * x) + nextUp x) / 3)","let upper := nextUp x","upper bound is next double","random(x) converts to x")
m(A,"randomDouble","| _ => .throws .logicError","| _ => .ok (.random (gen.digits seed))","infinite accepted","logic_error for non finite")
A="Ball"
m(A,"allLt","some r, some s => a.mid + r < b.mid - s","some r, some s => a.mid + r ≤ b.mid - s","not strict","Arb comparison sound")
m(A,"allLt","some r, some s => a.mid + r < b.mid - s","some r, some s => a.mid < b.mid - s","radius ignored","Arb comparison sound")
m(A,"allEq","a.rad = some 0 && b.rad = some 0 && a.mid","a.rad = b.rad && a.mid","radius ignored","Arb comparison sound")
m(A,"Ball.lt","if allLt a b then some true else if allLe b a then some false else none","if allLt a b then some true else if allLt b a then some false else none","undecided for equal exact balls","Arb comparison decides whenever it can")
m(A,"Ball.le","  match gt a b with\n  | some r => some !r","  match gt a b with\n  | some r => some r","not negated","Arb <= sound")
m(A,"Ball.ge","  match lt a b with\n  | some r => some !r","  match le a b with\n  | some r => some !r","wrong operator","Arb >= sound")
m(A,"Ball.ne","  match eq a b with\n  | some r => some !r","  match eq a b with\n  | some r => some r","not negated","Arb != sound")
m(A,"Ball.interval","(Arf.round .floor accuracy (b.mid - r), Arf.round .ceil accuracy (b.mid + r))","(Arf.round .ceil accuracy (b.mid - r), Arf.round .floor accuracy (b.mid + r))","rounded inwards","interval contains the ball")
m(A,"Ball.scaled","(exact q.den)","(exact q.num)","numerator and denominator swapped","comparison with rationals")
m(A,"Ball.leQ","(a : Ball) (q : ℚ) : Option Bool := (a.scaled F q).le (exact q.num)","(a : Ball) (q : ℚ) : Option Bool := (a.scaled F q).lt (exact q.num)","< instead of <=","comparison with rationals")
m(A,"RN.refine","2 ^ (Arf.logb midpoint - (prec + 1))","2 ^ (Arf.logb midpoint - (prec + 9))","radius too small","containment")
m(A,"RN.refine","2 ^ (Arf.logb midpoint - (prec + 1))","2 ^ (Arf.logb midpoint - prec + 1)","radius too large","arb has the requested accuracy")
m(A,"RN.cmp","if approx < lo then -1 else if hi < approx then 1","if approx < lo then 1 else if hi < approx then -1","sign","cmp")
m(A,"RN.ltLoop","ltLoop x y fuel (prec * 2) self other","ltLoop x y fuel prec self other","precision not increased","comparison terminates")
m(A,"RN.ltRN","if x = y then .ok false","if x = y then .ok true","equal numbers compare less","irreflexive")
m(A,"RN.eqArf","| some q => a * q.den = q.num","| some q => a = q.num","denominator ignored","RealNumber == Arf")
m(A,"RN.gtArf","    let r ← ltArf atoms fuel x a\n    .ok !r","    let r ← ltArf atoms fuel x a\n    .ok r","not negated","RealNumber > Arf")
m(A,"RN.ltQ","  | some r => .ok (r < q)","  | some r => .ok (r ≤ q)","not strict","RealNumber < mpq")
m(A,"RN.cmpQLoop","cmpQLoop x op fuel (prec * 2)","cmpQLoop x op fuel prec","precision not increased","comparison terminates")
A="ElementApprox"
m(A,"Elt.arbSum","(F.add prec ret (F.mul","(F.add prec (Ball.exact 0) (F.mul","accumulator dropped","Element::arb contains the value")
m(A,"Elt.arbLoop","if ret.hasAccuracy accuracy then","if ret.hasAccuracy (accuracy - 1 : ℤ) then","accuracy off by one","Element::arb has the requested accuracy")
m(A,"Elt.arbLoop","arbLoop accuracy ts fuel (prec * 2)","arbLoop accuracy ts fuel prec","precision not increased","Element::arb returns")
m(A,"Elt.ltLoop","ltLoop op self fuel (prec * 2)","ltLoop op self fuel prec","precision not increased","comparison returns")
m(A,"Elt.lt","  if (← x.eq y) then .ok false","  if (← x.eq y) then .ok true","equal elements compare less","irreflexive")
m(A,"Elt.lt","    .ok (self.lt other)) (fun","    .ok (self.le other)) (fun","le instead of lt","order of elements")
m(A,"Elt.ltQ","if x.eqQ q then .ok false\n","if x.eqQ q then .ok true\n","equal compare less","order of elements")
m(A,"Elt.ltZ","if x.eqZ n then .ok false\n","if x.eqZ n then .ok true\n","equal compare less","order of elements")
m(A,"Elt.gtOf","  if (← eq) then .ok false","  if (← eq) then .ok true","equal compare greater","order of elements")
m(A,"Elt.gtOf","    .ok !r","    .ok r","not negated","order of elements")
m(A,"Elt.roundLoop","if round lower = round upper then","if round lower ≤ round upper then","condition dropped","floor")
m(A,"Elt.floor","roundLoop Arf.floor","roundLoop Arf.ceil","ceil","floor")
m(A,"Elt.ceil","roundLoop Arf.ceil","roundLoop Arf.floor","floor","ceil")
m(A,"Elt.exactLoop","else if b * (f : R) ≠ a then none\n        ","","check dropped","floordiv")
m(A,"Elt.exactLoop","if floor.isSome && floor ≠ some f then none\n        else if","if","check dropped","floordiv")
m(A,"Elt.exactLoop","else if b ≠ 0 then none\n    else exactLoop","else exactLoop","zero dividend coefficient ignored","floordiv")
m(A,"Elt.floordivSame","if !x.toBool then .ok 0\n  else match","if !x.toBool then .ok 1\n  else match","wrong quotient","floordiv")
m(A,"Elt.floordivLoop","if Arf.floor lower = Arf.floor upper then","if Arf.floor lower + 1 = Arf.floor upper then","wrong condition","floordiv")
m(A,"Elt.floordivLoop","F.div prec dividend div","F.div prec div dividend","arguments swapped","floordiv")
m(A,"Elt.floordiv","let rhs' ← rhs.promote parent","let rhs' ← x.promote parent","argument mixed up","floordiv")
m(A,"Elt.doubleLoop","if Double.ofArf lower = Double.ofArf upper then","if lower ≤ upper then","condition dropped","double of elements")
m(A,"Elt.toDouble","(Arf.round .near 53 q)","(Arf.round .near 52 q)","one bit too few","double of rational elements")
json.dump(M,open("numeric.json","w"),ensure_ascii=False,indent=0)
print(len(M))
