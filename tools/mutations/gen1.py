import json
M=[]
def m(file,d,old,new,edit,claim): M.append(dict(file=file,**{"def":d},old=old,new=new,edit=edit,claim=claim))
A="Model/Monomial.lean"
m(A,"Mono.merge","else if i = j then (i, a + b) :: merge lhs rhs","else if i = j then (i, a) :: merge lhs rhs","colliding atoms keep the left exponent only","C01: value of product")
m(A,"Mono.merge","    else (j, b) :: merge ((i, a) :: lhs) rhs","    else (j, b) :: merge lhs rhs","drops an atom of the left factor when the right one comes first","C01")
m(A,"Mono.square","(p.1, p.2 * 2)","(p.1, p.2 + 1)","square adds one instead of doubling","C01")
m(A,"Mono.keyEq","if a + b ≠ c then false else keyEq l r s","if a ≠ c then false else keyEq l r s","cache comparison ignores right exponent","C03")
m(A,"Mono.keyEq","  | l, r, [] => l.isEmpty && r.isEmpty","  | l, _, [] => l.isEmpty","cache comparison ignores remaining right atoms","C03")
m(A,"Mono.keyEq","    if i < k then false\n    else if i ≠ k ∨ a ≠ c then false","    if i < k then false\n    else if a ≠ c then false","cache comparison ignores id in the tail","C03")
m(A,"Mono.powLoop","(base * base) (exponent / 2)","base (exponent / 2)","fast exponentiation does not square the base","C04")
m(A,"Mono.divLoop","else if b > a then none","else if b ≥ a then none","division boundary: equal exponents not divisible","C05 completeness")
m(A,"Mono.divLoop","  | [], _ :: _ => none","  | [], _ :: _ => some []","missed case: divisor atoms beyond the end ignored","C05 soundness")
m(A,"Mono.divAtom","some ((i, a - 1) :: lhs)","some ((i, a) :: lhs)","dropped decrement","C05")
m(A,"Mono.dropZeros","p.2 ≠ 0","p.2 ≠ 1","drops exponents one instead of zero","C05")
m(A,"Mono.deglexLoop","else if a < b then .ok false\n    else if a > b then .ok true","else if a < b then .ok true\n    else if a > b then .ok false","swapped exponent comparison","C06/C07")
m(A,"Mono.deglex",".ok (lhs.totalDegree < rhs.totalDegree)",".ok (rhs.totalDegree < lhs.totalDegree)","swapped degree comparison","C07")
B="Model/RealNumber.lean"
m(B,"RN.ratMul","| _ => .throws .logicError\n\n/-- `RealNumber::operator*`","| _ => .ok rhs\n\n/-- `RealNumber::operator*`","rational times non-rational silently drops the rational","C01")
m(B,"RN.rebuild","  | [] => rat 1","  | [] => rat 0","empty quotient is 0","C05")
m(B,"RN.rebuild","  | [(i, 1)] => atom i","  | [(i, _)] => atom i","single factor ignores its exponent","C05")
m(B,"RN.deglex","    | prod _, _ => .ok false\n    | _, prod _ => .ok true","    | prod _, _ => .ok true\n    | _, prod _ => .ok false","products before atoms","C06")
m(B,"RN.persistHash","    | prod m => m.hash * m.hash\n    | atom i => UInt64.ofNat i * UInt64.ofNat i","    | prod m => m.hash\n    | atom i => UInt64.ofNat i * UInt64.ofNat i","hash of a square not squared","C04")
C="Model/Module.lean"
m(C,"Mod.extend","then basis else basis ++ [ngen]","then basis else basis","span forgets the new generators","C09")
m(C,"Mod.spanSame","if n.submodule m then .ok m","if n.submodule m then .ok n","span returns the smaller module","C09")
m(C,"Mod.submodule","self.basis.all fun gen => supermodule.basis.any","supermodule.basis.all fun gen => self.basis.any","swapped arguments","C10")
m(C,"Mod.compatible","!(x.isRat && y.isRat) && !(x = y)","!(x = y)","missing check for two rationals","C08")
D="Model/Element.lean"
m(D,"Elt.promoteLoop","    else if g.lt t then promoteLoop ring src ours (t :: theirs)","    else if t.lt g then promoteLoop ring src ours (t :: theirs)","promotion walks in the wrong direction","C11")
m(D,"Elt.promote","else if !x.toBool then .ok parent.zero","else if x.toBool then .ok parent.zero","inverted zero shortcut","C11")
m(D,"Elt.addAssign","| .ok x' => .done (addSame x' y')","| .ok x' => .done (addSame x' x')","adds the left operand twice","C12")
m(D,"Elt.neg","⟨x.mod, x.coeffs.map fun c => -c⟩","⟨x.mod, x.coeffs⟩","negation does nothing","C13")
m(D,"Elt.accumulate","(g, c + value) :: rest","(g, value) :: rest","colliding products overwrite instead of accumulate","C14")
m(D,"Elt.mulSame","let sorted := products.insertionSort fun a b => (RN.lt b.1 a.1) = false","let sorted := products","products not sorted","C14 / assertion")
m(D,"Elt.mulAssign","  else if !y.toBool then .done y","  else if !y.toBool then .done x","x * 0 = x","C14")
m(D,"Elt.eqRNLoop","    if c = 0 then (if g = at_ then false else eqRNLoop at_ rest)","    if c = 0 then eqRNLoop at_ rest","x == r does not look for coefficient 1","C53")
m(D,"Elt.simplify","let gens := (x.terms.filter fun t => t.2 ≠ 0).map Prod.fst","let gens := (x.terms.filter fun t => t.2 = 0).map Prod.fst","keeps the unused generators","C17")
m(D,"Elt.unit","x.toBool && x.terms.all","x.terms.all","zero is a unit","C32")
m(D,"Elt.truedivLoop","let remainder ← remainder.sub product","let remainder ← remainder.add product","remainder grows","C18/C19")
m(D,"Elt.truedivLoop","        if coefficientQuotient * b ≠ a then do","        if False then do","inexact coefficient quotient accepted","C19 (termination over ZZ)")
m(D,"Elt.leading","x.terms.reverse.find?","x.terms.find?","smallest instead of leading term","C19")
m(D,"Elt.truedivSame","if rhs.eqZ 1 then .ok (some x)","if rhs.eqZ 1 then .ok (some rhs)","x / 1 = 1","C18")
m(D,"Elt.scaleLoop","    | ⟨e, c'⟩ => ⟨e, c' :: cs⟩","    | ⟨e, _⟩ => ⟨e, c :: cs⟩","failing step leaves the coefficient alone (fixes part of F7)","C45 counterexamples")
m(D,"Elt.eq","    .ok (x'.coeffs = y'.coeffs)\n","    .ok (x.coeffs = y.coeffs)\n","compares unpromoted coefficients","C16")
m(D,"Mod.one","(Elt.imulZ x rational.den).result","(Elt.imulZ x rational.num).result","one multiplies by the numerator","C33")
m(D,"Mod.one","(Elt.imulQ x (rational.den / rational.num)).result","(Elt.imulQ x (rational.num / rational.den)).result","one multiplies by the generator instead of its inverse","C33")
E="Model/Ring.lean"
m(E,"IntegerRing.idivZ","else if Int.tmod lhs rhs ≠ 0 then .fail .invalidArgument lhs\n","","integer division silently truncates","C15")
m(E,"IntegerRing.imulQ","fun s => idivZ s rhs.den","fun s => .done s","multiplication by a rational ignores the denominator","C15")
m(E,"RationalField.floor","Int.tdiv x.num x.den","Int.fdiv x.num x.den","floor fixed (counterexample must fail)","C46 (negation theorem)")
m(E,"NumberField.compositum","  else if lhs.subfield = ⊥ then .ok rhs","  else if lhs.subfield = ⊥ then .ok lhs","compositum returns ℚ instead of the larger field","C50")
m(E,"NumberField.coerce","  else if (rational x).isSome then .ok x\n  else .throws .logicError","  else .ok x","coerce accepts foreign elements","C50/C11")
json.dump(M,open("exact.json","w"),indent=1,ensure_ascii=False)
