import json
M=[]
def m(f,d,o,n,e,c): M.append({"file":"Model/"+f+".lean","def":d,"old":o,"new":n,"edit":e,"claim":c})
A="Heap"
m(A,"State.create","next := s.next + 1","next := s.next","counter not incremented","identities are unique (C38)")
m(A,"State.create","cache := (k, s.count) :: s.cache }","cache := s.cache }","new object not entered into the factory","real numbers are unique (C38)")
m(A,"State.create","roots := s.count :: s.roots","roots := s.roots","no strong reference handed out","results are alive (C38)")
m(A,"State.get","isKey e.1 && (s.live e.2).isSome","isKey e.1","expired entries are returned","results are alive (C38)")
m(A,"State.get","roots := e.2 :: s.roots","roots := s.roots","weak pointer returned on a hit","results are held (C38)")
m(A,"State.random","| .random t => t = seed","| .random t => t = seed || t = 0","seed 0 matches everything","seeds determine random numbers (C42)")
m(A,"State.rational","| .rational r => r = q","| .rational r => r.num = q.num","denominator ignored in the key","rationals are unique and keep their value (C38)")
m(A,"State.constrained","i = initial && f = e &&","i = initial &&","exponent dropped from the key","constrained numbers keep their value (C38)")
m(A,"State.constrained","s.addrOf n = s.addrOf inner","n ≥ 0","inner dropped from the key","different seeds give different numbers (C42)")
m(A,"State.randomIn","(Arf.ofMantissaExponent m e) e inner","(Arf.ofMantissaExponent m 0) e inner","initial digits without their exponent","random in an interval has the right digits (C42)")
m(A,"State.merge","(i, a + b) :: merge s lhs rhs","(i, a) :: merge s lhs rhs","exponents not added","result of * (C38)")
m(A,"State.persist","(x.1, x.2 * 2), h * h)","(x.1, x.2 + 1), h * h)","square adds one","result of * (C38)")
m(A,"State.persist","(x.1, x.2 * 2), h * h)","(x.1, x.2 * 2), h)","hash of square not updated","lookup finds squares (C38)")
m(A,"State.persist","UInt64.ofNat (s.idOf p) * UInt64.ofNat (s.idOf p))","UInt64.ofNat (s.idOf p))","hash of square of an atom wrong","lookup finds squares (C38)")
m(A,"State.mulFactory","Mono.keyEq (s.toMono (s.factorsOf p)) (s.toMono (s.factorsOf q)) m","true","only hashes compared","different products are different objects (C38)")
m(A,"State.ratMul","value * r); (s, .ok p)","value + r); (s, .ok p)","sum instead of product","result of * (C38)")
m(A,"State.mul","s.ratMul alloc y p","s.ratMul alloc y q","swapped argument","result of * (C38)")
m(A,"State.divLoop","else if b > a then none","else if b ≥ a then none","wrong boundary","result of / (C38)")
m(A,"State.divAtom","some ((i, a - 1) :: lhs)","some ((i, a) :: lhs)","exponent not decreased","result of / (C38)")
m(A,"State.productFactory","h = m.hash && n = m","h = m.hash","only hashes compared","different products are different objects (C38)")
m(A,"State.rebuild","match quotient.filter fun x => x.2 ≠ 0 with","match quotient with","zero exponents kept","products are canonical (C38)")
m(A,"State.rebuild","  | [(i, 1)] => ({ s with roots := i :: s.roots }, i)\n","","product with a single factor","real numbers are unique (C38)")
m(A,"State.div","if s.addrOf p = s.addrOf q then let (s, r) := s.rational alloc 1","if s.addrOf p = s.addrOf q then let (s, r) := s.rational alloc 0","x / x = 0","result of / (C38)")
m(A,"State.referenced"," || s.heap.any (fun x => x.2.data.refs.contains p)","","objects do not keep their factors alive","held numbers stay alive (C38)")
m(A,"Data.refs","| product f _ => f.map Prod.fst","| product f _ => []","products hold weak references","held numbers stay alive (C38)")
m(A,"Key.refs","| constrained _ _ inner => [inner]\n  | _ => []","| _ => []","keys hold weak references","constrained numbers are unique (C38): address of inner reused")
m(A,"step","if (s.live p).isNone then some ({ s with cache","if true then some ({ s with cache","factory forgets live objects","real numbers are unique (C38)")
A="Serialize"
m(A,"State.save","tab.idxOf o.addr + 1","tab.idxOf o.addr","numbers of shared objects off by one","serialization round-trips (C43)")
m(A,"State.save","let tab' := tab ++ [o.addr]","let tab' := o.addr :: tab","numbers change while writing","serialization round-trips (C43)")
m(A,"State.load","(s.byId f)","f","factors not sorted by id on load","serialization round-trips (C43)")
m(A,"State.load","let (s, p) := s.random alloc seed; (s, (id, p) :: tab, some p)","let (s, p) := s.random alloc seed; (s, tab, some p)","shared pointers not registered","serialization round-trips (C43)")
m(A,"State.saveAll","some (tab, .cons t e ts)","some (tab, .cons t 1 ts)","exponents not written","serialization round-trips (C43)")
m(A,"State.insertKey","then f else f ++ [(p, e)]","then f else f ++ [(p, e + 1)]","exponent changed on load","serialization round-trips (C43)")
m(A,"State.load","s.constrained alloc i e inner","s.constrained alloc i 0 inner","exponent dropped on load","serialization round-trips (C43)")
A="ModuleHeap"
m(A,"MState.make","let sorted := sort st.base basis","let sorted := basis","not sorted","Module::make ignores the order (C55)")
m(A,"MState.make","sorted.map st.base.idOf, ring)","sorted.map st.base.idOf, st.mcache.headD ((([], ring)), 0) |>.1.2)","ring of another module in the key","modules are unique (C55)")
m(A,"MState.make","mcache := (key, st.mcount) :: st.mcache","mcache := st.mcache","not entered in the factory","modules are unique (C55)")
m(A,"MState.make","if check st.base sorted then","if true then","constructor check dropped","make throws for invalid generators (C55)")
m(A,"MState.make","base := { st.base with roots := sorted ++ st.base.roots }","base := st.base","module does not hold its generators","modules stay valid (C55)")
m(A,"MState.make","e.1 = key && (st.live e.2).isSome","e.1.1 = key.1 && (st.live e.2).isSome","ring not compared","modules are unique (C55)")
m(A,"loadElement","some (.ok (m, a.coefficients))","some (.ok (m, a.coefficients.reverse))","coefficients reversed","round trip of elements (C44)")
m(A,"saveElement","some ⟨ts, o.ring, coefficients⟩","some ⟨ts.reverse, o.ring, coefficients⟩","generators reversed","round trip of elements (C44)")
m(A,"loadElement","with base := s } : MState P).make malloc a.ring basis","with base := s } : MState P).make malloc a.ring basis.tail","first generator lost","round trip of elements (C44)")
A="ArfCache"
m(A,"arfCached","(σ.set x { σ x with arf54 := some v }, v)","(σ.set x { σ x with arf64 := some v }, v)","54 bit result stored as 64 bit","cache is transparent (C39)")
m(A,"arfCached","(σ x).large.length ≥ 128","(σ x).large.length > 128","129 entries","cache bounded (C39)")
m(A,"arfCached","(prec, v) :: (σ x).large","(prec + 1, v) :: (σ x).large","wrong key","cache is transparent (C39)")
m(A,"arfCached","if (σ x).large.length ≥ 128 then σ.set x { σ x with large := [] } else σ","σ","never cleared","cache bounded (C39)")
m(A,"atomArf","arfCached (.atom (I.inner i)) (missing - 1).toNat","arfCached (.atom i) (missing - 1).toNat","inner digits cached in the outer number","cache is transparent (C39)")
m(A,"Inner.arf","arfCached (.prod m) prec.toNat","arfCached (.prod m) (prec.toNat / 2)","wrong precision as key","cache is transparent (C39)")
A="Counter"
m(A,"Ids.create","⟨s.next + 1, (thread, s.next) :: s.given⟩","⟨s.next + 1, (thread, s.next / 2) :: s.given⟩","identity halved","identities are distinct (C51)")
m(A,"Ids.create","⟨s.next + 1,","⟨s.next * 3,","multiplicative counter","identities are distinct (C51)")
m(A,"Seeds.step","some ⟨v + 1, fun","some ⟨v + 2, fun","seeds skip","distinct up to 2^32 calls (C37)")
m(A,"Seeds.step","| .explicit _ => some s","| .explicit x => some { s with nextSeed := x }","explicit seeds reset the counter","default seeds are distinct (C37)")
A="Yap"
m(A,"assign","assign true b m.free r { m with free := m.free + 1 }","assign true b value r { m with free := m.free + 1 }","right operand evaluated in place","aliasing (C47)")
m(A,"assign","let rhs := m'.val m.free","let rhs := m'.val value","wrong temporary","value of expressions (C47)")
m(A,"binary","k.bin op (m.val value) rhs p b.round","k.bin op rhs (m.val value) p b.round","swapped operands","value of a - b, a / b (C47)")
m(A,"assign","| true, b, value, .call e p, m => assign true (b.bind p) value e m","| true, b, value, .call e p, m => assign true b value e m","inner parameters ignored","innermost call wins (C47)")
m(A,"Bound.bind","| .round r => { b with round := some r }","| .round r => { prec := none, round := some r }","round drops the precision","parameters (C47)")
m(A,"inplaceBinop","(.call (.bin op (.var x) e) (.prec p)) m","(.call (.bin op e (.var x)) (.prec p)) m","swapped operands","x -= e (C47)")
m(A,"precOf","| .call e (.round _) => precOf e","| .call _ (.round _) => none","precision below a rounding mode not found","x *= y(prec, round) compiles (C47)")
m(A,"assign","some m => some (m.set value (k.neg (m.val value)))","some m => some m","negation dropped","value of -x (C47)")
A="RationalCoefficients"
m(A,"rationalEntries"," ++ List.replicate (nv.degree - (nv.numVector c).length) 0","","not padded","length is rank times degree (C49)")
m(A,"rationalEntries","List.replicate (nv.degree - (nv.numVector c).length) 0","List.replicate (nv.degree - (nv.numVector c).length) 1","padded with ones","coordinates (C49)")
m(A,"rationalEntries","(num : ℚ) / (nv.den c : ℚ)","(num : ℚ)","denominator dropped","coordinates (C49)")
m(A,"rationalCoefficientsNF","x.coeffs.flatMap (rationalEntries nv)","x.coeffs.reverse.flatMap (rationalEntries nv)","order reversed","coordinates (C49)")
A="Overflow"
m(A,"int32","z < 2 ^ 31 then","z < 2 ^ 30 then","31 bit integers","no overflow below 2^31 (C54)")
m(A,"int32","then .ok z else .ub","then .ok z else .ok (z - 2 ^ 32)","wrapping arithmetic","overflow is undefined (C54)")
m(A,"Mono32.degreeLoop","let d' ← int32 (d + a)","let d' ← int32 (d + a + 1)","off by one","total degree (C54)")
m(A,"Mono32.hash","(UInt64.ofInt p.2)","(UInt64.ofInt (p.2 % 256))","exponent truncated to 8 bits","hash (C54)")
m(A,"Mono32.divLoop","else if b > a then .ok none\n    else do","else do","check dropped","division (C54)")
m(A,"Mono32.powLoop","exponent >>> 1","exponent >>> 2","wrong shift","hash (C54)")
m(A,"Mono32.deglex","if l ≠ r then .ok (l < r)","if l ≠ r then .ok (l - r < 0 ∧ l - r > -5)","degree difference truncated","deglex (C54)")
json.dump(M,open("state.json","w"),indent=1,ensure_ascii=False)
print(len(M))
