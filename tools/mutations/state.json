[
 {
  "file": "Model/Heap.lean",
  "def": "State.create",
  "old": "next := s.next + 1",
  "new": "next := s.next",
  "edit": "counter not incremented",
  "claim": "identities are unique (C38)"
 },
 {
  "file": "Model/Heap.lean",
  "def": "State.create",
  "old": "cache := (k, s.count) :: s.cache }",
  "new": "cache := s.cache }",
  "edit": "new object not entered into the factory",
  "claim": "real numbers are unique (C38)"
 },
 {
  "file": "Model/Heap.lean",
  "def": "State.create",
  "old": "roots := s.count :: s.roots",
  "new": "roots := s.roots",
  "edit": "no strong reference handed out",
  "claim": "results are alive (C38)"
 },
 {
  "file": "Model/Heap.lean",
  "def": "State.get",
  "old": "isKey e.1 && (s.live e.2).isSome",
  "new": "isKey e.1",
  "edit": "expired entries are returned",
  "claim": "results are alive (C38)"
 },
 {
  "file": "Model/Heap.lean",
  "def": "State.get",
  "old": "roots := e.2 :: s.roots",
  "new": "roots := s.roots",
  "edit": "weak pointer returned on a hit",
  "claim": "results are held (C38)"
 },
 {
  "file": "Model/Heap.lean",
  "def": "State.random",
  "old": "| .random t => t = seed",
  "new": "| .random t => t = seed || t = 0",
  "edit": "seed 0 matches everything",
  "claim": "seeds determine random numbers (C42)"
 },
 {
  "file": "Model/Heap.lean",
  "def": "State.rational",
  "old": "| .rational r => r = q",
  "new": "| .rational r => r.num = q.num",
  "edit": "denominator ignored in the key",
  "claim": "rationals are unique and keep their value (C38)"
 },
 {
  "file": "Model/Heap.lean",
  "def": "State.constrained",
  "old": "i = initial && f = e &&",
  "new": "i = initial &&",
  "edit": "exponent dropped from the key",
  "claim": "constrained numbers keep their value (C38)"
 },
 {
  "file": "Model/Heap.lean",
  "def": "State.constrained",
  "old": "s.addrOf n = s.addrOf inner",
  "new": "n ≥ 0",
  "edit": "inner dropped from the key",
  "claim": "different seeds give different numbers (C42)"
 },
 {
  "file": "Model/Heap.lean",
  "def": "State.randomIn",
  "old": "(Arf.ofMantissaExponent m e) e inner",
  "new": "(Arf.ofMantissaExponent m 0) e inner",
  "edit": "initial digits without their exponent",
  "claim": "random in an interval has the right digits (C42)"
 },
 {
  "file": "Model/Heap.lean",
  "def": "State.merge",
  "old": "(i, a + b) :: merge s lhs rhs",
  "new": "(i, a) :: merge s lhs rhs",
  "edit": "exponents not added",
  "claim": "result of * (C38)"
 },
 {
  "file": "Model/Heap.lean",
  "def": "State.persist",
  "old": "(x.1, x.2 * 2), h * h)",
  "new": "(x.1, x.2 + 1), h * h)",
  "edit": "square adds one",
  "claim": "result of * (C38)"
 },
 {
  "file": "Model/Heap.lean",
  "def": "State.persist",
  "old": "(x.1, x.2 * 2), h * h)",
  "new": "(x.1, x.2 * 2), h)",
  "edit": "hash of square not updated",
  "claim": "lookup finds squares (C38)"
 },
 {
  "file": "Model/Heap.lean",
  "def": "State.persist",
  "old": "UInt64.ofNat (s.idOf p) * UInt64.ofNat (s.idOf p))",
  "new": "UInt64.ofNat (s.idOf p))",
  "edit": "hash of square of an atom wrong",
  "claim": "lookup finds squares (C38)"
 },
 {
  "file": "Model/Heap.lean",
  "def": "State.mulFactory",
  "old": "Mono.keyEq (s.toMono (s.factorsOf p)) (s.toMono (s.factorsOf q)) m",
  "new": "true",
  "edit": "only hashes compared",
  "claim": "different products are different objects (C38)"
 },
 {
  "file": "Model/Heap.lean",
  "def": "State.ratMul",
  "old": "value * r); (s, .ok p)",
  "new": "value + r); (s, .ok p)",
  "edit": "sum instead of product",
  "claim": "result of * (C38)"
 },
 {
  "file": "Model/Heap.lean",
  "def": "State.mul",
  "old": "s.ratMul alloc y p",
  "new": "s.ratMul alloc y q",
  "edit": "swapped argument",
  "claim": "result of * (C38)"
 },
 {
  "file": "Model/Heap.lean",
  "def": "State.divLoop",
  "old": "else if b > a then none",
  "new": "else if b ≥ a then none",
  "edit": "wrong boundary",
  "claim": "result of / (C38)"
 },
 {
  "file": "Model/Heap.lean",
  "def": "State.divAtom",
  "old": "some ((i, a - 1) :: lhs)",
  "new": "some ((i, a) :: lhs)",
  "edit": "exponent not decreased",
  "claim": "result of / (C38)"
 },
 {
  "file": "Model/Heap.lean",
  "def": "State.productFactory",
  "old": "h = m.hash && n = m",
  "new": "h = m.hash",
  "edit": "only hashes compared",
  "claim": "different products are different objects (C38)"
 },
 {
  "file": "Model/Heap.lean",
  "def": "State.rebuild",
  "old": "match quotient.filter fun x => x.2 ≠ 0 with",
  "new": "match quotient with",
  "edit": "zero exponents kept",
  "claim": "products are canonical (C38)"
 },
 {
  "file": "Model/Heap.lean",
  "def": "State.rebuild",
  "old": "  | [(i, 1)] => ({ s with roots := i :: s.roots }, i)\n",
  "new": "",
  "edit": "product with a single factor",
  "claim": "real numbers are unique (C38)"
 },
 {
  "file": "Model/Heap.lean",
  "def": "State.div",
  "old": "if s.addrOf p = s.addrOf q then let (s, r) := s.rational alloc 1",
  "new": "if s.addrOf p = s.addrOf q then let (s, r) := s.rational alloc 0",
  "edit": "x / x = 0",
  "claim": "result of / (C38)"
 },
 {
  "file": "Model/Heap.lean",
  "def": "State.referenced",
  "old": " || s.heap.any (fun x => x.2.data.refs.contains p)",
  "new": "",
  "edit": "objects do not keep their factors alive",
  "claim": "held numbers stay alive (C38)"
 },
 {
  "file": "Model/Heap.lean",
  "def": "Data.refs",
  "old": "| product f _ => f.map Prod.fst",
  "new": "| product f _ => []",
  "edit": "products hold weak references",
  "claim": "held numbers stay alive (C38)"
 },
 {
  "file": "Model/Heap.lean",
  "def": "Key.refs",
  "old": "| constrained _ _ inner => [inner]\n  | _ => []",
  "new": "| _ => []",
  "edit": "keys hold weak references",
  "claim": "constrained numbers are unique (C38): address of inner reused"
 },
 {
  "file": "Model/Heap.lean",
  "def": "step",
  "old": "if (s.live p).isNone then some ({ s with cache",
  "new": "if true then some ({ s with cache",
  "edit": "factory forgets live objects",
  "claim": "real numbers are unique (C38)"
 },
 {
  "file": "Model/Serialize.lean",
  "def": "State.save",
  "old": "tab.idxOf o.addr + 1",
  "new": "tab.idxOf o.addr",
  "edit": "numbers of shared objects off by one",
  "claim": "serialization round-trips (C43)"
 },
 {
  "file": "Model/Serialize.lean",
  "def": "State.save",
  "old": "let tab' := tab ++ [o.addr]",
  "new": "let tab' := o.addr :: tab",
  "edit": "numbers change while writing",
  "claim": "serialization round-trips (C43)"
 },
 {
  "file": "Model/Serialize.lean",
  "def": "State.load",
  "old": "(s.byId f)",
  "new": "f",
  "edit": "factors not sorted by id on load",
  "claim": "serialization round-trips (C43)"
 },
 {
  "file": "Model/Serialize.lean",
  "def": "State.load",
  "old": "let (s, p) := s.random alloc seed; (s, (id, p) :: tab, some p)",
  "new": "let (s, p) := s.random alloc seed; (s, tab, some p)",
  "edit": "shared pointers not registered",
  "claim": "serialization round-trips (C43)"
 },
 {
  "file": "Model/Serialize.lean",
  "def": "State.saveAll",
  "old": "some (tab, .cons t e ts)",
  "new": "some (tab, .cons t 1 ts)",
  "edit": "exponents not written",
  "claim": "serialization round-trips (C43)"
 },
 {
  "file": "Model/Serialize.lean",
  "def": "State.insertKey",
  "old": "then f else f ++ [(p, e)]",
  "new": "then f else f ++ [(p, e + 1)]",
  "edit": "exponent changed on load",
  "claim": "serialization round-trips (C43)"
 },
 {
  "file": "Model/Serialize.lean",
  "def": "State.load",
  "old": "s.constrained alloc i e inner",
  "new": "s.constrained alloc i 0 inner",
  "edit": "exponent dropped on load",
  "claim": "serialization round-trips (C43)"
 },
 {
  "file": "Model/ModuleHeap.lean",
  "def": "MState.make",
  "old": "let sorted := sort st.base basis",
  "new": "let sorted := basis",
  "edit": "not sorted",
  "claim": "Module::make ignores the order (C55)"
 },
 {
  "file": "Model/ModuleHeap.lean",
  "def": "MState.make",
  "old": "sorted.map st.base.idOf, ring)",
  "new": "sorted.map st.base.idOf, st.mcache.headD ((([], ring)), 0) |>.1.2)",
  "edit": "ring of another module in the key",
  "claim": "modules are unique (C55)"
 },
 {
  "file": "Model/ModuleHeap.lean",
  "def": "MState.make",
  "old": "mcache := (key, st.mcount) :: st.mcache",
  "new": "mcache := st.mcache",
  "edit": "not entered in the factory",
  "claim": "modules are unique (C55)"
 },
 {
  "file": "Model/ModuleHeap.lean",
  "def": "MState.make",
  "old": "if check st.base sorted then",
  "new": "if true then",
  "edit": "constructor check dropped",
  "claim": "make throws for invalid generators (C55)"
 },
 {
  "file": "Model/ModuleHeap.lean",
  "def": "MState.make",
  "old": "base := { st.base with roots := sorted ++ st.base.roots }",
  "new": "base := st.base",
  "edit": "module does not hold its generators",
  "claim": "modules stay valid (C55)"
 },
 {
  "file": "Model/ModuleHeap.lean",
  "def": "MState.make",
  "old": "e.1 = key && (st.live e.2).isSome",
  "new": "e.1.1 = key.1 && (st.live e.2).isSome",
  "edit": "ring not compared",
  "claim": "modules are unique (C55)"
 },
 {
  "file": "Model/ModuleHeap.lean",
  "def": "loadElement",
  "old": "some (.ok (m, a.coefficients))",
  "new": "some (.ok (m, a.coefficients.reverse))",
  "edit": "coefficients reversed",
  "claim": "round trip of elements (C44)"
 },
 {
  "file": "Model/ModuleHeap.lean",
  "def": "saveElement",
  "old": "some ⟨ts, o.ring, coefficients⟩",
  "new": "some ⟨ts.reverse, o.ring, coefficients⟩",
  "edit": "generators reversed",
  "claim": "round trip of elements (C44)"
 },
 {
  "file": "Model/ModuleHeap.lean",
  "def": "loadElement",
  "old": "with base := s } : MState P).make malloc a.ring basis",
  "new": "with base := s } : MState P).make malloc a.ring basis.tail",
  "edit": "first generator lost",
  "claim": "round trip of elements (C44)"
 },
 {
  "file": "Model/ArfCache.lean",
  "def": "arfCached",
  "old": "(σ.set x { σ x with arf54 := some v }, v)",
  "new": "(σ.set x { σ x with arf64 := some v }, v)",
  "edit": "54 bit result stored as 64 bit",
  "claim": "cache is transparent (C39)"
 },
 {
  "file": "Model/ArfCache.lean",
  "def": "arfCached",
  "old": "(σ x).large.length ≥ 128",
  "new": "(σ x).large.length > 128",
  "edit": "129 entries",
  "claim": "cache bounded (C39)"
 },
 {
  "file": "Model/ArfCache.lean",
  "def": "arfCached",
  "old": "(prec, v) :: (σ x).large",
  "new": "(prec + 1, v) :: (σ x).large",
  "edit": "wrong key",
  "claim": "cache is transparent (C39)"
 },
 {
  "file": "Model/ArfCache.lean",
  "def": "arfCached",
  "old": "if (σ x).large.length ≥ 128 then σ.set x { σ x with large := [] } else σ",
  "new": "σ",
  "edit": "never cleared",
  "claim": "cache bounded (C39)"
 },
 {
  "file": "Model/ArfCache.lean",
  "def": "atomArf",
  "old": "arfCached (.atom (I.inner i)) (missing - 1).toNat",
  "new": "arfCached (.atom i) (missing - 1).toNat",
  "edit": "inner digits cached in the outer number",
  "claim": "cache is transparent (C39)"
 },
 {
  "file": "Model/ArfCache.lean",
  "def": "Inner.arf",
  "old": "arfCached (.prod m) prec.toNat",
  "new": "arfCached (.prod m) (prec.toNat / 2)",
  "edit": "wrong precision as key",
  "claim": "cache is transparent (C39)"
 },
 {
  "file": "Model/Counter.lean",
  "def": "Ids.create",
  "old": "⟨s.next + 1, (thread, s.next) :: s.given⟩",
  "new": "⟨s.next + 1, (thread, s.next / 2) :: s.given⟩",
  "edit": "identity halved",
  "claim": "identities are distinct (C51)"
 },
 {
  "file": "Model/Counter.lean",
  "def": "Ids.create",
  "old": "⟨s.next + 1,",
  "new": "⟨s.next * 3,",
  "edit": "multiplicative counter",
  "claim": "identities are distinct (C51)"
 },
 {
  "file": "Model/Counter.lean",
  "def": "Seeds.step",
  "old": "some ⟨v + 1, fun",
  "new": "some ⟨v + 2, fun",
  "edit": "seeds skip",
  "claim": "distinct up to 2^32 calls (C37)"
 },
 {
  "file": "Model/Counter.lean",
  "def": "Seeds.step",
  "old": "| .explicit _ => some s",
  "new": "| .explicit x => some { s with nextSeed := x }",
  "edit": "explicit seeds reset the counter",
  "claim": "default seeds are distinct (C37)"
 },
 {
  "file": "Model/Yap.lean",
  "def": "assign",
  "old": "assign true b m.free r { m with free := m.free + 1 }",
  "new": "assign true b value r { m with free := m.free + 1 }",
  "edit": "right operand evaluated in place",
  "claim": "aliasing (C47)"
 },
 {
  "file": "Model/Yap.lean",
  "def": "assign",
  "old": "let rhs := m'.val m.free",
  "new": "let rhs := m'.val value",
  "edit": "wrong temporary",
  "claim": "value of expressions (C47)"
 },
 {
  "file": "Model/Yap.lean",
  "def": "binary",
  "old": "k.bin op (m.val value) rhs p b.round",
  "new": "k.bin op rhs (m.val value) p b.round",
  "edit": "swapped operands",
  "claim": "value of a - b, a / b (C47)"
 },
 {
  "file": "Model/Yap.lean",
  "def": "assign",
  "old": "| true, b, value, .call e p, m => assign true (b.bind p) value e m",
  "new": "| true, b, value, .call e p, m => assign true b value e m",
  "edit": "inner parameters ignored",
  "claim": "innermost call wins (C47)"
 },
 {
  "file": "Model/Yap.lean",
  "def": "Bound.bind",
  "old": "| .round r => { b with round := some r }",
  "new": "| .round r => { prec := none, round := some r }",
  "edit": "round drops the precision",
  "claim": "parameters (C47)"
 },
 {
  "file": "Model/Yap.lean",
  "def": "inplaceBinop",
  "old": "(.call (.bin op (.var x) e) (.prec p)) m",
  "new": "(.call (.bin op e (.var x)) (.prec p)) m",
  "edit": "swapped operands",
  "claim": "x -= e (C47)"
 },
 {
  "file": "Model/Yap.lean",
  "def": "precOf",
  "old": "| .call e (.round _) => precOf e",
  "new": "| .call _ (.round _) => none",
  "edit": "precision below a rounding mode not found",
  "claim": "x *= y(prec, round) compiles (C47)"
 },
 {
  "file": "Model/Yap.lean",
  "def": "assign",
  "old": "some m => some (m.set value (k.neg (m.val value)))",
  "new": "some m => some m",
  "edit": "negation dropped",
  "claim": "value of -x (C47)"
 },
 {
  "file": "Model/RationalCoefficients.lean",
  "def": "rationalEntries",
  "old": " ++ List.replicate (nv.degree - (nv.numVector c).length) 0",
  "new": "",
  "edit": "not padded",
  "claim": "length is rank times degree (C49)"
 },
 {
  "file": "Model/RationalCoefficients.lean",
  "def": "rationalEntries",
  "old": "List.replicate (nv.degree - (nv.numVector c).length) 0",
  "new": "List.replicate (nv.degree - (nv.numVector c).length) 1",
  "edit": "padded with ones",
  "claim": "coordinates (C49)"
 },
 {
  "file": "Model/RationalCoefficients.lean",
  "def": "rationalEntries",
  "old": "(num : ℚ) / (nv.den c : ℚ)",
  "new": "(num : ℚ)",
  "edit": "denominator dropped",
  "claim": "coordinates (C49)"
 },
 {
  "file": "Model/RationalCoefficients.lean",
  "def": "rationalCoefficientsNF",
  "old": "x.coeffs.flatMap (rationalEntries nv)",
  "new": "x.coeffs.reverse.flatMap (rationalEntries nv)",
  "edit": "order reversed",
  "claim": "coordinates (C49)"
 },
 {
  "file": "Model/Overflow.lean",
  "def": "int32",
  "old": "z < 2 ^ 31 then",
  "new": "z < 2 ^ 30 then",
  "edit": "31 bit integers",
  "claim": "no overflow below 2^31 (C54)"
 },
 {
  "file": "Model/Overflow.lean",
  "def": "int32",
  "old": "then .ok z else .ub",
  "new": "then .ok z else .ok (z - 2 ^ 32)",
  "edit": "wrapping arithmetic",
  "claim": "overflow is undefined (C54)"
 },
 {
  "file": "Model/Overflow.lean",
  "def": "Mono32.degreeLoop",
  "old": "let d' ← int32 (d + a)",
  "new": "let d' ← int32 (d + a + 1)",
  "edit": "off by one",
  "claim": "total degree (C54)"
 },
 {
  "file": "Model/Overflow.lean",
  "def": "Mono32.hash",
  "old": "(UInt64.ofInt p.2)",
  "new": "(UInt64.ofInt (p.2 % 256))",
  "edit": "exponent truncated to 8 bits",
  "claim": "hash (C54)"
 },
 {
  "file": "Model/Overflow.lean",
  "def": "Mono32.divLoop",
  "old": "else if b > a then .ok none\n    else do",
  "new": "else do",
  "edit": "check dropped",
  "claim": "division (C54)"
 },
 {
  "file": "Model/Overflow.lean",
  "def": "Mono32.powLoop",
  "old": "exponent >>> 1",
  "new": "exponent >>> 2",
  "edit": "wrong shift",
  "claim": "hash (C54)"
 },
 {
  "file": "Model/Overflow.lean",
  "def": "Mono32.deglex",
  "old": "if l ≠ r then .ok (l < r)",
  "new": "if l ≠ r then .ok (l - r < 0 ∧ l - r > -5)",
  "edit": "degree difference truncated",
  "claim": "deglex (C54)"
 }
]