[
{
"file": "Model/Serialize.lean",
"def": "load",
"old": ".shared id => (s, tab, tab.lookup id)",
"new": ".shared id => (s, tab, tab.lookup (id - 1))",
"edit": "reference off by one",
"claim": "C77: shared references denote the number read before"
},
{
"file": "Model/Serialize.lean",
"def": "load",
"old": "| .random id seed => let (s, p) := s.random alloc seed; (s, (id, p) :: tab, some p)",
"new": "| .random id seed => let (s, p) := s.random alloc seed; (s, tab, some p)",
"edit": "random numbers are not registered",
"claim": "C77"
},
{
"file": "Model/Serialize.lean",
"def": "load",
"old": "let (s, p) := s.constrained alloc i e inner; (s, (id, p) :: tab, some p)",
"new": "let (s, p) := s.constrained alloc i e inner; (s, (id, inner) :: tab, some p)",
"edit": "inner number registered under the id of the constrained number",
"claim": "C77"
},
{
"file": "Model/Serialize.lean",
"def": "insertKey",
"old": "then f else f ++ [(p, e)]",
"new": "then f else f ++ [(p, 1)]",
"edit": "exponents dropped when the map is read",
"claim": "C77"
},
{
"file": "Model/Serialize.lean",
"def": "loadAll",
"old": "loadAll alloc s tab (s.insertKey f p e) rest",
"new": "loadAll alloc s tab (s.insertKey [] p e) rest",
"edit": "map cleared before each entry",
"claim": "C77"
},
{
"file": "Model/Serialize.lean",
"def": "load",
"old": "s.productFactory alloc (s.byId f)",
"new": "s.productFactory alloc f",
"edit": "factors not sorted by id after loading",
"claim": "C77: the existing object is found"
},
{
"file": "Model/Serialize.lean",
"def": "load",
"old": "let (s, p) := s.rational alloc q; (s, (id, p) :: tab, some p)",
"new": "let (s, p) := s.create alloc (.rational q) (.rational q); (s, (id, p) :: tab, some p)",
"edit": "new object instead of the factory",
"claim": "C77: unique objects"
},
{
"file": "Model/ModuleHeap.lean",
"def": "loadBasis",
"old": "| (s, tab, some ps) => (s, tab, some (p :: ps))",
"new": "| (s, tab, some ps) => (s, tab, some (if ps.contains p then ps else p :: ps))",
"edit": "duplicate generators dropped when loading",
"claim": "C77: archives with repeated generators are rejected"
},
{
"file": "Model/ModuleHeap.lean",
"def": "loadBasis",
"old": "      match loadBasis alloc s tab ts with",
"new": "      match loadBasis alloc s [] ts with",
"edit": "table of shared numbers cleared between generators",
"claim": "C77"
}
]