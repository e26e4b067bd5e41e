[
 {
  "file": "Model/PythonRing.lean",
  "def": "Py.characteristic",
  "old": "def characteristic : ℕ := 0",
  "new": "def characteristic : ℕ := 2",
  "edit": "characteristic() returns 2",
  "claim": "C94: characteristic"
 },
 {
  "file": "Model/PythonRing.lean",
  "def": "Py.isField",
  "old": "def isField : Bool := false",
  "new": "def isField : Bool := true",
  "edit": "is_field() returns True",
  "claim": "C94: not a field"
 },
 {
  "file": "Model/PythonRing.lean",
  "def": "Py.isIntegralDomain",
  "old": "def isIntegralDomain : Bool := true",
  "new": "def isIntegralDomain : Bool := false",
  "edit": "is_integral_domain() returns False",
  "claim": "C94: domain"
 },
 {
  "file": "Model/PythonRing.lean",
  "def": "Py.someElements",
  "old": "let q ← mul r7 r7",
  "new": "let q ← mul r7 r6",
  "edit": "** 2 multiplies with another element",
  "claim": "C94: some_elements"
 },
 {
  "file": "Model/PythonRing.lean",
  "def": "Py.someElements",
  "old": "let s2 ← add r2 g",
  "new": "let s2 ← add r2 one",
  "edit": "adds one instead of the generator",
  "claim": "C94: some_elements"
 },
 {
  "file": "Model/PythonRing.lean",
  "def": "RExpr.eval",
  "old": "| sub a b => do Py.sub (← eval ring x a) (← eval ring x b)",
  "new": "| sub a b => do Py.sub (← eval ring x b) (← eval ring x a)",
  "edit": "operands of - swapped",
  "claim": "C94: identities"
 },
 {
  "file": "Model/PythonRing.lean",
  "def": "RExpr.eval",
  "old": "| neg a => do Py.neg (← eval ring x a)",
  "new": "| neg a => do eval ring x a",
  "edit": "negation dropped",
  "claim": "C94: identities"
 },
 {
  "file": "Model/PythonRing.lean",
  "def": "RExpr.eval",
  "old": "| int n => coerce ring n",
  "new": "| int n => rational ring n",
  "edit": "integers become generators rational(n) instead of multiples of 1",
  "claim": "C94: expressions never raise"
 },
 {
  "file": "Model/Python.lean",
  "def": "Py.mul",
  "old": "def mul (x y : Elt P R) : Out (Elt P R) := do",
  "new": "def mul (x y : Elt P R) : Out (Elt P R) := do\n  if x.mod = y.mod then return x",
  "edit": "products in one module return a factor",
  "claim": "C94, C70"
 }
]