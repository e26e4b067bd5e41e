[
 {
  "file": "Model/PyBall.lean",
  "def": "PyAnswer.unwrap",
  "old": "| none => precisionError",
  "new": "| none => returns false",
  "edit": "undecided comparisons return False",
  "claim": "C91: PrecisionError"
 },
 {
  "file": "Model/PyBall.lean",
  "def": "PyRel.reflected",
  "old": "| lt => gt | le => ge",
  "new": "| lt => ge | le => gt",
  "edit": "wrong reflected operator",
  "claim": "C91: integers on the left"
 },
 {
  "file": "Model/PyBall.lean",
  "def": "PyOperand.compare",
  "old": "b.pyRelation op.reflected x",
  "new": "b.pyRelation op x",
  "edit": "operands swapped for integers on the left",
  "claim": "C91"
 },
 {
  "file": "Model/PyBall.lean",
  "def": "PyRel.cpp",
  "old": "| ne => XBall.ne",
  "new": "| ne => XBall.eq",
  "edit": "!= bound to == (as for rationals, F4)",
  "claim": "C91"
 },
 {
  "file": "Model/PyBall.lean",
  "def": "PyProg.run",
  "old": "| .precisionError => none",
  "new": "| .precisionError => (next false).run input",
  "edit": "PrecisionError swallowed",
  "claim": "C91: programs"
 }
]