[
{"file":"Model/BallRational.lean","def":"scaled","old":"a.rad.map fun r => mag (r * q.den)","new":"a.rad.map fun r => mag r","edit":"the radius is not scaled","claim":"C29: soundness"},
{"file":"Model/BallRational.lean","def":"mulMid","old":"| .fin q => .fin (q * n)","new":"| .fin q => .fin q","edit":"the midpoint is not scaled","claim":"C29: soundness"},
{"file":"Model/BallRational.lean","def":"cmpQ","old":"(ofMpz q.num)","new":"(ofMpz q.den)","edit":"compared with the denominator","claim":"C29: soundness"},
{"file":"Model/BallRational.lean","def":"mulMid","old":"| x => x","new":"| x => .nan","edit":"infinite midpoints become indeterminate","claim":"C29: exact balls are comparable"},
{"file":"Model/BallRational.lean","def":"neQ","old":"cmpQ mag eq a q","new":"cmpQ mag ne a q","edit":"!= is repaired","claim":"C29: finding F4 would not exist"},
{"file":"Model/BallRational.lean","def":"scaled","old":"a.rad.map fun r => mag (r * q.den)","new":"some (mag ((a.rad.getD 0) * q.den))","edit":"infinite radii are dropped","claim":"C29: soundness"}
]
