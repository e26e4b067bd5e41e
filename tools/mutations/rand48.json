[
{"file":"Model/Rand48.lean","old":"(0x5DEECE66D * x + 0xB) % 2 ^ 48","new":"(0x5DEECE66D * x + 0xA) % 2 ^ 48","def":"Rand48.next","edit":"even increment","claim":"C57: distinct seeds give distinct numbers; loop terminates"},
{"file":"Model/Rand48.lean","old":"0x5DEECE66D * x","new":"0x5DEECE66F * x","def":"Rand48.next","edit":"wrong multiplier","claim":"C57: full period"},
{"file":"Model/Rand48.lean","old":"output / 2 ^ 30","new":"output % 2","def":"Rand48.index","edit":"digit is the lowest bit of the output instead of the bucket","claim":"C57: digits are as documented"},
{"file":"Model/Rand48.lean","old":"seed.toNat <<< 16","new":"seed.toNat % 65536 <<< 16","def":"Rand48.init","edit":"only the low 16 bits of the seed are used","claim":"C57: distinct seeds give distinct numbers"},
{"file":"Model/Rand48.lean","old":"next^[i + 1]","new":"next^[0 * i + 1]","def":"Rand48.digit","edit":"generator restarted for every digit","claim":"C57: digits contain ones (termination), distinctness"},
{"file":"Model/Rand48.lean","old":"next^[i + 1]","new":"next^[i]","def":"Rand48.digit","edit":"first output is the seed itself","claim":"C57: documented value"},
{"file":"Model/Random.lean","old":"let mantissa := gen.urandomm seed (um - lm) + lm\n    .ok (.constrained mantissa le (gen.digits seed))","new":"let mantissa := gen.urandomm seed (um - lm) + lm\n    .ok (.constrained mantissa le (gen.digits (seed + 1)))","def":"randomIn","edit":"inner number uses another seed (this would repair F15)","claim":"C58: same_seed_fails describes the actual program"}
]
