[{"file":"Model/GmpRandom.lean","def":"GmpRandom.word","old":"(recalc^[3 + (128 + i) / 624]","new":"(recalc^[3 - (128 + i) / 624]","edit":"the state is not recomputed after 496 words","claim":"C64: values of random numbers (conformance with GMP)","tightened":"Conformance/Random: words 495..1299 of libgmp"},
{"file":"Model/GmpRandom.lean","def":"GmpRandom.word","old":".getD ((128 + i) % 624) 0)","new":".getD ((128 + i) % 623) 0)","edit":"wrong period","claim":"C64: values of random numbers (conformance with GMP)"}]
