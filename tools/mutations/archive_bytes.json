[
{"file":"Model/ArchiveBytes.lean","def":"fetchNumber","old":"        let p ← onBase fun s => s.random alloc (UInt32.ofNat seed)\n        register (id - 2 ^ 31) p","new":"        onBase fun s => s.random alloc (UInt32.ofNat seed)","edit":"random numbers are not registered","claim":"C87"},
{"file":"Model/ArchiveBytes.lean","def":"fetchNumber","old":"        register (id - 2 ^ 31) p\n      else if kind = kindConstrained","new":"        register id p\n      else if kind = kindConstrained","edit":"registered with the most significant bit","claim":"C87"},
{"file":"Model/ArchiveBytes.lean","def":"fetchNumber","old":"        let i ← arf\n        let e ← long\n","new":"        let e ← long\n        let i ← arf\n","edit":"reader swaps initial and e","claim":"C87"},
{"file":"Model/ArchiveBytes.lean","def":"Fetch.take","old":"if n ≤ b.length then .ok (b.take n) (b.drop n) else .cereal","new":"if n ≤ b.length then .ok (b.take n) (b.drop n) else .ok b []","edit":"short reads are not noticed","claim":"C87"},
{"file":"Model/ArchiveBytes.lean","def":"Fetch.take","old":"if n ≤ b.length then .ok","new":"if n ≤ b.length + 1 then .ok","edit":"the last byte may be missing","claim":"C87"},
{"file":"Model/ArchiveBytes.lean","def":"Fetch.long","old":"if n < 2 ^ 63 then (n : ℤ) else (n : ℤ) - 2 ^ 64","new":"if n < 2 ^ 63 then (n : ℤ) else (n : ℤ) - 2 ^ 63","edit":"wrong two's complement","claim":"C87"},
{"file":"Model/ArchiveBytes.lean","def":"Fetch.arf","old":"  let _ ← nat 8\n  let x ← call (loadArf s)","new":"  let x ← call (loadArf s)","edit":"the approximation is not skipped","claim":"C87"},
{"file":"Model/ArchiveBytes.lean","def":"fetchModule","old":"    let m ← act fun r => ({ r with proc := (r.proc.make malloc x basis).1 }, (r.proc.make malloc x basis).2)","new":"    let m ← act fun r => ({ r with proc := { (r.proc.make malloc x basis).1 with mroots := [] } }, (r.proc.make malloc x basis).2)","edit":"reading a module drops the program's modules","claim":"C87"},
{"file":"Model/ArchiveBytes.lean","def":"fetchModule","old":"act fun r => ({ r with modules := (id - 2 ^ 31, m) :: r.modules }, (m, false))","new":"act fun r => (r, (m, false))","edit":"modules are not registered","claim":"C87"},
{"file":"Model/ArchiveBytes.lean","def":"fetch","old":"    let k ← nat 8\n    let cs ← times (Fetch.read coefficient.fetch) k\n    if m.2","new":"    let k ← nat 4\n    let cs ← times (Fetch.read coefficient.fetch) k\n    if m.2","edit":"size with 32 bits","claim":"C87"},
{"file":"Model/ArchiveBytes.lean","def":"fetchNumber","old":"        let k ← nat 8\n        let f ← fetchEntries (fetchNumber alloc n) k []\n        let p","new":"        let k ← nat 8\n        onBase fun s => ({ s with roots := [] }, ())\n        let f ← fetchEntries (fetchNumber alloc n) k []\n        let p","edit":"reading a product destroys references","claim":"C87"},
{"file":"Model/ArchiveBytes.lean","def":"fetchEntries","old":"    let p ← number\n    let e ← nat 4\n","new":"    let e ← nat 4\n    let p ← number\n","edit":"exponent before key","claim":"C87"},
{"file":"Model/ArchiveBytes.lean","def":"Tree.bytes","old":"bytesOfId true id ++ (bytesOfStr kindProduct ++ (bytesOf 8 ts.size ++ ts.bytes approx))","new":"bytesOfId true id ++ (bytesOfStr kindProduct ++ (bytesOf 4 ts.size ++ ts.bytes approx))","edit":"writer: size with 32 bits","claim":"C87"},
{"file":"Model/ArchiveBytes.lean","def":"kindRandom","old":"def kindRandom : Str := \"random\".toList","new":"def kindRandom : Str := \"rational\".toList","edit":"same name for two kinds","claim":"C87"}
]
