[
 {
  "file": "Model/Log2.lean",
  "def": "productBits",
  "old": "⌈log2 (n * 2 + (n - 1) + 1)⌉",
  "new": "⌈log2 (n * 2 + (n - 1))⌉",
  "edit": "the + 1 is dropped",
  "claim": "C90: extra bits of products"
 },
 {
  "file": "Model/Log2.lean",
  "def": "productBits",
  "old": "⌈log2 (n * 2 + (n - 1) + 1)⌉",
  "new": "⌊log2 (n * 2 + (n - 1) + 1)⌋",
  "edit": "rounds down",
  "claim": "C90: extra bits of products"
 },
 {
  "file": "Model/Log2.lean",
  "def": "rankBits",
  "old": "⌈log2 r⌉",
  "new": "⌈log2 (r + 1)⌉",
  "edit": "one generator more",
  "claim": "C90: extra bits of elements"
 },
 {
  "file": "Model/Log2.lean",
  "def": "rankBits",
  "old": "⌈log2 r⌉",
  "new": "⌊log2 r⌋ + 1",
  "edit": "floor + 1 instead of ceil",
  "claim": "C90: extra bits of elements"
 }
]