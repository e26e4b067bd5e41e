import Verif.Model.Text

/-! # Reading decimal numbers

The number that a decimal notation such as `-12.5`, `0.001` or `1.5e-07` stands for.  -/

namespace ExactReal.Decimal
open Text

/-- A sequence of decimal digits as a natural number. -/
def readNat (s : Str) : ℕ := s.foldl (fun n c => 10 * n + digitValue c) 0

/-- Digits, possibly with a point between them. -/
def readFixed (s : Str) : ℚ :=
  match splitAt '.' s with
  | none => readNat s
  | some (a, b) => readNat (a ++ b) / 10 ^ b.length

/-- A sign and digits. -/
def readInt : Str → ℤ
  | '-' :: s => -readNat s
  | '+' :: s => readNat s
  | s => readNat s

/-- A number without sign, possibly with an exponent behind `e`. -/
def readUnsigned (s : Str) : ℚ :=
  match splitAt 'e' s with
  | none => readFixed s
  | some (m, e) => readFixed m * 10 ^ readInt e

/-- A number with an optional sign. -/
def read : Str → ℚ
  | '-' :: s => -readUnsigned s
  | s => readUnsigned s

/-- The characters of decimal numbers. -/
def Plain (c : Char) : Prop := (48 ≤ c.toNat ∧ c.toNat ≤ 57) ∨ c = '.' ∨ c = '-' ∨ c = '+' ∨ c = 'e'

end ExactReal.Decimal
