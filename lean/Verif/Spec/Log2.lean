import Mathlib.Analysis.SpecialFunctions.Log.Base

/-!
# What is expected of the C library's `log2`
-/

namespace ExactReal

/-- The error is less than `2 ^ -33` (`double`s below 64 have at least 47 bits after the point, so the last 13 of them may be wrong). -/
def Log2Near (log2 : ℕ → ℝ) : Prop := ∀ m : ℕ, 1 ≤ m → m < 2 ^ 33 → |log2 m - Real.logb 2 m| < 2 ^ (-33 : ℤ)

/-- Powers of two are exact. -/
def Log2Exact (log2 : ℕ → ℝ) : Prop := ∀ k : ℕ, k < 33 → log2 (2 ^ k) = k

end ExactReal
