import Mathlib.Analysis.SpecialFunctions.Log.Base

/-!
# Logarithms in floating point

The approximations compute extra bits as `ceil(log2(x))` in `double`s; `Verif/Model/Approx.lean` and `ElementApprox.lean` have the integer `Nat.clog 2 x`.
-/

namespace ExactReal

/-- The extra bits of a product of `n` factors, `src/real_number_product.cc:530-532`, for an implementation `log2` of the C library.  (The argument is an integer below `2 ^ 53`,
which is a `double`.) -/
noncomputable def productBits (log2 : ℕ → ℝ) (n : ℕ) : ℤ := ⌈log2 (n * 2 + (n - 1) + 1)⌉

/-- The extra bits of an element of a module of rank `r`, `src/element.cc:194-195`. -/
noncomputable def rankBits (log2 : ℕ → ℝ) (r : ℕ) : ℤ := ⌈log2 r⌉

end ExactReal
