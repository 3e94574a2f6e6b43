import Mathlib.Algebra.BigOperators.Group.Finset.Basic
import Mathlib.Algebra.Field.Rat

/-!
Specification of layer normalisation: the mean and the variance of `n` numbers `x 0, …, x (n - 1)`.
-/

namespace Spec

/-- The mean of `n` numbers. -/
def mean (n : ℕ) (x : ℕ → ℚ) : ℚ := (∑ j ∈ Finset.range n, x j) / n

/-- The mean squared deviation from the mean. -/
def variance (n : ℕ) (x : ℕ → ℚ) : ℚ := (∑ j ∈ Finset.range n, (x j - mean n x) ^ 2) / n

end Spec
