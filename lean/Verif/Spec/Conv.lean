import Mathlib.Algebra.BigOperators.Group.Finset.Basic
import Mathlib.Algebra.BigOperators.Intervals
import Mathlib.Algebra.Ring.Defs

/-!
Specification of the convolution: no padding, c input channels, kernels of size kh×kw.
-/

namespace Spec

open Finset in
/-- Channel `o`, row `r`, column `s` of the convolution of `x` (channel, row, column) with `kernel` (output channel, input channel,
row, column), without bias. -/
def convSum {R : Type} [Semiring R] (c kh kw stride : ℕ) (kernel : ℕ → ℕ → ℕ → ℕ → R) (x : ℕ → ℕ → ℕ → R) (o r s : ℕ) : R :=
  ∑ j ∈ range c, ∑ a ∈ range kh, ∑ b ∈ range kw, x j (r * stride + a) (s * stride + b) * kernel o j a b

end Spec
