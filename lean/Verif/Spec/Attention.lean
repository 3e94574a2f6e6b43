import Mathlib.Data.List.Basic
import Mathlib.Algebra.Group.Int.Defs

/-!
Specification of the quantised softmax over the visible part of a row.

A tensor of `H` heads of `n × n` scores is a list of `H · n · n` integers in row-major order: entry `(h, i, j)` is at position `(h · n + i) · n + j`.
-/

namespace Spec

/-- The scores position `i` of head `h` may attend to: `(h, i, 0), …, (h, i, i)`. -/
def visible (n : ℕ) (data : List ℤ) (h i : ℕ) : List ℤ := (List.range (i + 1)).map fun j => data.getD ((h * n + i) * n + j) 0

/-- The shift that normalises a row of visible scores: minus the largest score, rescaled, minus the logarithm of the sum of the exponentials of the differences from it (`logSum`, in the scale of the
rescaled scores). A row of a single score is shifted to zero. -/
def IsShift (scalar : ℤ) (logSum : List ℤ → ℤ) (row : List ℤ) (s : ℤ) : Prop :=
  (∃ x, row = [x] ∧ s = -(x * scalar)) ∨ (1 < row.length ∧ ∃ m, m ∈ row ∧ (∀ x ∈ row, x ≤ m) ∧ s = -(logSum (row.map fun x => x - m)) - m * scalar)

end Spec
