import Mathlib.Algebra.BigOperators.Group.Finset.Basic
import Mathlib.Algebra.Ring.Defs

/-!
Specification of multi-head attention on matrices in row-major order: `n` positions of `H · d` entries, head `h` in columns `h · d, …, h · d + d - 1`.
-/

namespace Spec

/-- Entry `c` of head `h` at position `i`. -/
def headEntry {α : Type} [Zero α] (H d : ℕ) (m : List α) (i h c : ℕ) : α := m.getD (i * (H * d) + (h * d + c)) 0

/-- The score of position `j` for position `i` in head `h`: the product of query and key. -/
def score {α : Type} [Semiring α] (H d : ℕ) (q k : List α) (h i j : ℕ) : α := ∑ c ∈ Finset.range d, headEntry H d q i h c * headEntry H d k j h c

/-- All scores, heads first. -/
def scores {α : Type} [Semiring α] (H d n : ℕ) (q k : List α) : List α :=
  (List.range (H * n * n)).map fun w => score H d q k (w / n / n) (w / n % n) (w % n)

/-- Entry `c` of head `h` at position `i` of the mean of the values with weights `p`. -/
def attended {α : Type} [Semiring α] (H d n : ℕ) (p v : List α) (i h c : ℕ) : α := ∑ j ∈ Finset.range n, p.getD ((h * n + i) * n + j) 0 * headEntry H d v j h c

end Spec
