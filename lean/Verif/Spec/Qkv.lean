import Mathlib.Algebra.BigOperators.Group.Finset.Basic
import Mathlib.Algebra.Ring.Defs
import Mathlib.Data.List.GetD

/-!
Specification of one projection of the query-key-value layer: a matrix product with a bias added to every row.
-/

namespace Spec

/-- `out` is the `m` by `n` matrix `X · W + b`, where `X` is `m` by `e`, `W` is `e` by `n`, all stored by rows, and `b` is added to every row. -/
def IsProjection {α : Type} [Semiring α] (m e n : ℕ) (X W b out : List α) : Prop :=
  out.length = m * n ∧ ∀ i j, i < m → j < n →
    out.getD (i * n + j) 0 = (∑ k ∈ Finset.range e, X.getD (i * e + k) 0 * W.getD (k * n + j) 0) + b.getD j 0

end Spec
