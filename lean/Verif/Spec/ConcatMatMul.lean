import Verif.Spec.Tensor
import Mathlib.Algebra.BigOperators.Group.Finset.Basic
import Mathlib.Algebra.Ring.Defs

/-!
Products of stacks of matrices, independent of the model.
-/

namespace Spec

/-- The entry of a 3d tensor with index `i` along dimension `cd`, `k` along dimension `md` and `j` along the remaining one. -/
def entry3 {α : Type} [Zero α] (shape : List ℕ) (data : List α) (cd md i k j : ℕ) : α :=
  data.getD (flat shape [if 0 = cd then i else if 0 = md then k else j, if 1 = cd then i else if 1 = md then k else j, if 2 = cd then i else if 2 = md then k else j]) 0

/-- `out` is the stack of the `n` products of the matrices of two stacks, axes in the given order. Axis `cl` of the first stack and axis `cr` of the second number the matrices, axes `ml` and `mr`, of size
`k`, are summed over, the remaining axes, of sizes `m` and `p`, are those of the products. -/
def IsConcatProduct {α : Type} [Semiring α] (order : List ℕ) (n m k p : ℕ) (cl ml : ℕ) (shapeL : List ℕ) (L : List α) (cr mr : ℕ) (shapeR : List ℕ) (R : List α)
    (shape : List ℕ) (out : List α) : Prop :=
  shape = order.map (fun o => [n, m, p].getD o 0) ∧ out.length = n * m * p ∧
  ∀ i a b, i < n → a < m → b < p → out.getD (flat shape (order.map fun o => [i, a, b].getD o 0)) 0
    = ∑ x ∈ Finset.range k, entry3 shapeL L cl ml i x a * entry3 shapeR R cr mr i x b

end Spec
