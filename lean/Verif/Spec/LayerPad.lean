import Verif.Spec.Tensor
import Mathlib.Algebra.BigOperators.Group.Finset.Basic

/-!
Specification of matrices and of the sizes tensors are padded to.
-/

namespace Spec

/-- `m` is the least power of two from four on which is at least `n`. -/
def PadSize (n m : ℕ) : Prop := ∃ k, 2 ≤ k ∧ m = 2 ^ k ∧ n ≤ m ∧ (k = 2 ∨ 2 ^ (k - 1) < n)

/-- The entry in a row and a column of a matrix with `cols` columns, given by its data row by row. -/
def cell {α : Type} [Zero α] (cols : ℕ) (data : List α) (row col : ℕ) : α := data.getD (row * cols + col) 0

/-- The entry in a row and a column of a matrix of `rows` rows and `cols` columns, given by the data of the matrix or of its transpose. -/
def cellOf {α : Type} [Zero α] (transposed : Bool) (rows cols : ℕ) (data : List α) (row col : ℕ) : α :=
  if transposed then cell rows data col row else cell cols data row col

/-- The bias in a column, zero if there is none. -/
def biasAt {α : Type} [Zero α] (bias : Option (List α)) (col : ℕ) : α :=
  match bias with
  | none => 0
  | some b => b.getD col 0

end Spec
