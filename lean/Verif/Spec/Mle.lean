import Mathlib.Algebra.BigOperators.Group.Finset.Basic
import Mathlib.Algebra.BigOperators.Fin
import Mathlib.Algebra.Field.Basic

/-!
Specification of multilinear extensions, independent of the model.

A table of `2^n` values is read as a function on `n`-bit indices; bit `j` of the index is the value
of variable `j` (variable `0` is the least significant bit).
-/

namespace Spec

variable {F : Type} [Field F]

/-- `chi r b = ∏_j (if bit j of b then r_j else 1 - r_j)`: the multilinear indicator of index `b`. -/
def chi (r : List F) (b : ℕ) : F :=
  ∏ j : Fin r.length, if b.testBit j then r[j] else 1 - r[j]

/-- The multilinear extension of the table `t` at `r`: `∑_b t[b] * chi r b` over all
`r.length`-bit indices `b`. -/
def mle (t : List F) (r : List F) : F :=
  ∑ b ∈ Finset.range (2 ^ r.length), t.getD b 0 * chi r b

/-- The `eq` polynomial `∏_j (x_j y_j + (1-x_j)(1-y_j))` of two points (as lists of the same length). -/
def eqPoly : List F → List F → F
  | x :: xs, y :: ys => (x * y + (1 - x) * (1 - y)) * eqPoly xs ys
  | _, _ => 1

/-- The 0/1 point of length `n` whose coordinates are the bits of `b`, least significant first. -/
def bitsPoint (n b : ℕ) : List F :=
  (List.range n).map fun j => if b.testBit j then 1 else 0

end Spec
