import Verif.Spec.BasefoldBatch

/-! Specification for the opening of several polynomials at one point, independent of the model. -/

namespace Spec

variable {F : Type} [Field F]

/-- The weighted sum of tables of `n` variables. -/
def combined (n : ℕ) (weights : List F) (fs : List (List F)) : List F :=
  (List.range (2 ^ n)).map fun i => ((fs.zip weights).map fun p => p.1.getD i 0 * p.2).sum

end Spec
