import Mathlib.Algebra.Field.Defs
import Mathlib.Algebra.BigOperators.Group.List.Defs

/-!
Specification of the lookup argument: sums of fractions and the values they are built from.
-/

namespace Spec

variable {F : Type} [Field F]

/-- The sum `Σ n/d` of a list of fractions `(n, d)`. -/
def fracSum (l : List (F × F)) : F := (l.map fun nd => nd.1 / nd.2).sum

/-- The product of the denominators. -/
def denProd (l : List (F × F)) : F := (l.map Prod.snd).prod

/-- The fingerprint `Σ_j csc^j · row_j` of a row under a column separation challenge. -/
def fingerprint (csc : F) : List F → F
  | [] => 0
  | x :: xs => x + csc * fingerprint csc xs

/-- Row `i` of a list of columns. -/
def rowOf (cols : List (List F)) (i : ℕ) : List F := cols.map fun c => c.getD i 0

end Spec
