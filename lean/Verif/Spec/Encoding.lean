import Verif.Spec.Mle

/-!
Specification of the coefficient form of a multilinear polynomial and of Reed-Solomon codewords, independent of the model.
-/

namespace Spec

variable {F : Type} [Field F]

/-- The monomial `∏_{j : bit j of i} x_j`. -/
def monomial (x : List F) (i : ℕ) : F := ∏ j : Fin x.length, if i.testBit j then x[j] else 1

/-- The multilinear polynomial with coefficients `c` (coefficient `i` belongs to `monomial x i`) at `x`. -/
def coeffForm (c : List F) (x : List F) : F := ∑ i ∈ Finset.range (2 ^ x.length), c.getD i 0 * monomial x i

/-- The univariate polynomial with coefficients `c` at `x`. -/
def polyEval (c : List F) (x : F) : F := ∑ i ∈ Finset.range c.length, c.getD i 0 * x ^ i

end Spec
