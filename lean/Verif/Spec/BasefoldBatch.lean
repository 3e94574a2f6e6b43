import Verif.Spec.Basefold
import Verif.Spec.Encoding

/-! Specification for the opening of several polynomials at several points, independent of the model. A claim is a table, a point and the value that the
multilinear extension of the table is said to have at the point. A claim about a polynomial of fewer variables than the batch reads only the first
coordinates. -/

namespace Spec

variable {F : Type} [Field F]

/-- The polynomial whose sum over the cube of the batch is the weighted sum of the true values. -/
def batchPoly (claims : List (List F × List F × F)) (weights x : List F) : F :=
  ((claims.zip weights).map fun p => eqPoly p.1.2.1 (x.take p.1.2.1.length) * mle p.1.1 (x.take p.1.2.1.length) * p.2).sum

/-- Its sum over the cube with the first variables fixed. -/
def batchPartial (n : ℕ) (claims : List (List F × List F × F)) (weights fixed : List F) : F :=
  cubeSum (n - fixed.length) fun x => batchPoly claims weights (fixed ++ x)

/-- The table of `n` variables that is opened after the first sumcheck: the weighted sum of the tables, each repeated to fill the cube, with the factor
`eq(point, challenges)` of its claim. -/
def batchedTable (n : ℕ) (claims : List (List F × List F × F)) (weights challenges : List F) : List F :=
  (List.range (2 ^ n)).map fun i =>
    ((claims.zip weights).map fun p => p.1.1.getD (i % 2 ^ p.1.2.1.length) 0 * (eqPoly p.1.2.1 (challenges.take p.1.2.1.length) * p.2)).sum

/-- Some value is wrong, yet the weighted errors add up to zero; the claim about fewer variables is counted once for each value of the others. -/
def LuckyBatch (n : ℕ) (claims : List (List F × List F × F)) (weights : List F) : Prop :=
  (∃ p ∈ claims, p.2.2 ≠ mle p.1 p.2.1) ∧
    ((claims.zip weights).map fun p => (p.1.2.2 - mle p.1.1 p.1.2.1) * 2 ^ (n - p.1.2.1.length) * p.2).sum = 0

/-- The prover of the first sumcheck was lucky: some message, as a polynomial, differs from the true one, yet both agree at the challenge drawn after
that message. -/
def LuckyBatchRound (n : ℕ) (claims : List (List F × List F × F)) (weights : List F) (messages : List (List F)) (challenges : List F) : Prop :=
  ∃ (i : ℕ) (m : List F), i < challenges.length ∧ messages[i]? = some m ∧
    (∃ X, polyEval m X ≠ batchPartial n claims weights (challenges.take i ++ [X])) ∧
    polyEval m (challenges.getD i 0) = batchPartial n claims weights (challenges.take i ++ [challenges.getD i 0])

/-- The weighted sum of the values that belong to the polynomials of `v` variables. -/
def matchingSum (vars : List ℕ) (coeffs values : List F) (v : ℕ) : F :=
  ∑ i ∈ Finset.range vars.length, if vars.getD i 0 = v then values.getD i 0 * coeffs.getD i 0 else 0

end Spec
