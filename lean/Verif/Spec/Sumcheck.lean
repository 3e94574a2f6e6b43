import Verif.Spec.Mle
import Mathlib.Algebra.Polynomial.Eval.Degree

/-!
Specification of what the sumcheck protocol is about, independent of prover and verifier.
-/

namespace Spec
open Polynomial

variable {F : Type} [Field F]

/-- The sum of `g` over all 0/1 points of length `n`. -/
def cubeSum (n : ℕ) (g : List F → F) : F :=
  ∑ b ∈ Finset.range (2 ^ n), g (bitsPoint n b)

/-- `g`, as a function of `n` variables, is in each variable (the others fixed arbitrarily) a polynomial
of degree at most `d`. -/
def IndivDegreeLE (n d : ℕ) (g : List F → F) : Prop :=
  ∀ pre post : List F, pre.length + 1 + post.length = n →
    ∃ P : F[X], P.natDegree ≤ d ∧ ∀ x, g (pre ++ x :: post) = P.eval x

/-- A sum of scaled products of multilinear tables, at a point. A term is a coefficient and a list of
tables, each given by its number of variables and its values; a table with fewer variables than the
point only looks at the first coordinates. -/
def sumOfProducts (terms : List (F × List (ℕ × List F))) (pt : List F) : F :=
  (terms.map fun t => t.1 * (t.2.map fun m => mle m.2 (pt.take m.1)).prod).sum

end Spec
