import Verif.Spec.Layers
import Verif.Spec.LogUpProof

/-!
Specification of max pooling over 2×2 windows, on flat tensors, and of the entrywise product of tables.
-/

namespace Spec

variable {F : Type} [Field F]

/-- `o` is the largest of the numbers `xs`. -/
def WindowMax (o : ℤ) (xs : List ℤ) : Prop := o ∈ xs ∧ ∀ x ∈ xs, x ≤ o

/-- In a flat tensor with rows of `2^(gap+1)` entries: the entries in column `c` and row `rho` (0 or 1) of all `2^n` windows of two
by two entries, in the order of the windows. -/
def windowEntries (n gap c rho : ℕ) (X : List F) : List F :=
  (List.range (2 ^ n)).map fun w =>
    X.getD ((2 * (w / 2 ^ gap) + rho) * 2 ^ (gap + 1) + (2 * (w % 2 ^ gap) + c)) 0

/-- Entrywise product of four tables. -/
def product4 (n : ℕ) (a b c d : List F) : List F :=
  (List.range (2 ^ n)).map fun w => a.getD w 0 * b.getD w 0 * c.getD w 0 * d.getD w 0

/-- The function whose sum over the cube is checked by the pooling protocol: product of the differences and the differences at `lp`, and
the output at `lq`, batched with powers of `chal`. -/
def poolingSum (chal : F) (lp lq d0 d1 d2 d3 o pt : List F) : F :=
  eqPoly lp pt * (mle d0 pt * mle d1 pt * mle d2 pt * mle d3 pt + chal * mle d0 pt + chal ^ 2 * mle d1 pt + chal ^ 3 * mle d2 pt
    + chal ^ 4 * mle d3 pt) + chal ^ 5 * (eqPoly lq pt * mle o pt)

/-- The function whose sum over the cube is checked by the requantisation protocol: the clamped column at `lq` and `lp`, the column before
clamping at `lp`, the chunks at `ls`, batched with powers of `chal`. -/
def requantSum (chal : F) (lq lp ls cout cin : List F) (chunks : List (List F)) (pt : List F) : F :=
  eqPoly lq pt * mle cout pt + chal * (eqPoly lp pt * mle cout pt) + chal ^ 2 * (eqPoly lp pt * mle cin pt)
    + chal ^ 3 * powerSum chal (chunks.map fun t => eqPoly ls pt * mle t pt)

end Spec
