import Verif.Spec.LogUpProof
import Verif.Spec.Sumcheck
import Mathlib.Algebra.BigOperators.Group.List.Basic
import Mathlib.Algebra.BigOperators.Group.Finset.Basic

/-!
Specification of what the softmax proof is about: the columns of the lookups, the output, the sums of the rows and the masked scores, on flat tables of `2^n` entries.

`zs` are the pairs of columns (chunk, is the chunk zero?) of the lookups into the zero table.
-/

namespace Spec

variable {F : Type} [Field F]

/-- The output: the looked-up exponential times all the zero indicators. -/
def softmaxOut (n : ℕ) (eout : List F) (zs : List (List F × List F)) : List F :=
  (List.range (2 ^ n)).map fun w => eout.getD w 0 * (zs.map fun z => z.2.getD w 0).prod

/-- The sums of consecutive blocks of `2^e` entries, of which there are `2^m`. -/
def blockSums (m e : ℕ) (t : List F) : List F :=
  (List.range (2 ^ m)).map fun r => ∑ c ∈ Finset.range (2 ^ e), t.getD (r * 2 ^ e + c) 0

/-- The numbers whose digits were looked up: two digits of eight bits `lo` and `hi`, the table index `ein`, and the chunks, the first of weight `2^(16 + tv)` and each `2^zv` times the weight
of the one before. -/
def recombined (n tv zv : ℕ) (ein lo hi : List F) (zs : List (List F × List F)) : List F :=
  (List.range (2 ^ n)).map fun w => lo.getD w 0 + 2 ^ 8 * hi.getD w 0 + 2 ^ 16 * ein.getD w 0 + 2 ^ (16 + tv) * powerSum (2 ^ zv) (zs.map fun z => z.1.getD w 0)

/-- Entry `w` of heads of `2^k` by `2^k` scores is in column `w % 2^k` and row `w / 2^k % 2^k` of its head: is the column visible from the row? -/
def causal (n k : ℕ) : List F := (List.range (2 ^ n)).map fun w => if w % 2 ^ k ≤ w / 2 ^ k % 2 ^ k then 1 else 0

/-- The masked scores: rescaled and shifted where visible, `ninf` elsewhere. The shift is that of the block of `2^e` entries. -/
def maskedScores (n k e : ℕ) (scalar ninf : F) (X shift : List F) : List F :=
  (List.range (2 ^ n)).map fun w => if w % 2 ^ k ≤ w / 2 ^ k % 2 ^ k then scalar * X.getD w 0 + shift.getD (w / 2 ^ e) 0 else ninf

/-- The function whose sum over the cube is checked by the first sumcheck: the columns of the exponential at `ep`, those of the range check at `rp`, those of the zero table at `zp`, and the output
at `fp` (times `mult`) and `lp`, batched with powers of `alpha`. -/
def softmaxSum (alpha : F) (ep rp zp fp lp : List F) (mult : F) (ein eout lo hi : List F) (zs : List (List F × List F)) (pt : List F) : F :=
  powerSum alpha ([eqPoly ep pt * mle ein pt, eqPoly ep pt * mle eout pt, eqPoly rp pt * mle lo pt, eqPoly rp pt * mle hi pt]
    ++ (zs.flatMap fun z => [eqPoly zp pt * mle z.1 pt, eqPoly zp pt * mle z.2 pt])
    ++ [mult * (eqPoly fp pt * (mle eout pt * (zs.map fun z => mle z.2 pt).prod)), eqPoly lp pt * (mle eout pt * (zs.map fun z => mle z.2 pt).prod)])

/-- The function whose sum over the cube is checked by the second sumcheck: at `sp`, the masked scores. -/
def maskSum (n k e : ℕ) (sp : List F) (scalar ninf : F) (X shift : List F) (pt : List F) : F :=
  eqPoly sp pt * (mle (causal n k) pt * (scalar * mle X pt + mle shift (pt.drop e)) + ninf * (1 - mle (causal n k) pt))

end Spec
