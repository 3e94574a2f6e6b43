import Verif.Spec.LogUpProof
import Verif.Spec.Sumcheck
import Mathlib.Algebra.BigOperators.Group.List.Basic
import Mathlib.Algebra.BigOperators.Group.Finset.Basic

/-!
Specification of what the proof of a layer normalisation is about. The input is a flat table of `2^n` numbers, in rows of `2^v`; `N` is the number of entries of a row before padding.
-/

namespace Spec

variable {F : Type} [Field F]

/-- The sum of row `r`. -/
def normSum (v : ℕ) (X : List F) (r : ℕ) : F := ∑ c ∈ Finset.range (2 ^ v), X.getD (r * 2 ^ v + c) 0

/-- The sum of the row an entry is in. -/
def normSums (n v : ℕ) (X : List F) : List F := (List.range (2 ^ n)).map fun w => normSum v X (w / 2 ^ v)

/-- For each of `2^m` rows the number that is looked up: `mult (N Σ x² - (Σ x)²)`. -/
def normVariance (m v : ℕ) (N mult : F) (X : List F) : List F :=
  (List.range (2 ^ m)).map fun r => mult * (N * (∑ c ∈ Finset.range (2 ^ v), X.getD (r * 2 ^ v + c) 0 ^ 2) - normSum v X r ^ 2)

/-- The output: `gamma (N x - Σ x)` times the number looked up for the row, plus `beta`. -/
def normOutput (n v : ℕ) (N : F) (gamma beta X eout : List F) : List F :=
  (List.range (2 ^ n)).map fun w => eout.getD (w / 2 ^ v) 0 * gamma.getD (w % 2 ^ v) 0 * (N * X.getD w 0 - normSum v X (w / 2 ^ v)) + beta.getD (w % 2 ^ v) 0

/-- The number a row's index and chunks stand for: chunks of `bl` bits, the last of which was multiplied by `2^top`, and the index above the `bits` range checked bits. -/
def normRecombined (m bits bl top : ℕ) (ein : List F) (rs : List (List F)) (rl : List F) : List F :=
  (List.range (2 ^ m)).map fun r => 2 ^ bits * ein.getD r 0 + powerSum (2 ^ bl) (rs.map fun t => t.getD r 0) + (2 ^ bl) ^ rs.length * (rl.getD r 0 / 2 ^ top)

/-- A linear combination. -/
def weightedSum (w l : List F) : F := (List.zipWith (· * ·) w l).sum

/-- The function summed in the first sumcheck: the columns of the inverse square root at `ip`, those of the range check at `rp`. -/
def normAccSum (w ip rp ein eout : List F) (rs : List (List F)) (pt : List F) : F :=
  weightedSum w ([eqPoly ip pt * mle ein pt, eqPoly ip pt * mle eout pt] ++ rs.map fun t => eqPoly rp pt * mle t pt)

/-- The function summed in the second sumcheck, `fp` being the lookup point with the variables of the rows set to one half. -/
def normIoSum (n v : ℕ) (A B G N mult : F) (fp lp X gamma beta eout : List F) (pt : List F) : F :=
  A * (mult * (eqPoly fp pt * (N * 2 ^ v * mle X pt ^ 2 - mle (normSums n v X) pt ^ 2)))
    + B * (eqPoly lp pt * (mle eout (pt.drop v) * mle gamma (pt.take v) * (N * mle X pt - mle (normSums n v X) pt) + mle beta (pt.take v)))
    + G * (eqPoly fp pt * mle eout (pt.drop v))

/-- The function summed in the third sumcheck: the input at `iop` and at the point with the variables of the rows set to one half. -/
def normInputSum (v : ℕ) (c : F) (iop X : List F) (pt : List F) : F :=
  (1 - c) * (eqPoly iop pt * mle X pt) + c * (2 ^ v * (eqPoly (List.replicate v (2 : F)⁻¹ ++ iop.drop v) pt * mle X pt))

end Spec
