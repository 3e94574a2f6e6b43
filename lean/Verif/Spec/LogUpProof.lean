import Verif.Spec.Mle
import Verif.Spec.LogUp

/-!
Specification of what a lookup proof is about: layers of fractions, the claims about them, and the evaluations the
prover sends in a round.
-/

namespace Spec

variable {F : Type} [Field F]

/-- The layer above: fraction `i` of the first half is added to fraction `i` of the second half. -/
def halve (fr : List (F × F)) : List (F × F) :=
  List.zipWith (fun a b => (a.1 * b.2 + a.2 * b.1, a.2 * b.2)) (fr.take (fr.length / 2)) (fr.drop (fr.length / 2))

/-- `Σ_s alpha^s · t_s`. -/
def powerSum (alpha : F) : List F → F
  | [] => 0
  | t :: ts => t + alpha * powerSum alpha ts

/-- The true value of the batched claim about a layer at `p`: numerators and denominators of each instance are combined
with `lambda` and the instances with powers of `alpha`. In the input layer of lookups (`lk`) only the denominators
are used. -/
def layerClaim (lk : Bool) (alpha lambda : F) (p : List F) (frs : List (List (F × F))) : F :=
  powerSum alpha (frs.map fun fr =>
    if lk then mle (fr.map Prod.snd) p else mle (fr.map Prod.fst) p + lambda * mle (fr.map Prod.snd) p)

/-- The true evaluations of the four halves at `x`, in the order in which the prover sends them: numerators low,
denominators high, numerators high, denominators low. -/
def trueQuad (x : List F) (fr : List (F × F)) : F × F × F × F :=
  (mle ((fr.map Prod.fst).take (2 ^ x.length)) x, mle ((fr.map Prod.snd).drop (2 ^ x.length)) x,
    mle ((fr.map Prod.fst).drop (2 ^ x.length)) x, mle ((fr.map Prod.snd).take (2 ^ x.length)) x)

/-- The summand of a round's sumcheck: `eq(p, x) · Σ_s alpha^s (n0·d1 + n1·d0 + lambda·d0·d1)(x)`. -/
def layerPoly (alpha lambda : F) (p : List F) (frs : List (List (F × F))) (x : List F) : F :=
  powerSum alpha (frs.map fun fr =>
    let q := trueQuad x fr
    eqPoly p x * (q.1 * q.2.1 + q.2.2.1 * q.2.2.2 + lambda * q.2.2.2 * q.2.1))

end Spec
